import Verif.Spec.InputSizes
import Verif.Lemmas.Poly

/-! # Lemmas for inputs of any size -/

namespace Cyjax.Polynomial

open MvPolynomial

mutual
theorem compileExpr_of_syms (m : Meta) (var : List (List Char × Val)) (par : Option (List ℂ)) (ρ : Sym → ℂ) :
    (e : Expr) → e.Real → (∀ s ∈ e.symbols, ∃ f, compileSym m s = .ok f ∧ f var par = .ok (ρ s)) →
    ∃ f, compileExpr m e = .ok f ∧ f var par = .ok (e.value ρ)
  | .sym s, _, hs => by
    simpa only [compileExpr, Expr.value] using hs s (by simp [Expr.symbols])
  | .int n, _, _ => ⟨_, by rw [compileExpr], by simp [Expr.value]⟩
  | .float n, _, _ => ⟨_, by rw [compileExpr], by simp [Expr.value]⟩
  | .imagUnit, h, _ => by simp [Expr.Real] at h
  | .other, h, _ => by simp [Expr.Real] at h
  | .add args, h, hs => by
    obtain ⟨fs, h1, h2⟩ := compileList_of_syms m var par ρ args (by simpa [Expr.Real] using h)
      (by simpa [Expr.symbols] using hs)
    refine ⟨applyOp pySum fs, by simp only [compileExpr, h1], ?_⟩
    simp only [applyOp, h2, Expr.value, pySum_eq]
  | .mul args, h, hs => by
    obtain ⟨fs, h1, h2⟩ := compileList_of_syms m var par ρ args (by simpa [Expr.Real] using h)
      (by simpa [Expr.symbols] using hs)
    refine ⟨applyOp Util.prod fs, by simp only [compileExpr, h1], ?_⟩
    simp only [applyOp, h2, Expr.value, prod_eq]
  | .pow b n, h, hs => by
    obtain ⟨f, h1, h2⟩ := compileExpr_of_syms m var par ρ b (by simpa [Expr.Real] using h)
      (by simpa [Expr.symbols] using hs)
    exact ⟨powFn f n, by simp only [compileExpr, h1], by simp only [powFn, h2, Expr.value]⟩

theorem compileList_of_syms (m : Meta) (var : List (List Char × Val)) (par : Option (List ℂ)) (ρ : Sym → ℂ) :
    (es : List Expr) → Expr.RealList es →
    (∀ s ∈ Expr.symbolsList es, ∃ f, compileSym m s = .ok f ∧ f var par = .ok (ρ s)) →
    ∃ fs, compileList m es = .ok fs ∧ runAll var par fs = .ok (Expr.values ρ es)
  | [], _, _ => ⟨[], by simp only [compileList], by simp only [runAll, Expr.values]⟩
  | e :: es, h, hs => by
    rw [Expr.RealList] at h
    rw [Expr.symbolsList] at hs
    obtain ⟨f, h1, h2⟩ := compileExpr_of_syms m var par ρ e h.1 (fun s hs' => hs s (List.mem_append_left _ hs'))
    obtain ⟨fs, h3, h4⟩ := compileList_of_syms m var par ρ es h.2 (fun s hs' => hs s (List.mem_append_right _ hs'))
    exact ⟨f :: fs, by simp only [compileList, h1, h3], by simp only [runAll, h2, h4, Expr.values]⟩
end

mutual
theorem compileExpr_fails (m : Meta) (var : List (List Char × Val)) (par : Option (List ℂ)) (s : Sym)
    (hbad : ∀ f, compileSym m s = .ok f → ∃ e, f var par = .error e) :
    (e : Expr) → s ∈ e.symbols → ∀ f, compileExpr m e = .ok f → ∃ err, f var par = .error err
  | .sym t, hs, f, hf => by
    simp only [Expr.symbols, List.mem_singleton] at hs
    subst hs
    simp only [compileExpr] at hf
    exact hbad f hf
  | .int n, hs, _, _ => by simp [Expr.symbols] at hs
  | .float n, hs, _, _ => by simp [Expr.symbols] at hs
  | .imagUnit, hs, _, _ => by simp [Expr.symbols] at hs
  | .other, hs, _, _ => by simp [Expr.symbols] at hs
  | .add args, hs, f, hf => by
    simp only [compileExpr] at hf
    cases hc : compileList m args with
    | error e => rw [hc] at hf; cases hf
    | ok fs =>
      rw [hc] at hf
      cases hf
      obtain ⟨e, he⟩ := compileList_fails m var par s hbad args (by simpa [Expr.symbols] using hs) fs hc
      exact ⟨e, by simp only [applyOp, he]⟩
  | .mul args, hs, f, hf => by
    simp only [compileExpr] at hf
    cases hc : compileList m args with
    | error e => rw [hc] at hf; cases hf
    | ok fs =>
      rw [hc] at hf
      cases hf
      obtain ⟨e, he⟩ := compileList_fails m var par s hbad args (by simpa [Expr.symbols] using hs) fs hc
      exact ⟨e, by simp only [applyOp, he]⟩
  | .pow b n, hs, f, hf => by
    simp only [compileExpr] at hf
    cases hc : compileExpr m b with
    | error e => rw [hc] at hf; cases hf
    | ok g =>
      rw [hc] at hf
      cases hf
      obtain ⟨e, he⟩ := compileExpr_fails m var par s hbad b (by simpa [Expr.symbols] using hs) g hc
      exact ⟨e, by simp only [powFn, he]⟩

theorem compileList_fails (m : Meta) (var : List (List Char × Val)) (par : Option (List ℂ)) (s : Sym)
    (hbad : ∀ f, compileSym m s = .ok f → ∃ e, f var par = .error e) :
    (es : List Expr) → s ∈ Expr.symbolsList es → ∀ fs, compileList m es = .ok fs →
    ∃ err, runAll var par fs = .error err
  | [], hs, _, _ => by simp [Expr.symbolsList] at hs
  | e :: es, hs, fs, hf => by
    rw [Expr.symbolsList] at hs
    simp only [compileList] at hf
    cases hc : compileExpr m e with
    | error e => rw [hc] at hf; cases hf
    | ok f =>
      rw [hc] at hf
      cases hd : compileList m es with
      | error e => rw [hd] at hf; cases hf
      | ok gs =>
        rw [hd] at hf
        cases hf
        rcases List.mem_append.1 hs with h | h
        · obtain ⟨err, he⟩ := compileExpr_fails m var par s hbad e h f hc
          exact ⟨err, by simp only [runAll, he]⟩
        · obtain ⟨err, he⟩ := compileList_fails m var par s hbad es h gs hd
          cases hx : f var par with
          | error e' => exact ⟨e', by simp only [runAll, hx]⟩
          | ok x => exact ⟨err, by simp only [runAll, hx, he]⟩
end

theorem mem_polyExpr_symbols (p : MvPolynomial Sym ℂ) (s : Sym) (hs : s ∈ p.vars) :
    s ∈ (polyExpr p).symbols := by
  obtain ⟨m, hm, hsm⟩ := (mem_vars_iff_mem_support s).1 hs
  unfold polyExpr
  rw [Expr.symbols, symbolsList_eq, List.mem_flatMap]
  refine ⟨_, List.mem_map.2 ⟨m, Finset.mem_toList.2 hm, rfl⟩, ?_⟩
  unfold termExpr
  rw [Expr.symbols, symbolsList_eq, List.flatMap_cons, numExpr_symbols, List.nil_append, List.mem_flatMap]
  refine ⟨_, List.mem_map.2 ⟨s, Finset.mem_toList.2 hsm, rfl⟩, ?_⟩
  unfold powExpr
  split_ifs <;> simp [Expr.symbols]

/-- Looking up an input. -/
theorem dictGet_inputs (m : Meta) (hm : m.WF) (x : List Char × Option (List ℕ) → Val)
    (v : List Char × Option (List ℕ)) (hv : v ∈ m.vars) :
    dictGet (m.names.zip (m.vars.map x)) v.1 = some (x v) := by
  have hzip : m.names.zip (m.vars.map x) = m.vars.map (fun v => (v.1, x v)) := by
    unfold Meta.names; rw [List.zip_map']
  rw [hzip]
  apply dictGet_of_mem
  · have h := hm.namesNodup
    unfold Meta.names at h
    rw [List.map_map]; exact h
  · exact List.mem_map.2 ⟨v, hv, rfl⟩

/-- A symbol of an array variable reads the entry at the position of its index. -/
theorem compileSym_array (m : Meta) (hm : m.WF) (v : List Char × Option (List ℕ)) (hv : v ∈ m.vars)
    (inds : List ℕ) (hi : v.2 = some inds) (k : ℕ) (hk : k < inds.length) :
    compileSym m (mergeSubscript v.1 inds[k]) = .ok (readVec v.1 k) := by
  have hvars : dictGet m.vars v.1 = some v.2 := dictGet_of_mem _ hm.namesNodup hv
  have hmem : v.1 ∈ m.names := List.mem_map.2 ⟨v, hv, rfl⟩
  unfold compileSym
  rw [splitSubscript_merge v.1 (hm.good _ hv)]
  simp only [if_pos hmem, hvars, hi]
  have hnd : (inds.map (fun (n : ℕ) => (n : ℤ))).Nodup :=
    (hm.indsNodup _ hv inds hi).map (fun a b h => by simpa using h)
  have := dictIndex_of_getElem _ hnd k (by simpa using hk)
  simp only [List.getElem_map] at this
  rw [this]

theorem compileSym_any (m : Meta) (hm : m.WF) (x : List Char × Option (List ℕ) → Val) (ρ : Sym → ℂ)
    (hx : m.Reads x ρ) (s : Sym) (hs : s ∈ m.allSymbols) (hp : m.Provides x s) :
    ∃ f, compileSym m s = .ok f ∧ f (m.names.zip (m.vars.map x)) (some (m.paramInput ρ)) = .ok (ρ s) := by
  rcases List.mem_append.1 hs with h | h
  · obtain ⟨v, hv, hsv⟩ := List.mem_flatMap.1 h
    have hr := hx v hv
    have hget := dictGet_inputs m hm x v hv
    cases hi : v.2 with
    | none =>
      simp only [varSymbols, hi, List.mem_singleton] at hsv
      subst hsv
      refine ⟨readScalar v.1, ?_, ?_⟩
      · have hvars : dictGet m.vars v.1 = some v.2 := dictGet_of_mem _ hm.namesNodup hv
        have hmem : v.1 ∈ m.names := List.mem_map.2 ⟨v, hv, rfl⟩
        unfold compileSym
        rw [splitSubscript_good v.1 (hm.good _ hv)]
        simp only [if_pos hmem, hvars, hi]
      · unfold readScalar
        rw [hget]
        rw [hi] at hr
        cases hxv : x v with
        | scalar a => rw [hxv] at hr; simp only at hr ⊢; rw [hr]
        | vec l => rw [hxv] at hr; exact hr.elim
    | some inds =>
      simp only [varSymbols, hi, List.mem_map] at hsv
      obtain ⟨i, hi', rfl⟩ := hsv
      obtain ⟨k, hk, rfl⟩ := List.getElem_of_mem hi'
      refine ⟨readVec v.1 k, compileSym_array m hm v hv inds hi k hk, ?_⟩
      unfold readVec
      rw [hget]
      rw [hi] at hr
      cases hxv : x v with
      | scalar a => rw [hxv] at hr; exact hr.elim
      | vec l =>
        rw [hxv] at hr
        simp only at hr ⊢
        have hkl := hp v hv inds hi l hxv k hk rfl
        rw [List.getElem?_eq_getElem hkl, hr k hk hkl]
  · obtain ⟨name, ix, hsplit, hname⟩ := hm.params s h
    obtain ⟨k, hk, rfl⟩ := List.getElem_of_mem h
    refine ⟨readParam k, ?_, ?_⟩
    · unfold compileSym
      rw [hsplit]
      simp only [if_neg hname]
      rw [dictIndex_of_getElem _ hm.paramsNodup k hk]
    · unfold readParam Meta.paramInput
      simp [hk]

/-- A call with positional arguments. -/
theorem call_positional (P : PolyObj) (vals : List Val) (ps : List ℂ) (hv : vals.length = P.md.vars.length)
    (hp : ps.length = P.md.params.length) :
    P.call (vals ++ [.vec ps]) [] = evalNum P.md (polyExpr P.poly) vals (some ps) := by
  unfold PolyObj.call callNum
  rw [sortVarArgs_positional Val.len P.md.names P.md.params.length vals (.vec ps)
    (by rw [names_length, hv]) (by simp [Val.len, hp]) [] rfl]
  rfl

theorem call_any (P : PolyObj) (hm : P.md.WF) (hd : P.Declared) (hr : RealCoeffs P.poly)
    (x : List Char × Option (List ℕ) → Val) (ρ : Sym → ℂ) (hx : P.md.Reads x ρ)
    (hp : ∀ s ∈ P.poly.vars, P.md.Provides x s) :
    P.call (P.md.vars.map x ++ [.vec (P.md.paramInput ρ)]) [] = .ok (eval ρ P.poly) := by
  rw [call_positional P _ _ (by simp) (by simp [Meta.paramInput])]
  obtain ⟨f, h1, h2⟩ := compileExpr_of_syms P.md (P.md.names.zip (P.md.vars.map x))
    (some (P.md.paramInput ρ)) ρ (polyExpr P.poly) ((polyExpr_real _).2 hr) (fun s hs =>
      compileSym_any P.md hm x ρ hx s (hd s (polyExpr_symbols _ s hs)) (hp s (polyExpr_symbols _ s hs)))
  unfold evalNum
  rw [h1, polyExpr_value] at *
  exact h2

theorem call_missing (P : PolyObj) (hm : P.md.WF) (x : List Char × Option (List ℕ) → Val) (ps : List ℂ)
    (hps : ps.length = P.md.params.length) (s : Sym) (hs : s ∈ P.poly.vars) (hp : ¬ P.md.Provides x s) :
    ∃ e, P.call (P.md.vars.map x ++ [.vec ps]) [] = .error e := by
  rw [call_positional P _ _ (by simp) hps]
  unfold Meta.Provides at hp
  push Not at hp
  obtain ⟨v, hv, inds, hi, l, hl, k, hk, rfl, hkl⟩ := hp
  have hbad : ∀ f, compileSym P.md (mergeSubscript v.1 inds[k]) = .ok f →
      ∃ e, f (P.md.names.zip (P.md.vars.map x)) (some ps) = .error e := by
    intro f hf
    rw [compileSym_array P.md hm v hv inds hi k hk] at hf
    cases hf
    refine ⟨.indexError, ?_⟩
    unfold readVec
    rw [dictGet_inputs P.md hm x v hv, hl]
    simp only
    rw [List.getElem?_eq_none hkl]
  unfold evalNum
  cases hc : compileExpr P.md (polyExpr P.poly) with
  | error e => exact ⟨e, rfl⟩
  | ok f => exact compileExpr_fails P.md _ _ _ hbad _ (mem_polyExpr_symbols _ _ hs) f hc

end Cyjax.Polynomial
