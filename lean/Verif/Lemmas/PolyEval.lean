import Verif.Lemmas.Subscript
import Mathlib.Data.List.Nodup
import Mathlib.Data.List.Zip

namespace Cyjax.Polynomial

theorem dictGet_of_mem {κ β : Type*} [DecidableEq κ] (l : List (κ × β)) (hl : (l.map Prod.fst).Nodup)
    {k : κ} {v : β} (h : (k, v) ∈ l) : dictGet l k = some v := by
  unfold dictGet
  have h' : (k, v) ∈ l.reverse := List.mem_reverse.2 h
  have hn : (l.reverse.map Prod.fst).Nodup := by rw [List.map_reverse]; exact List.nodup_reverse.2 hl
  generalize l.reverse = r at h' hn
  induction r with
  | nil => simp at h'
  | cons p r ih =>
    rw [List.find?_cons]
    rw [List.map_cons, List.nodup_cons] at hn
    rcases List.mem_cons.1 h' with rfl | h'
    · simp
    · have hne : p.1 ≠ k := by
        rintro rfl
        exact hn.1 (List.mem_map.2 ⟨_, h', rfl⟩)
      simp only [hne, decide_false]
      exact ih h' hn.2

theorem dictGet_mem {κ β : Type*} [DecidableEq κ] (l : List (κ × β)) {k : κ} {v : β}
    (h : dictGet l k = some v) : (k, v) ∈ l := by
  unfold dictGet at h
  rw [Option.map_eq_some_iff] at h
  obtain ⟨p, hp, rfl⟩ := h
  have h1 := List.find?_some hp
  have h2 := List.mem_of_find?_eq_some hp
  simp only [decide_eq_true_eq] at h1
  subst h1
  exact List.mem_reverse.1 h2

theorem dictGet_none {κ β : Type*} [DecidableEq κ] (l : List (κ × β)) {k : κ} :
    dictGet l k = none ↔ k ∉ l.map Prod.fst := by
  unfold dictGet
  rw [Option.map_eq_none_iff, List.find?_eq_none]
  simp only [List.mem_reverse, decide_eq_true_eq, List.mem_map, not_exists, not_and]

theorem dictIndex_of_getElem {κ : Type*} [DecidableEq κ] (l : List κ) (hl : l.Nodup) (i : ℕ)
    (h : i < l.length) : dictIndex l l[i] = some i := by
  unfold dictIndex
  apply dictGet_of_mem
  · simpa [List.zipIdx_map_fst] using hl
  · rw [List.mem_zipIdx_iff_getElem?]; simp [h]

theorem pySum_eq (xs : List ℂ) : pySum xs = xs.sum := by
  unfold pySum; exact List.sum_eq_foldl.symm

theorem prodLoop_some {α : Type*} [Monoid α] (p : α) (l : List α) :
    Util.prodLoop (some p) l = some (p * l.prod) := by
  induction l generalizing p with
  | nil => simp [Util.prodLoop]
  | cons a l ih => rw [Util.prodLoop, ih, List.prod_cons, mul_assoc]

theorem prod_eq {α : Type*} [Monoid α] (l : List α) : Util.prod l = l.prod := by
  unfold Util.prod
  cases l with
  | nil => simp [Util.prodLoop]
  | cons a l => rw [Util.prodLoop, prodLoop_some, List.prod_cons]

/-- A symbol of the polynomial compiles to a read of its value. -/
theorem compileSym_ok (m : Meta) (hm : m.WF) (ρ : Sym → ℂ) (s : Sym) (hs : s ∈ m.allSymbols) :
    ∃ f, compileSym m s = .ok f ∧
      f (m.names.zip (m.inputs ρ)) (some (m.paramInput ρ)) = .ok (ρ s) := by
  have hzip : m.names.zip (m.inputs ρ) = m.vars.map (fun v => (v.1, varInput ρ v)) := by
    unfold Meta.names Meta.inputs; rw [List.zip_map']
  have hread : ∀ v ∈ m.vars, dictGet (m.names.zip (m.inputs ρ)) v.1 = some (varInput ρ v) := by
    intro v hv
    rw [hzip]
    apply dictGet_of_mem
    · have h := hm.namesNodup
      unfold Meta.names at h
      rw [List.map_map]; exact h
    · exact List.mem_map.2 ⟨v, hv, rfl⟩
  have hvars : ∀ v ∈ m.vars, dictGet m.vars v.1 = some v.2 := fun v hv =>
    dictGet_of_mem _ hm.namesNodup hv
  have hmem : ∀ v ∈ m.vars, v.1 ∈ m.names := fun v hv => List.mem_map.2 ⟨v, hv, rfl⟩
  rcases List.mem_append.1 hs with h | h
  · obtain ⟨v, hv, hsv⟩ := List.mem_flatMap.1 h
    obtain ⟨name, inds⟩ := v
    cases inds with
    | none =>
      simp only [varSymbols, List.mem_singleton] at hsv
      subst hsv
      refine ⟨readScalar s, ?_, ?_⟩
      · unfold compileSym
        rw [splitSubscript_good s (hm.good _ hv)]
        simp only [if_pos (hmem _ hv), hvars _ hv]
      · unfold readScalar
        rw [hread _ hv]; rfl
    | some inds =>
      simp only [varSymbols, List.mem_map] at hsv
      obtain ⟨i, hi, rfl⟩ := hsv
      obtain ⟨k, hk, rfl⟩ := List.getElem_of_mem hi
      refine ⟨readVec name k, ?_, ?_⟩
      · unfold compileSym
        rw [splitSubscript_merge name (hm.good _ hv)]
        simp only [if_pos (hmem _ hv), hvars _ hv]
        have hnd : (inds.map (fun (n : ℕ) => (n : ℤ))).Nodup :=
          (hm.indsNodup _ hv inds rfl).map (fun a b h => by simpa using h)
        have := dictIndex_of_getElem _ hnd k (by simpa using hk)
        simp only [List.getElem_map] at this
        rw [this]
      · unfold readVec
        rw [hread _ hv]
        simp [varInput, hk]
  · obtain ⟨name, ix, hsplit, hname⟩ := hm.params s h
    obtain ⟨k, hk, rfl⟩ := List.getElem_of_mem h
    refine ⟨readParam k, ?_, ?_⟩
    · unfold compileSym
      rw [hsplit]
      simp only [if_neg hname]
      rw [dictIndex_of_getElem _ hm.paramsNodup k hk]
    · unfold readParam Meta.paramInput
      simp [hk]

mutual
theorem compileExpr_ok (m : Meta) (hm : m.WF) (ρ : Sym → ℂ) :
    (e : Expr) → e.Real → (∀ s ∈ e.symbols, s ∈ m.allSymbols) →
    ∃ f, compileExpr m e = .ok f ∧
      f (m.names.zip (m.inputs ρ)) (some (m.paramInput ρ)) = .ok (e.value ρ)
  | .sym s, _, hs => by
    simpa only [compileExpr, Expr.value] using
      compileSym_ok m hm ρ s (hs s (by simp [Expr.symbols]))
  | .int n, _, _ => ⟨_, by rw [compileExpr], by simp [Expr.value]⟩
  | .float n, _, _ => ⟨_, by rw [compileExpr], by simp [Expr.value]⟩
  | .imagUnit, h, _ => by simp [Expr.Real] at h
  | .other, h, _ => by simp [Expr.Real] at h
  | .add args, h, hs => by
    obtain ⟨fs, h1, h2⟩ := compileList_ok m hm ρ args (by simpa [Expr.Real] using h)
      (by simpa [Expr.symbols] using hs)
    refine ⟨applyOp pySum fs, by simp only [compileExpr, h1], ?_⟩
    simp only [applyOp, h2, Expr.value, pySum_eq]
  | .mul args, h, hs => by
    obtain ⟨fs, h1, h2⟩ := compileList_ok m hm ρ args (by simpa [Expr.Real] using h)
      (by simpa [Expr.symbols] using hs)
    refine ⟨applyOp Util.prod fs, by simp only [compileExpr, h1], ?_⟩
    simp only [applyOp, h2, Expr.value, prod_eq]
  | .pow b n, h, hs => by
    obtain ⟨f, h1, h2⟩ := compileExpr_ok m hm ρ b (by simpa [Expr.Real] using h)
      (by simpa [Expr.symbols] using hs)
    exact ⟨powFn f n, by simp only [compileExpr, h1], by simp only [powFn, h2, Expr.value]⟩

theorem compileList_ok (m : Meta) (hm : m.WF) (ρ : Sym → ℂ) :
    (es : List Expr) → Expr.RealList es → (∀ s ∈ Expr.symbolsList es, s ∈ m.allSymbols) →
    ∃ fs, compileList m es = .ok fs ∧
      runAll (m.names.zip (m.inputs ρ)) (some (m.paramInput ρ)) fs = .ok (Expr.values ρ es)
  | [], _, _ => ⟨[], by simp only [compileList], by simp only [runAll, Expr.values]⟩
  | e :: es, h, hs => by
    rw [Expr.RealList] at h
    rw [Expr.symbolsList] at hs
    obtain ⟨f, h1, h2⟩ := compileExpr_ok m hm ρ e h.1 (fun s hs' => hs s (List.mem_append_left _ hs'))
    obtain ⟨fs, h3, h4⟩ := compileList_ok m hm ρ es h.2 (fun s hs' => hs s (List.mem_append_right _ hs'))
    exact ⟨f :: fs, by simp only [compileList, h1, h3], by simp only [runAll, h2, h4, Expr.values]⟩
end

mutual
theorem compileExpr_notReal (m : Meta) :
    (e : Expr) → ¬ e.Real → ∃ err, compileExpr m e = .error err
  | .sym _, h => by simp [Expr.Real] at h
  | .int _, h => by simp [Expr.Real] at h
  | .float _, h => by simp [Expr.Real] at h
  | .imagUnit, _ => ⟨_, by rw [compileExpr]⟩
  | .other, _ => ⟨_, by rw [compileExpr]⟩
  | .add args, h => by
    obtain ⟨err, h1⟩ := compileList_notReal m args (by simpa [Expr.Real] using h)
    exact ⟨err, by simp only [compileExpr, h1]⟩
  | .mul args, h => by
    obtain ⟨err, h1⟩ := compileList_notReal m args (by simpa [Expr.Real] using h)
    exact ⟨err, by simp only [compileExpr, h1]⟩
  | .pow b n, h => by
    obtain ⟨err, h1⟩ := compileExpr_notReal m b (by simpa [Expr.Real] using h)
    exact ⟨err, by simp only [compileExpr, h1]⟩

theorem compileList_notReal (m : Meta) :
    (es : List Expr) → ¬ Expr.RealList es → ∃ err, compileList m es = .error err
  | [], h => by simp [Expr.RealList] at h
  | e :: es, h => by
    rw [Expr.RealList, not_and_or] at h
    cases hc : compileExpr m e with
    | error err => exact ⟨err, by simp only [compileList, hc]⟩
    | ok f =>
      rcases h with h | h
      · obtain ⟨err, h1⟩ := compileExpr_notReal m e h
        rw [hc] at h1; simp at h1
      · obtain ⟨err, h1⟩ := compileList_notReal m es h
        exact ⟨err, by simp only [compileList, hc, h1]⟩
end

theorem kwVariables_ok {α : Type*} (kwargs : List (List Char × α)) (ns : List (List Char)) (vs : List α)
    (h : List.Forall₂ (fun n v => dictGet kwargs n = some v) ns vs) :
    kwVariables kwargs ns = .ok vs := by
  induction h with
  | nil => rfl
  | cons h _ ih => simp only [kwVariables, h, ih]

theorem kwVariables_missing {α : Type*} (kwargs : List (List Char × α)) (ns : List (List Char)) (n)
    (hn : n ∈ ns) (h : dictGet kwargs n = none) : kwVariables kwargs ns = .error .keyError := by
  induction ns with
  | nil => simp at hn
  | cons a ns ih =>
    rw [kwVariables]
    rcases List.mem_cons.1 hn with rfl | hn
    · rw [h]
    · cases ha : dictGet kwargs a with
      | none => rfl
      | some v => simp only [ih hn]

theorem dictGet_filter {α : Type*} (kwargs : List (List Char × α)) (k n : List Char) (h : n ≠ k) :
    dictGet (kwargs.filter (fun kv => kv.1 ≠ k)) n = dictGet kwargs n := by
  unfold dictGet
  congr 1
  rw [← List.filter_reverse, List.find?_filter]
  congr 1
  funext p
  by_cases hp : p.1 = n <;> simp [hp, h]

theorem splitSubscript_varSymbols (m : Meta) (hm : m.WF) (v) (hv : v ∈ m.vars) (s : Sym)
    (hs : s ∈ varSymbols v) : ∃ ix, splitSubscript s = .ok (v.1, ix) := by
  obtain ⟨name, inds⟩ := v
  cases inds with
  | none =>
    simp only [varSymbols, List.mem_singleton] at hs
    subst hs
    exact ⟨_, splitSubscript_good _ (hm.good _ hv)⟩
  | some inds =>
    simp only [varSymbols, List.mem_map] at hs
    obtain ⟨i, _, rfl⟩ := hs
    exact ⟨_, splitSubscript_merge _ (hm.good _ hv) i⟩

theorem merge_inj (n n' : List Char) (hn : GoodName n) (hn' : GoodName n') (i i' : ℕ)
    (h : mergeSubscript n i = mergeSubscript n' i') : n = n' ∧ i = i' := by
  have h1 := splitSubscript_merge n hn i
  rw [h, splitSubscript_merge n' hn' i'] at h1
  simp only [Except.ok.injEq, Prod.mk.injEq, Option.some.injEq, Nat.cast_inj] at h1
  exact ⟨h1.1.symm, h1.2.symm⟩

theorem varSyms_nodup (m : Meta) (hm : m.WF) : m.varSyms.Nodup := by
  unfold Meta.varSyms
  rw [List.nodup_flatMap]
  constructor
  · intro v hv
    obtain ⟨name, inds⟩ := v
    cases inds with
    | none => simp [varSymbols]
    | some inds =>
      exact (hm.indsNodup _ hv inds rfl).map
        (fun i i' h => (merge_inj _ _ (hm.good _ hv) (hm.good _ hv) i i' h).2)
  · have h := hm.namesNodup
    unfold Meta.names at h
    rw [List.nodup_iff_pairwise_ne, List.pairwise_map] at h
    refine List.Pairwise.imp_of_mem ?_ h
    intro a b ha hb hab
    rw [Function.onFun, List.disjoint_left]
    intro s hsa hsb
    obtain ⟨_, h1⟩ := splitSubscript_varSymbols m hm a ha s hsa
    obtain ⟨_, h2⟩ := splitSubscript_varSymbols m hm b hb s hsb
    rw [h1] at h2
    simp only [Except.ok.injEq, Prod.mk.injEq] at h2
    exact hab h2.1

theorem varSyms_not_param (m : Meta) (hm : m.WF) (s : Sym) (hs : s ∈ m.varSyms) : s ∉ m.params := by
  intro hp
  obtain ⟨v, hv, hsv⟩ := List.mem_flatMap.1 hs
  obtain ⟨_, h1⟩ := splitSubscript_varSymbols m hm v hv s hsv
  obtain ⟨name, ix, h2, h3⟩ := hm.params s hp
  rw [h1] at h2
  simp only [Except.ok.injEq, Prod.mk.injEq] at h2
  exact h3 (h2.1 ▸ List.mem_map.2 ⟨v, hv, rfl⟩)

theorem allSymbols_nodup (m : Meta) (hm : m.WF) : m.allSymbols.Nodup := by
  unfold Meta.allSymbols
  rw [List.nodup_append]
  refine ⟨varSyms_nodup m hm, hm.paramsNodup, ?_⟩
  rintro s hs _ hp rfl
  exact varSyms_not_param m hm s hs hp

theorem exists_map_eq {α β : Type*} [DecidableEq α] [Inhabited β] (S : List α) (hS : S.Nodup)
    (V : List β) (h : V.length = S.length) : ∃ ρ : α → β, S.map ρ = V := by
  induction S generalizing V with
  | nil => exact ⟨fun _ => default, by cases V <;> simp_all⟩
  | cons a S ih =>
    cases V with
    | nil => simp at h
    | cons v V =>
      obtain ⟨ρ, hρ⟩ := ih (List.nodup_cons.1 hS).2 V (by simpa using h)
      refine ⟨fun s => if s = a then v else ρ s, ?_⟩
      rw [List.map_cons, if_pos rfl, ← hρ]
      congr 1
      apply List.map_congr_left
      intro s hs
      rw [if_neg]
      rintro rfl
      exact (List.nodup_cons.1 hS).1 hs

theorem inputs_of_flat (ρ : Sym → ℂ) (vars : List (List Char × Option (List ℕ))) (vals : List Val)
    (hsh : List.Forall₂ ShapeOK vars vals)
    (h : (vars.flatMap varSymbols).map ρ = vals.flatMap Val.entries) :
    vars.map (varInput ρ) = vals := by
  induction hsh with
  | nil => rfl
  | @cons v x vars vals hv _ ih =>
    obtain ⟨name, inds⟩ := v
    rw [List.flatMap_cons, List.map_append, List.flatMap_cons] at h
    cases inds with
    | none =>
      cases x with
      | vec l => simp [ShapeOK] at hv
      | scalar x =>
        obtain ⟨h1, h2⟩ := List.append_inj h (by simp [varSymbols, Val.entries])
        simp only [varSymbols, Val.entries, List.map_cons, List.map_nil, List.cons.injEq, and_true] at h1
        rw [List.map_cons, ih h2, varInput, h1]
    | some inds =>
      cases x with
      | scalar x => simp [ShapeOK] at hv
      | vec l =>
        simp only [ShapeOK] at hv
        obtain ⟨h1, h2⟩ := List.append_inj h (by simp [varSymbols, Val.entries, hv])
        simp only [varSymbols, Val.entries, List.map_map] at h1
        rw [List.map_cons, ih h2, varInput]
        simp only [← h1]; rfl

theorem flat_length (vars : List (List Char × Option (List ℕ))) (vals : List Val)
    (hsh : List.Forall₂ ShapeOK vars vals) :
    (vals.flatMap Val.entries).length = (vars.flatMap varSymbols).length := by
  induction hsh with
  | nil => rfl
  | @cons v x vars vals hv _ ih =>
    obtain ⟨name, inds⟩ := v
    rw [List.flatMap_cons, List.flatMap_cons, List.length_append, List.length_append, ih]
    cases inds <;> cases x <;> simp_all [ShapeOK, varSymbols, Val.entries]

/-- Inputs of the right shapes come from an assignment of values to the symbols. -/
theorem exists_assignment (m : Meta) (hm : m.WF) (vals : List Val) (ps : List ℂ)
    (hsh : List.Forall₂ ShapeOK m.vars vals) (hps : ps.length = m.params.length) :
    ∃ ρ : Sym → ℂ, m.inputs ρ = vals ∧ m.paramInput ρ = ps := by
  obtain ⟨ρ, hρ⟩ := exists_map_eq m.allSymbols (allSymbols_nodup m hm)
    (vals.flatMap Val.entries ++ ps) (by
      simp only [Meta.allSymbols, List.length_append, flat_length _ _ hsh, hps, Meta.varSyms])
  unfold Meta.allSymbols Meta.varSyms at hρ
  rw [List.map_append] at hρ
  obtain ⟨h1, h2⟩ := List.append_inj hρ (by rw [List.length_map, flat_length _ _ hsh])
  exact ⟨ρ, inputs_of_flat ρ _ _ hsh h1, h2⟩

end Cyjax.Polynomial
