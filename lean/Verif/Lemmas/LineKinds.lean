import Verif.Lemmas.LineRoots
import Verif.Lemmas.Projective

/-! # The line through the three kinds of defining polynomials -/

namespace Cyjax.Variety

open Cyjax.Polynomial MvPolynomial Cyjax.Projective

def lineExpr (i : ℕ) : Expr :=
  .add [.sym (pName ++ '_' :: natStr i), .mul [.sym tName, .sym (qName ++ '_' :: natStr i)]]

theorem lineExprs_eq (n : ℕ) : lineExprs n = (List.range n).map lineExpr := by
  unfold lineExprs symArray
  apply List.ext_getElem <;> simp [lineExpr]

theorem lineExpr_real (i : ℕ) : (lineExpr i).Real := by simp [lineExpr, Expr.Real, Expr.RealList]

theorem lineExpr_symbols {n i : ℕ} (hi : i < n) (params : List Sym) :
    ∀ s ∈ (lineExpr i).symbols, LineSym n params s := by
  intro s hs
  simp only [lineExpr, Expr.symbols, Expr.symbolsList, List.append_nil, List.mem_append, List.mem_singleton] at hs
  rcases hs with rfl | rfl | rfl
  · exact Or.inr (Or.inl ⟨i, hi, rfl⟩)
  · exact Or.inl rfl
  · exact Or.inr (Or.inr (Or.inl ⟨i, hi, rfl⟩))

theorem lineExpr_value (σ : Sym → ℂ) (i : ℕ) :
    (lineExpr i).value σ = σ (pName ++ '_' :: natStr i) + σ tName * σ (qName ++ '_' :: natStr i) := by
  simp [lineExpr, Expr.value, Expr.values]

theorem merge_no_underscore {name : List Char} (hn : GoodName name) (i : ℕ) : '_' ∉ mergeSubscript name i := by
  intro h
  rcases List.mem_append.1 h with h | h
  · exact absurd (hn.2 _ h) (by decide)
  · exact absurd (natStr_digits i _ h) (by decide)

theorem lineCall_generic {P : PolyObj} {name : List Char} {m : ℕ} (h : Proper P name m)
    (hn : LineNames P.md.params) {o : SymOrder} (ho : o.Valid) : ∃ e, LineCall (.generic P) (m + 1) o e := by
  classical
  set σ : Sym → Expr := fun s => if s ∈ P.md.params then .sym s else
    match splitNat s with
    | .ok (_, some i) => lineExpr i
    | _ => .sym s with hσ
  have hσp : ∀ s ∈ P.md.params, σ s = .sym s := by
    intro s hs
    simp only [hσ, if_pos hs]
  have hσc : ∀ i, σ (mergeSubscript name i) = lineExpr i := by
    intro i
    have : mergeSubscript name i ∉ P.md.params := fun h' => h.mem_params _ h' i rfl
    simp only [hσ, if_neg this]
    rw [splitNat_indexed.2 (splitSubscript_merge name h.goodName i)]
  have hall : ∀ s, s ∈ P.md.allSymbols ↔ (∃ i < m + 1, s = mergeSubscript name i) ∨ s ∈ P.md.params := by
    intro s
    unfold Meta.allSymbols Meta.varSyms
    rw [h.vars]
    simp only [List.flatMap_singleton, varSymbols, List.mem_append, List.mem_map, List.mem_range]
    constructor
    · rintro (⟨i, hi, rfl⟩ | h)
      · exact Or.inl ⟨i, hi, rfl⟩
      · exact Or.inr h
    · rintro (⟨i, hi, rfl⟩ | h)
      · exact Or.inl ⟨i, hi, rfl⟩
      · exact Or.inr h
  have hfree : ∀ s ∈ P.md.allSymbols, σ s = .sym s ∨ ∀ t ∈ (σ s).symbols, t ∉ P.md.allSymbols := by
    intro s hs
    rcases (hall s).1 hs with ⟨i, hi, rfl⟩ | hs
    · right
      rw [hσc]
      intro t ht ht'
      have hbad : ∀ x ∈ [tName, pName, qName], ∀ ix, splitSubscript t = .ok (x, ix) → t ∉ P.md.params := by
        intro x hx ix hsp htp
        obtain ⟨y, iy, g1, g2⟩ := hn.2 t htp
        rw [hsp] at g1
        cases g1
        exact g2 hx
      simp only [lineExpr, Expr.symbols, Expr.symbolsList, List.append_nil, List.mem_append,
        List.mem_singleton] at ht
      rcases (hall t).1 ht' with ⟨j, hj, hj'⟩ | htp
      · have hu := merge_no_underscore h.goodName j
        rw [← hj'] at hu
        rcases ht with rfl | rfl | rfl
        · simp at hu
        · have g1 := splitSubscript_merge name h.goodName j
          rw [← hj', splitSubscript_good tName good_t] at g1
          cases g1
        · simp at hu
      · rcases ht with rfl | rfl | rfl
        · exact hbad pName (by simp) _ (splitSubscript_underscore pName good_p i) htp
        · exact hbad tName (by simp) _ (splitSubscript_good tName good_t) htp
        · exact hbad qName (by simp) _ (splitSubscript_underscore qName good_q i) htp
    · exact Or.inl (hσp s hs)
  obtain ⟨r, r1, r2⟩ := C41_symbolic_partial P.md h.wf (polyExpr P.poly) σ (by
    intro s hs t ht hta
    rcases hfree s hs with h1 | h1
    · rw [h1, Expr.symbols, List.mem_singleton] at ht
      rw [ht, h1]
    · exact absurd hta (h1 t ht)) o.subst ho.subst
  have hin : P.md.vars.map (symInput σ) = [.vec (lineExprs (m + 1))] := by
    rw [h.vars, lineExprs_eq]
    simp only [List.map_cons, List.map_nil, symInput, List.cons.injEq, and_true, SymVal.vec.injEq]
    exact List.map_congr_left fun i _ => hσc i
  have hpar : P.md.params.map σ = P.md.params.map .sym := List.map_congr_left fun s hs => hσp s hs
  -- the substituted expression
  have hr : r = Expr.substSeq (o.subst (P.md.allSymbols.map fun s => (s, σ s))) (polyExpr P.poly) := by
    have hitems : symSubs P.md (P.md.vars.map (symInput σ)) (some (P.md.params.map σ)) =
        some (P.md.allSymbols.map fun s => (s, σ s)) := by
      unfold symSubs
      rw [collectValues_symInput, Option.map_some, Option.getD_some, ← List.map_append]
      exact congrArg some (zip_map_self _ σ)
    unfold callSym at r1
    rw [hitems, Option.map_some] at r1
    exact (Option.some.inj r1).symm
  have hmem : ∀ x ∈ o.subst (P.md.allSymbols.map fun s => (s, σ s)), ∃ s ∈ P.md.allSymbols, x = (s, σ s) := by
    intro x hx
    obtain ⟨s, hs, rfl⟩ := List.mem_map.1 ((ho.subst _).mem_iff.1 hx)
    exact ⟨s, hs, rfl⟩
  refine ⟨r, ⟨Nat.succ_pos m, ?_, hn, ?_, ?_, ?_, ?_⟩⟩
  · unfold dimComplex
    simp only [HomKind.md, h.vars, List.length_range]
  · unfold HomKind.callSymbolic
    simp only [HomKind.md]
    rw [← hin, ← hpar, r1]
  · rw [hr]
    apply substSeq_real _ _ _ ((polyExpr_real _).2 h.real)
    intro x hx
    obtain ⟨s, hs, rfl⟩ := hmem x hx
    rcases (hall s).1 hs with ⟨i, hi, rfl⟩ | hs
    · simp only [hσc]; exact lineExpr_real i
    · simp only [hσp s hs]; simp [Expr.Real]
  · rw [hr]
    apply substSeq_symbols _ (LineSym (m + 1) P.md.params)
    · intro x hx
      obtain ⟨s, hs, rfl⟩ := hmem x hx
      rcases (hall s).1 hs with ⟨i, hi, rfl⟩ | hs
      · simp only [hσc]; exact lineExpr_symbols hi _
      · simp only [hσp s hs, Expr.symbols, List.mem_singleton, forall_eq]
        exact Or.inr (Or.inr (Or.inr hs))
    · intro t ht
      right
      have ht' := h.declared t (polyExpr_symbols _ t ht)
      rw [List.mem_map]
      exact ⟨(t, σ t), (ho.subst _).mem_iff.2 (List.mem_map_of_mem (f := fun s => (s, σ s)) ht'), rfl⟩
  · intro τ
    rw [r2, polyExpr_value]
    have := defining_none h (fun s => if s ∈ P.md.allSymbols then (σ s).value τ else τ s)
    rw [← this]
    have e1 : ∀ i : Fin (m + 1), (if mergeSubscript name i ∈ P.md.allSymbols then
        (σ (mergeSubscript name i)).value τ else τ (mergeSubscript name i)) =
        τ (pName ++ '_' :: natStr i) + τ tName * τ (qName ++ '_' :: natStr i) := by
      intro i
      rw [if_pos ((hall _).2 (Or.inl ⟨i, i.isLt, rfl⟩)), hσc, lineExpr_value]
    have e2 : P.md.paramInput (fun s => if s ∈ P.md.allSymbols then (σ s).value τ else τ s) = P.md.params.map τ := by
      unfold Meta.paramInput
      refine List.map_congr_left fun s hs => ?_
      rw [if_pos ((hall s).2 (Or.inr hs)), hσp s hs, Expr.value]
    simp only [e1, e2]
    rfl

theorem scales_generic {P : PolyObj} {name : List Char} {m d : ℕ} (h : Proper P name m)
    (hh : HomogeneousIn P.poly name m d) : Scales (.generic P) (m + 1) d := by
  intro ps Z c v hps hv
  obtain ⟨ρ, r1, r2⟩ := exists_point h Z ps hps
  have h1 := defining_none h ρ
  have h2 := defining_none h (scaleAt name m c ρ)
  simp only [r1, r2] at h1
  rw [hv] at h1
  rw [scaleAt_params h, r2, eval_scale h.goodName hh, ← Except.ok.inj h1] at h2
  simp only [scaleAt_coord name (Fin.isLt _), r1] at h2
  exact h2

theorem sum_line (n k : ℕ) (σ : Sym → ℂ) :
    ((Expr.values σ ((lineExprs n).map fun z => .pow z k)).sum) =
      ∑ i : Fin n, (σ (pName ++ '_' :: natStr i) + σ tName * σ (qName ++ '_' :: natStr i)) ^ k := by
  rw [values_eq_map, lineExprs_eq, List.map_map, List.map_map, ← List.sum_ofFn, ofFn_range (fun i =>
    (σ (pName ++ '_' :: natStr i) + σ tName * σ (qName ++ '_' :: natStr i)) ^ k)]
  congr 1
  apply List.map_congr_left
  intro i _
  simp only [Function.comp, Expr.value, lineExpr_value]

theorem prod_line (n : ℕ) (σ : Sym → ℂ) :
    ((Expr.values σ (lineExprs n)).prod) =
      ∏ i : Fin n, (σ (pName ++ '_' :: natStr i) + σ tName * σ (qName ++ '_' :: natStr i)) := by
  rw [values_eq_map, lineExprs_eq, List.map_map, ← List.prod_ofFn, ofFn_range (fun i =>
    (σ (pName ++ '_' :: natStr i) + σ tName * σ (qName ++ '_' :: natStr i)))]
  congr 1
  apply List.map_congr_left
  intro i _
  simp only [Function.comp, lineExpr_value]

theorem pow_line_symbols {n k : ℕ} (params : List Sym) :
    ∀ s ∈ Expr.symbolsList ((lineExprs n).map fun z => .pow z k), LineSym n params s := by
  intro s hs
  rw [symbolsList_eq, lineExprs_eq, List.map_map, List.mem_flatMap] at hs
  obtain ⟨e, he, hs⟩ := hs
  obtain ⟨i, hi, rfl⟩ := List.mem_map.1 he
  simp only [Function.comp, Expr.symbols] at hs
  exact lineExpr_symbols (List.mem_range.1 hi) params s hs

theorem pow_line_real {n k : ℕ} : Expr.RealList ((lineExprs n).map fun z => .pow z k) := by
  rw [realList_iff, lineExprs_eq]
  intro e he
  rw [List.map_map] at he
  obtain ⟨i, _, rfl⟩ := List.mem_map.1 he
  simp only [Function.comp, Expr.Real]
  exact lineExpr_real i

theorem lineExprs_length (n : ℕ) : (lineExprs n).length = n := by simp [lineExprs_eq]

theorem psi_names : LineNames ["psi".toList] :=
  ⟨by decide, by
    intro s hs
    rw [List.mem_singleton] at hs
    subst hs
    exact ⟨_, _, splitSubscript_good _ (by decide), by decide⟩⟩

theorem lineCall_dwork {n : ℕ} (hn : 0 < n) {f : DworkFactor} (hf : f.value.im = 0) {o : SymOrder} :
    ∃ e, LineCall (.dwork n f) n o e := by
  refine ⟨.add [.add ((lineExprs n).map fun z => .pow z n), .mul [numExpr f.value, .sym "psi".toList,
    .mul (lineExprs n)]], ⟨hn, ?_, psi_names, ?_, ?_, ?_, ?_⟩⟩
  · simp [dimComplex, HomKind.md, dworkMeta]
  · unfold HomKind.callSymbolic
    simp only [HomKind.md, dworkMeta, List.map_cons, List.map_nil]
    rw [if_pos (lineExprs_length n)]
  · have h1 : Expr.RealList (lineExprs n) := by
      rw [realList_iff, lineExprs_eq]
      intro e he
      obtain ⟨i, _, rfl⟩ := List.mem_map.1 he
      exact lineExpr_real i
    simp only [Expr.Real, Expr.RealList, and_true]
    exact ⟨pow_line_real, numExpr_real _ hf, trivial, h1⟩
  · intro s hs
    simp only [Expr.symbols, Expr.symbolsList, List.append_nil, List.mem_append, numExpr_symbols,
      List.nil_append, List.mem_singleton] at hs
    rcases hs with hs | hs | hs
    · exact pow_line_symbols _ s hs
    · exact Or.inr (Or.inr (Or.inr (by simpa [HomKind.md, dworkMeta] using hs)))
    · rw [symbolsList_eq, lineExprs_eq, List.mem_flatMap] at hs
      obtain ⟨e, he, hs⟩ := hs
      obtain ⟨i, hi, rfl⟩ := List.mem_map.1 he
      exact lineExpr_symbols (List.mem_range.1 hi) _ s hs
  · intro σ
    have := defining_dwork f (fun i : Fin n => σ (pName ++ '_' :: natStr i) + σ tName * σ (qName ++ '_' :: natStr i))
      (σ "psi".toList) []
    simp only [HomKind.md, dworkMeta, List.map_cons, List.map_nil]
    rw [this]
    simp only [Expr.value, Expr.values, sum_line, prod_line, numExpr_value, List.sum_cons, List.sum_nil,
      List.prod_cons, List.prod_nil, mul_one, add_zero]
    rw [mul_assoc]

theorem lineCall_fermat {n : ℕ} (hn : 0 < n) {o : SymOrder} : ∃ e, LineCall (.fermat n) n o e := by
  refine ⟨.add ((lineExprs n).map fun z => .pow z n), ⟨hn, ?_, ⟨by simp [HomKind.md], by simp [HomKind.md]⟩, ?_, ?_, ?_, ?_⟩⟩
  · simp [dimComplex, HomKind.md]
  · unfold HomKind.callSymbolic
    simp only
    rw [if_pos (lineExprs_length n)]
  · simp only [Expr.Real]
    exact pow_line_real
  · intro s hs
    simp only [Expr.symbols] at hs
    exact pow_line_symbols _ s hs
  · intro σ
    rw [defining_fermat, Expr.value, sum_line]

theorem scales_dwork {n : ℕ} (f : DworkFactor) : Scales (.dwork n f) n n := by
  intro ps Z c v hps hv
  obtain ⟨psi, rfl⟩ : ∃ psi, ps = [psi] := List.length_eq_one_iff.1 (by simpa [HomKind.md, dworkMeta] using hps)
  rw [defining_dwork] at hv ⊢
  rw [← Except.ok.inj hv]
  congr 1
  simp only [mul_pow, Finset.prod_mul_distrib, Finset.prod_const, Finset.card_univ, Fintype.card_fin,
    ← Finset.mul_sum]
  ring

theorem scales_fermat {n : ℕ} : Scales (.fermat n) n n := by
  intro ps Z c v hps hv
  rw [defining_fermat] at hv ⊢
  rw [← Except.ok.inj hv]
  congr 1
  simp only [mul_pow, ← Finset.mul_sum]

/-- Evaluation in an affine patch is evaluation at the homogeneous point. -/
def Restricts (V : HomKind) (n : ℕ) : Prop :=
  ∀ (ps : List ℂ) (w : Fin n → ℂ) (j : Fin (n + 1)), ps.length = V.md.params.length →
    defining V (List.ofFn w) (.vec ps) (some (.index j)) =
      defining V (List.ofFn (affineToHom w (j : ℕ))) (.vec ps) none

theorem restricts_generic {P : PolyObj} {name : List Char} {m : ℕ} (h : Proper P name m)
    (hp : ∀ j : Fin (m + 1), HasPatch P name j) : Restricts (.generic P) m := by
  intro ps w j hps
  obtain ⟨ρ, r1, r2⟩ := exists_point h (affineToHom w (j : ℕ)) ps hps
  have h1 := defining_none h ρ
  have h2 := defining_patch h j (hp j) ρ (by rw [r1, affineToHom_same])
  simp only [r1, r2, affineToHom_succAbove] at h1 h2
  rw [h1, h2]

theorem sum_hom {n : ℕ} (w : Fin n → ℂ) (j : Fin (n + 1)) (k : ℕ) :
    ∑ i, affineToHom w (j : ℕ) i ^ k = 1 + ∑ i, w i ^ k := by
  rw [Fin.sum_univ_succAbove _ j, affineToHom_same, one_pow]
  simp only [affineToHom_succAbove]

theorem prod_hom {n : ℕ} (w : Fin n → ℂ) (j : Fin (n + 1)) : ∏ i, affineToHom w (j : ℕ) i = ∏ i, w i := by
  rw [Fin.prod_univ_succAbove _ j, affineToHom_same, one_mul]
  simp only [affineToHom_succAbove]

theorem restricts_dwork {n : ℕ} (f : DworkFactor) : Restricts (.dwork (n + 1) f) n := by
  intro ps w j hps
  obtain ⟨psi, rfl⟩ : ∃ psi, ps = [psi] := List.length_eq_one_iff.1 (by simpa [HomKind.md, dworkMeta] using hps)
  rw [defining_dwork_patch, defining_dwork, sum_hom, prod_hom]
  congr 1
  ring

theorem restricts_fermat {n : ℕ} : Restricts (.fermat (n + 1)) n := by
  intro ps w j hps
  rw [defining_fermat_patch, defining_fermat, sum_hom]

end Cyjax.Variety
