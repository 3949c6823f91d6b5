import Verif.Lemmas.FromSympyForms
import Verif.Lemmas.PolyOps
import Mathlib.Algebra.MvPolynomial.CommRing

/-! # Property C137: `Poly.from_sympy` with arrays of symbols, and with a `sympy.Poly` -/

namespace Cyjax

open Cyjax.Polynomial MvPolynomial

variable {vars : List (List Char × Option (List ℕ))} {params : Option (List Sym)} {p : MvPolynomial Sym ℂ}
  {free : List Sym}

private theorem value_of {P : PolyObj} (hwf : P.md.WF) (hd : P.Declared)
    (hfree : ∀ s ∈ p.vars, s ∈ free) (hr : RealCoeffs p) {f : Sym → Sym} (hP : P.poly = rename f p)
    (h1 : ∀ s ∈ free, ∀ v ∈ vars, ∀ i, Indexed s v.1 i → f s = mergeSubscript v.1 i)
    (h2 : ∀ s ∈ free, (∀ v ∈ vars, ∀ i, ¬ Indexed s v.1 i) → f s = s) (σ ρ : Sym → ℂ)
    (e1 : ∀ s ∈ free, ∀ v ∈ vars, ∀ i, Indexed s v.1 i → σ s = ρ (mergeSubscript v.1 i))
    (e2 : ∀ s ∈ free, (∀ v ∈ vars, ∀ i, ¬ Indexed s v.1 i) → σ s = ρ s) :
    P.callAt ρ = .ok (eval σ p) := by
  have hreal : RealCoeffs P.poly := by
    rw [hP]
    rw [realCoeffs_iff] at *
    rw [map_rename, hr]
  rw [callAt_ok P hwf hd hreal, hP, eval_rename]
  refine congrArg Except.ok (eval₂Hom_congr' rfl (fun s hs _ => ?_) rfl)
  have hsf := hfree s hs
  simp only [Function.comp]
  by_cases hex : ∃ v ∈ vars, ∃ i, Indexed s v.1 i
  · obtain ⟨v, hv, i, hi⟩ := hex
    rw [h1 s hsf v hv i hi, e1 s hsf v hv i hi]
  · push Not at hex
    rw [h2 s hsf hex, e2 s hsf hex]

/-- **C137.** Variables given as arrays of symbols are taken over exactly: every variable gets the name of its symbols and
their subscripts in the order of the array, also those that do not occur in the expression. Parameters are the given ones, or else
the other symbols, sorted. Evaluating the result gives the value of the expression. Missing: refusal of
arrays whose symbols have different names, see `C137_mixed_violated`. -/
theorem C137_arrays_partial (h : FitsExpr vars params p free) (arrays : List (List Sym))
    (harr : List.Forall₂ Describes arrays vars) :
    ∃ P, fromSympyArrays arrays params p free = .ok P ∧ P.md.vars = vars ∧
      (∀ l, params = some l → P.md.params = l) ∧
      (params = none → P.md.params.Pairwise (· ≤ ·) ∧
        ∀ s, s ∈ P.md.params ↔ s ∈ free ∧ IsOther (vars.map Prod.fst) s) ∧
      (RealCoeffs p → ∀ σ ρ : Sym → ℂ,
        (∀ s ∈ free, ∀ v ∈ vars, ∀ i, Indexed s v.1 i → σ s = ρ (mergeSubscript v.1 i)) →
        (∀ s ∈ free, (∀ v ∈ vars, ∀ i, ¬ Indexed s v.1 i) → σ s = ρ s) → P.callAt ρ = .ok (eval σ p)) := by
  have hne : arrays ≠ [] := by
    rintro rfl
    cases harr
    exact h.ne rfl
  obtain ⟨e, hlen, hv⟩ := fits_arrays (params := params) (free := free) (p := p) (arrayVars_ok h.good harr) hne
  obtain ⟨P, h1, h2, h3, h4, h5, h6, h7, f, h8, h9, h10⟩ := fits_fromSympy h rfl rfl (Or.inr rfl) hlen hv
  exact ⟨P, e.trans h1, h2, h6, h7, fun hr σ ρ => value_of h4 h5 h.vars_free hr h8 h9 h10 σ ρ⟩

/-- **C137.** For a `sympy.Poly` without further arguments the variables have the names of the generators, in the order in
which python lists this set of names, and for each name the subscripts that occur in the expression, sorted; the parameters
are the symbols of its domain if it has any. Evaluating the result gives the value of the expression. Missing: the order of the
variables and the generators that do not occur, see `C137_order_violated` and `C137_gens_violated`. -/
theorem C137_poly_partial (setOrder : List (List Char) → List (List Char)) (hset : ∀ l, (setOrder l).Perm l)
    (gens : List Sym) (domain : Option (List Sym)) (a : FromSympyArgs) (ha : a.names = none) (hi : a.indices = none)
    (hparams : params = a.params.or domain)
    (h : FitsExpr vars params p free)
    (hgens : ∀ g ∈ gens, ∃ n, Unindexed g n ∨ ∃ i, Indexed g n i)
    (hnames : ∀ n, n ∈ vars.map Prod.fst ↔ ∃ g ∈ gens, Unindexed g n ∨ ∃ i, Indexed g n i)
    (hocc : ∀ v ∈ vars, ∀ l, v.2 = some l → l.Pairwise (· < ·) ∧ ∀ i ∈ l, ∃ s ∈ free, Indexed s v.1 i)
    (huniq : ∀ s ∈ free, ∀ s' ∈ free, ∀ v ∈ vars, ∀ i, Indexed s v.1 i → Indexed s' v.1 i → s = s') :
    ∃ P, fromSympyPoly setOrder gens domain a p free = .ok P ∧ P.md.vars.Perm vars ∧
      (∀ ns, List.Forall₂ (fun g n => Unindexed g n ∨ ∃ i, Indexed g n i) gens ns → P.md.names = setOrder ns.dedup) ∧
      (∀ l, params = some l → P.md.params = l) ∧
      (params = none → P.md.params.Pairwise (· ≤ ·) ∧
        ∀ s, s ∈ P.md.params ↔ s ∈ free ∧ IsOther (vars.map Prod.fst) s) ∧
      (RealCoeffs p → ∀ σ ρ : Sym → ℂ,
        (∀ s ∈ free, ∀ v ∈ vars, ∀ i, Indexed s v.1 i → σ s = ρ (mergeSubscript v.1 i)) →
        (∀ s ∈ free, (∀ v ∈ vars, ∀ i, ¬ Indexed s v.1 i) → σ s = ρ s) → P.callAt ρ = .ok (eval σ p)) := by
  obtain ⟨ns, hns⟩ := genNames_ok (gens := gens) (by
    intro g hg
    obtain ⟨n, h1 | ⟨i, h1⟩⟩ := hgens g hg
    · exact ⟨_, splitNat_scalar.2 h1⟩
    · exact ⟨_, splitNat_indexed.2 h1⟩)
  have hmem : ∀ n, n ∈ ns.dedup ↔ n ∈ vars.map Prod.fst := by
    intro n
    rw [List.mem_dedup, genNames_mem hns, hnames]
    constructor
    · rintro ⟨g, hg, _ | i, e⟩
      · exact ⟨g, hg, Or.inl (splitNat_scalar.1 e)⟩
      · exact ⟨g, hg, Or.inr ⟨i, splitNat_indexed.1 e⟩⟩
    · rintro ⟨g, hg, e | ⟨i, e⟩⟩
      · exact ⟨g, hg, _, splitNat_scalar.2 e⟩
      · exact ⟨g, hg, _, splitNat_indexed.2 e⟩
  have hperm : (setOrder ns.dedup).Perm (vars.map Prod.fst) :=
    (hset _).trans ((List.perm_ext_iff_of_nodup (List.nodup_dedup _) h.names).2 hmem)
  obtain ⟨vars', hp', hmap⟩ : ∃ vars', vars.Perm vars' ∧ vars'.map Prod.fst = setOrder ns.dedup := by
    refine ⟨(setOrder ns.dedup).filterMap (fun n => vars.find? (fun v => v.1 = n)), ?_, ?_⟩
    · have h1 : ((vars.map Prod.fst).filterMap (fun n => vars.find? (fun v => v.1 = n))) = vars := by
        rw [List.filterMap_map]
        have : ∀ v ∈ vars, ((fun n => vars.find? (fun v => v.1 = n)) ∘ Prod.fst) v = some v := by
          intro v hv
          simp only [Function.comp]
          cases hf : vars.find? (fun w => w.1 = v.1) with
          | none =>
            rw [List.find?_eq_none] at hf
            simpa using hf v hv
          | some w =>
            have h2 := List.find?_some hf
            simp only [decide_eq_true_eq] at h2
            rw [var_unique h.names (List.mem_of_find?_eq_some hf) hv h2]
        rw [List.filterMap_congr this, List.filterMap_some]
      have := hperm.filterMap (fun n => vars.find? (fun v => v.1 = n))
      rw [h1] at this
      exact this.symm
    · rw [List.map_filterMap]
      have : ∀ n ∈ setOrder ns.dedup, (vars.find? (fun v => v.1 = n)).map Prod.fst = some n := by
        intro n hn
        obtain ⟨v, hv, hvn⟩ := List.mem_map.1 (hperm.mem_iff.1 hn)
        cases hf : vars.find? (fun w => w.1 = n) with
        | none =>
          rw [List.find?_eq_none] at hf
          exact absurd hvn (by simpa using hf v hv)
        | some w =>
          have h2 := List.find?_some hf
          simp only [decide_eq_true_eq] at h2
          rw [Option.map_some, h2]
      rw [List.filterMap_congr this, List.filterMap_some]
  have h' := fits_perm h hp'
  have hv := fits_found h' (fun v hv => hocc v (hp'.mem_iff.2 hv))
    (fun s hs s' hs' v hv => huniq s hs s' hs' v (hp'.mem_iff.2 hv))
  obtain ⟨P, h1, h2, h3, h4, h5, h6, h7, f, h8, h9, h10⟩ :=
    fits_fromSympy (a := ⟨some (vars'.map Prod.fst), params, none⟩) h' rfl rfl (Or.inl rfl) (by simp [indsOf]) hv
  refine ⟨P, ?_, by rw [h2]; exact hp'.symm, ?_, h6, ?_, ?_⟩
  · have : fromSympyPoly setOrder gens domain a p free = fromSympy ⟨some (setOrder ns.dedup), params, none⟩ p free := by
      unfold fromSympyPoly
      rw [if_neg (by simp [ha, hi])]
      simp only [ha, hns, hi, hparams]
      cases a.params <;> rfl
    rw [this, ← hmap]
    exact h1
  · intro ns' hns'
    have := genNames_forall hns'
    rw [hns] at this
    cases this
    rw [Meta.names, h2, hmap]
  · intro hl
    refine ⟨(h7 hl).1, fun s => ((h7 hl).2 s).trans ?_⟩
    have : IsOther (vars'.map Prod.fst) s ↔ IsOther (vars.map Prod.fst) s := by
      unfold IsOther
      simp only [(hp'.map Prod.fst).mem_iff]
    rw [this]
  · intro hr σ ρ e1 e2
    refine value_of h4 h5 h.vars_free hr h8 h9 h10 σ ρ (fun s hs v hv => e1 s hs v (hp'.mem_iff.2 hv)) ?_
    intro s hs hno
    exact e2 s hs (fun v hv => hno v (hp'.mem_iff.1 hv))

/-! ## Violations -/

private def zN : List Char := "z".toList
private def xN : List Char := "x".toList
private def yN : List Char := "y".toList

/-- **C137 (violated).** A generator of the `sympy.Poly` that does not occur in the expression is lost: for `Poly(z1**2, z0, z1)`
the variable `z` of the result has a single entry, `z1`. -/
theorem C137_gens_violated (setOrder : List (List Char) → List (List Char)) (hset : ∀ l, (setOrder l).Perm l) :
    ∃ P, fromSympyPoly setOrder [mergeSubscript "z".toList 0, mergeSubscript "z".toList 1] none ⟨none, none, none⟩
        (X (mergeSubscript "z".toList 1) ^ 2) [mergeSubscript "z".toList 1] = .ok P ∧
      P.md.vars = [("z".toList, some [1])] ∧ ∀ x, P.call [.vec [x], .vec []] [] = .ok (x ^ 2) := by
  have hgood : GoodName zN := by decide
  have hm : ∀ i, Indexed (mergeSubscript zN i) zN i := fun i => splitSubscript_merge zN hgood i
  have hfit : FitsExpr [(zN, some [1])] none (X (mergeSubscript zN 1) ^ 2) [mergeSubscript zN 1] := by
    refine ⟨by simp, by simp, by decide, by simpa using hgood, by simp, by simp, ?_, ?_, by simp⟩
    · intro s hs
      have := vars_pow _ _ hs
      rw [vars_X] at this
      simpa using this
    · intro s hs
      simp only [List.mem_singleton] at hs
      subst hs
      exact Or.inl ⟨(zN, some [1]), by simp, 1, by simp, hm 1⟩
  obtain ⟨P, h1, h2, h3, -, h4, h5⟩ := C137_poly_partial setOrder hset [mergeSubscript zN 0, mergeSubscript zN 1] none
    ⟨none, none, none⟩ rfl rfl rfl hfit
    (by
      intro g hg
      simp only [List.mem_cons, List.not_mem_nil, or_false] at hg
      rcases hg with rfl | rfl
      · exact ⟨zN, Or.inr ⟨0, hm 0⟩⟩
      · exact ⟨zN, Or.inr ⟨1, hm 1⟩⟩)
    (by
      intro n
      simp only [List.map_cons, List.map_nil, List.mem_singleton]
      constructor
      · rintro rfl
        exact ⟨_, by simp, Or.inr ⟨0, hm 0⟩⟩
      · rintro ⟨g, hg, hn⟩
        simp only [List.mem_cons, List.not_mem_nil, or_false] at hg
        have : ∃ i, Indexed g zN i := by
          rcases hg with rfl | rfl
          · exact ⟨0, hm 0⟩
          · exact ⟨1, hm 1⟩
        obtain ⟨i, hi⟩ := this
        rcases hn with hn | ⟨j, hn⟩
        · exact (split_unique hn hi).1
        · exact (split_unique hn hi).1)
    (by
      intro v hv l hl
      simp only [List.mem_singleton] at hv
      subst hv
      simp only [Option.some.injEq] at hl
      subst hl
      exact ⟨by simp, fun i hi => ⟨mergeSubscript zN 1, by simp, by simp at hi; rw [hi]; exact hm 1⟩⟩)
    (by
      intro s hs s' hs' _ _ _ _ _
      simp only [List.mem_singleton] at hs hs'
      rw [hs, hs'])
  have hv : P.md.vars = [(zN, some [1])] := List.perm_singleton.1 h2
  refine ⟨P, h1, hv, fun x => ?_⟩
  have hp : P.md.params = [] := by
    rw [List.eq_nil_iff_forall_not_mem]
    intro s hs
    obtain ⟨hs1, hs2⟩ := ((h4 rfl).2 s).1 hs
    simp only [List.mem_singleton] at hs1
    subst hs1
    obtain ⟨n, i, h6, h7⟩ := isOther_split hs2
    exact h7 (by simp [(split_unique h6 (hm 1)).1])
  have := h5 ((realCoeffs_X _).pow 2) (fun _ => x) (fun _ => x) (by simp) (by simp)
  simp only [PolyObj.callAt, Meta.inputs, Meta.paramInput, hv, hp] at this
  simpa [varInput] using this

/-- **C137 (violated).** The order of the variables of a `sympy.Poly` is the order of a set, not the order of its generators: for
`Poly(x - y, x, y)` the call `p(1, 2)` gives `-1` or `1`, depending on this order. -/
theorem C137_order_violated :
    ∃ P Q, fromSympyPoly id ["x".toList, "y".toList] none ⟨none, none, none⟩ (X "x".toList - X "y".toList)
        ["x".toList, "y".toList] = .ok P ∧
      fromSympyPoly List.reverse ["x".toList, "y".toList] none ⟨none, none, none⟩ (X "x".toList - X "y".toList)
        ["x".toList, "y".toList] = .ok Q ∧
      P.call [.scalar 1, .scalar 2, .vec []] [] = .ok (-1) ∧ Q.call [.scalar 1, .scalar 2, .vec []] [] = .ok 1 := by
  have hx : GoodName xN := by decide
  have hy : GoodName yN := by decide
  have ux : Unindexed xN xN := splitSubscript_good _ hx
  have uy : Unindexed yN yN := splitSubscript_good _ hy
  have hfit : FitsExpr [(xN, none), (yN, none)] none (X xN - X yN) [xN, yN] := by
    refine ⟨by simp, by decide, by decide, by simp [hx, hy], by simp, by decide, ?_, ?_, by simp⟩
    · intro s hs
      have := vars_sub_subset _ hs
      rw [vars_X, vars_X] at this
      simpa using this
    · intro s hs
      simp only [List.mem_cons, List.not_mem_nil, or_false] at hs
      rcases hs with rfl | rfl
      · exact Or.inl ⟨(xN, none), by simp, rfl⟩
      · exact Or.inl ⟨(yN, none), by simp, rfl⟩
  have hnames : ∀ n, n ∈ [(xN, none), (yN, none)].map (Prod.fst : List Char × Option (List ℕ) → List Char) ↔
      ∃ g ∈ [xN, yN], Unindexed g n ∨ ∃ i, Indexed g n i := by
    intro n
    simp only [List.map_cons, List.map_nil, List.mem_cons, List.not_mem_nil, or_false]
    constructor
    · rintro (rfl | rfl)
      · exact ⟨xN, by simp, Or.inl ux⟩
      · exact ⟨yN, by simp, Or.inl uy⟩
    · rintro ⟨g, rfl | rfl, hn | ⟨i, hn⟩⟩
      · exact Or.inl (split_unique hn ux).1
      · exact Or.inl (split_unique hn ux).1
      · exact Or.inr (split_unique hn uy).1
      · exact Or.inr (split_unique hn uy).1
  have key : ∀ setOrder : List (List Char) → List (List Char), (∀ l, (setOrder l).Perm l) →
      ∃ P, fromSympyPoly setOrder [xN, yN] none ⟨none, none, none⟩ (X xN - X yN) [xN, yN] = .ok P ∧
        P.md.names = setOrder [xN, yN] ∧ P.md.params = [] ∧ (∀ v ∈ P.md.vars, v.2 = none) ∧
        ∀ ρ : Sym → ℂ, P.callAt ρ = .ok (ρ xN - ρ yN) := by
    intro setOrder hset
    obtain ⟨P, h1, h2, h3, -, h4, h5⟩ := C137_poly_partial setOrder hset [xN, yN] none ⟨none, none, none⟩ rfl rfl rfl hfit
      (by
        intro g hg
        simp only [List.mem_cons, List.not_mem_nil, or_false] at hg
        rcases hg with rfl | rfl
        · exact ⟨_, Or.inl ux⟩
        · exact ⟨_, Or.inl uy⟩)
      hnames (by simp) (by
        intro s hs s' hs' v hv i h h'
        exfalso
        simp only [List.mem_cons, List.not_mem_nil, or_false] at hs
        rcases hs with rfl | rfl
        · exact absurd (split_unique h ux).2 (by simp)
        · exact absurd (split_unique h uy).2 (by simp))
    refine ⟨P, h1, h3 [xN, yN] (.cons (Or.inl ux) (.cons (Or.inl uy) .nil)), ?_, ?_, ?_⟩
    · rw [List.eq_nil_iff_forall_not_mem]
      intro s hs
      obtain ⟨hs1, hs2⟩ := ((h4 rfl).2 s).1 hs
      obtain ⟨n, i, h6, h7⟩ := isOther_split hs2
      simp only [List.mem_cons, List.not_mem_nil, or_false] at hs1
      rcases hs1 with rfl | rfl
      · exact h7 (by simp [(split_unique h6 ux).1])
      · exact h7 (by simp [(split_unique h6 uy).1])
    · intro v hv
      have := h2.mem_iff.1 hv
      simp only [List.mem_cons, List.not_mem_nil, or_false] at this
      rcases this with rfl | rfl <;> rfl
    · intro ρ
      have := h5 ((realCoeffs_X _).sub (realCoeffs_X _)) ρ ρ (by
        intro s hs v hv i h
        exfalso
        simp only [List.mem_cons, List.not_mem_nil, or_false] at hs
        rcases hs with rfl | rfl
        · exact absurd (split_unique h ux).2 (by simp)
        · exact absurd (split_unique h uy).2 (by simp)) (fun _ _ _ => rfl)
      rw [this]
      simp
  have pair : ∀ (P : PolyObj) (u v : List Char), P.md.names = [u, v] → (∀ w ∈ P.md.vars, w.2 = none) →
      P.md.vars = [(u, none), (v, none)] := by
    intro P u v hn hv
    have : P.md.vars = P.md.names.map (fun n => (n, none)) := by
      rw [Meta.names, List.map_map]
      conv_lhs => rw [← List.map_id P.md.vars]
      refine List.map_congr_left (fun w hw => ?_)
      exact Prod.ext rfl (hv w hw)
    rw [this, hn]
    rfl
  have hxy : yN ≠ xN := by decide
  obtain ⟨P, p1, p2, p3, p4, p5⟩ := key id (fun l => List.Perm.refl l)
  obtain ⟨Q, q1, q2, q3, q4, q5⟩ := key List.reverse (fun l => List.reverse_perm l)
  refine ⟨P, Q, p1, q1, ?_, ?_⟩
  · have := p5 (fun s => if s = xN then 1 else 2)
    simp only [PolyObj.callAt, Meta.inputs, Meta.paramInput, pair P xN yN p2 p4, p3] at this
    simp only [varInput, List.map_cons, List.map_nil, if_true, hxy, if_false] at this
    refine Eq.trans this ?_
    norm_num
  · have := q5 (fun s => if s = xN then 2 else 1)
    simp only [PolyObj.callAt, Meta.inputs, Meta.paramInput, pair Q yN xN q2 q4, q3] at this
    simp only [varInput, List.map_cons, List.map_nil, if_true, hxy, if_false] at this
    refine Eq.trans this ?_
    norm_num

/-- **C137 (violated).** An array whose symbols have different names is not refused: the array `[x0, y1]` is read as the variable
`x` with indices `0, 1`, and in `x0 + y1` the symbol `y1` is then a parameter. -/
theorem C137_mixed_violated :
    ∃ P, fromSympyArrays [[mergeSubscript "x".toList 0, mergeSubscript "y".toList 1]] none
        (X (mergeSubscript "x".toList 0) + X (mergeSubscript "y".toList 1))
        [mergeSubscript "x".toList 0, mergeSubscript "y".toList 1] = .ok P ∧
      P.md.vars = [("x".toList, some [0, 1])] ∧ P.md.params = [mergeSubscript "y".toList 1] := by
  have hx : Indexed (mergeSubscript xN 0) xN 0 := splitSubscript_merge xN (by decide) 0
  have hy : Indexed (mergeSubscript yN 1) yN 1 := splitSubscript_merge yN (by decide) 1
  have hxy : yN ≠ xN := by decide
  have hfit : FitsExpr [(xN, some [0, 1])] none (X (mergeSubscript xN 0) + X (mergeSubscript yN 1))
      [mergeSubscript xN 0, mergeSubscript yN 1] := by
    refine ⟨by simp, by simp, by decide, by simp; decide, by simp, by decide, ?_, ?_, by simp⟩
    · intro s hs
      have := vars_add_subset _ _ hs
      rw [vars_X, vars_X] at this
      simpa using this
    · intro s hs
      simp only [List.mem_cons, List.not_mem_nil, or_false] at hs
      rcases hs with rfl | rfl
      · exact Or.inl ⟨(xN, some [0, 1]), by simp, 0, by simp, hx⟩
      · exact Or.inr ⟨⟨yN, by simpa using hxy, Or.inr ⟨1, hy⟩⟩, by simp⟩
  have harr : arrayVars [[mergeSubscript xN 0, mergeSubscript yN 1]] = .ok [(xN, some [0, 1])] := by
    simp [arrayVars, arrayName, arrayIndices, arraySubscripts, splitNat_indexed.2 hx, splitNat_indexed.2 hy]
  obtain ⟨e, hlen, hv⟩ := fits_arrays (params := none) (free := [mergeSubscript xN 0, mergeSubscript yN 1])
    (p := X (mergeSubscript xN 0) + X (mergeSubscript yN 1)) harr (by simp)
  obtain ⟨P, h1, h2, -, h4, -, -, h7, -⟩ := fits_fromSympy hfit rfl rfl (Or.inr rfl) hlen hv
  refine ⟨P, e.trans h1, h2, ?_⟩
  apply List.perm_singleton.1
  rw [List.perm_ext_iff_of_nodup h4.paramsNodup (by simp)]
  intro s
  rw [(h7 rfl).2 s]
  simp only [List.mem_cons, List.not_mem_nil, or_false]
  constructor
  · rintro ⟨rfl | rfl, ho⟩
    · obtain ⟨n, i, h5, h6⟩ := isOther_split ho
      exact absurd (by simp [(split_unique h5 hx).1]) h6
    · rfl
  · rintro rfl
    exact ⟨Or.inr rfl, yN, by simpa using hxy, Or.inr ⟨1, hy⟩⟩

/-- The hypotheses of `C137_arrays_partial` hold for `x + psi*z_2` with the arrays `[z0, z_1, z2]` and `[x]` (the order of the
variables is the one of the arrays, and `z0` need not occur). -/
example : ∃ P, fromSympyArrays [[mergeSubscript zN 0, zN ++ '_' :: natStr 1, mergeSubscript zN 2], [xN]] none
      (X xN + X yN * X (zN ++ '_' :: natStr 2)) [yN, zN ++ '_' :: natStr 2, xN] = .ok P ∧
    P.md.vars = [(zN, some [0, 1, 2]), (xN, none)] := by
  have hz : GoodName zN := by decide
  have hx : Unindexed xN xN := splitSubscript_good _ (by decide)
  have hy : Unindexed yN yN := splitSubscript_good _ (by decide)
  have hu : ∀ i, Indexed (zN ++ '_' :: natStr i) zN i := fun i => splitSubscript_underscore zN hz i
  have hm : ∀ i, Indexed (mergeSubscript zN i) zN i := fun i => splitSubscript_merge zN hz i
  obtain ⟨P, h1, h2, -⟩ := C137_arrays_partial (vars := [(zN, some [0, 1, 2]), (xN, none)]) (params := none)
    (p := X xN + X yN * X (zN ++ '_' :: natStr 2)) (free := [yN, zN ++ '_' :: natStr 2, xN])
    ⟨by simp, by decide, by decide, by simp; decide, by simp, by decide, by
      intro s hs
      have h1 := vars_add_subset _ _ hs
      simp only [Finset.mem_union] at h1
      rcases h1 with h1 | h1
      · rw [vars_X] at h1
        simp at h1
        simp [h1]
      · have h2 := vars_mul _ _ h1
        rw [vars_X, vars_X] at h2
        simp at h2
        rcases h2 with h2 | h2 <;> simp [h2], by
      intro s hs
      simp only [List.mem_cons, List.not_mem_nil, or_false] at hs
      rcases hs with rfl | rfl | rfl
      · exact Or.inr ⟨⟨yN, by decide, Or.inl hy⟩, by simp⟩
      · exact Or.inl ⟨(zN, some [0, 1, 2]), by simp, 2, by simp, hu 2⟩
      · exact Or.inl ⟨(xN, none), by simp, rfl⟩, by simp⟩
    [[mergeSubscript zN 0, zN ++ '_' :: natStr 1, mergeSubscript zN 2], [xN]]
    (.cons ⟨by simp, .cons (hm 0) (.cons (hu 1) (.cons (hm 2) .nil))⟩ (.cons rfl .nil))
  exact ⟨P, h1, h2⟩

end Cyjax
