import Verif.Lemmas.PolyOps

namespace Cyjax.Polynomial

open MvPolynomial

theorem erase_add_single (m : Sym →₀ ℕ) (x : Sym) : m.erase x + Finsupp.single x (m x) = m := by
  exact Finsupp.erase_add_single x m

theorem coeff_uniCoeff (p : MvPolynomial Sym ℂ) (x : Sym) (k : ℕ) (d : Sym →₀ ℕ) (hd : d x = 0) :
    coeff d (uniCoeff p x k) = coeff (d + Finsupp.single x k) p := by
  classical
  unfold uniCoeff
  rw [coeff_sum]
  simp only [coeff_monomial]
  by_cases hs : coeff (d + Finsupp.single x k) p = 0
  · rw [hs]
    apply Finset.sum_eq_zero
    intro m hm
    rw [Finset.mem_filter] at hm
    rw [if_neg]
    rintro rfl
    rw [← hm.2, erase_add_single] at hs
    exact (mem_support_iff.1 hm.1) hs
  · rw [Finset.sum_eq_single (d + Finsupp.single x k)]
    · rw [if_pos]
      ext s
      by_cases h : s = x
      · subst h; simp [hd]
      · simp [Finsupp.erase_ne h]
    · intro m hm hne
      rw [Finset.mem_filter] at hm
      rw [if_neg]
      rintro rfl
      apply hne
      rw [← hm.2, erase_add_single]
    · intro hm
      exfalso
      apply hm
      rw [Finset.mem_filter]
      exact ⟨mem_support_iff.2 hs, by simp [hd]⟩

theorem uniCoeff_not_var (p : MvPolynomial Sym ℂ) (x : Sym) (k : ℕ) : x ∉ (uniCoeff p x k).vars := by
  classical
  intro h
  rw [mem_vars_iff_mem_support] at h
  obtain ⟨d, hd, hx⟩ := h
  have := support_sum (s := p.support.filter (fun m => m x = k))
    (f := fun m => monomial (m.erase x) (coeff m p)) hd
  rw [Finset.mem_biUnion] at this
  obtain ⟨m, _, hm⟩ := this
  have := support_monomial_subset hm
  rw [Finset.mem_singleton] at this
  subst this
  simp at hx

theorem uniCoeff_vars (p : MvPolynomial Sym ℂ) (x : Sym) (k : ℕ) (s : Sym)
    (h : s ∈ (uniCoeff p x k).vars) : s ∈ p.vars ∧ s ≠ x := by
  have hne : s ≠ x := by rintro rfl; exact uniCoeff_not_var p s k h
  refine ⟨?_, hne⟩
  classical
  rw [mem_vars_iff_mem_support] at h ⊢
  obtain ⟨d, hd, hs⟩ := h
  have := support_sum (s := p.support.filter (fun m => m x = k))
    (f := fun m => monomial (m.erase x) (coeff m p)) hd
  rw [Finset.mem_biUnion] at this
  obtain ⟨m, hm, hdm⟩ := this
  have := support_monomial_subset hdm
  rw [Finset.mem_singleton] at this
  subst this
  refine ⟨m, (Finset.mem_filter.1 hm).1, ?_⟩
  rw [Finsupp.support_erase, Finset.mem_erase] at hs
  exact hs.2

theorem uniCoeff_real (p : MvPolynomial Sym ℂ) (hp : RealCoeffs p) (x : Sym) (k : ℕ) :
    RealCoeffs (uniCoeff p x k) := by
  unfold uniCoeff
  apply realCoeffs_sum
  intro m _ d
  classical
  rw [coeff_monomial]
  split_ifs
  · exact hp m
  · simp

theorem uniCoeff_leading (p : MvPolynomial Sym ℂ) (hp : p ≠ 0) (x : Sym) :
    uniCoeff p x (degreeOf x p) ≠ 0 := by
  have hne : p.support.Nonempty := by rwa [Finset.nonempty_iff_ne_empty, ne_eq, support_eq_empty]
  obtain ⟨m, hm, hmax⟩ := Finset.exists_mem_eq_sup p.support hne (fun m => m x)
  rw [← degreeOf_eq_sup] at hmax
  intro h
  have := coeff_uniCoeff p x (degreeOf x p) (m.erase x) (by simp)
  rw [h, hmax, erase_add_single, coeff_zero] at this
  exact (mem_support_iff.1 hm) this.symm

theorem sum_uniCoeff (p : MvPolynomial Sym ℂ) (x : Sym) :
    ∑ k ∈ Finset.range (degreeOf x p + 1), uniCoeff p x k * X x ^ k = p := by
  classical
  have h1 : ∀ k ∈ Finset.range (degreeOf x p + 1), uniCoeff p x k * X x ^ k =
      ∑ m ∈ p.support with m x = k, monomial m (coeff m p) := by
    intro k _
    unfold uniCoeff
    rw [Finset.sum_mul]
    apply Finset.sum_congr rfl
    intro m hm
    rw [X_pow_eq_monomial, monomial_mul, mul_one, ← (Finset.mem_filter.1 hm).2, erase_add_single]
  rw [Finset.sum_congr rfl h1, Finset.sum_fiberwise_of_maps_to]
  · exact support_sum_monomial_coeff p
  · intro m hm
    rw [Finset.mem_range, degreeOf_eq_sup]
    exact Nat.lt_succ_of_le (Finset.le_sup (f := fun m : Sym →₀ ℕ => m x) hm)

theorem dropSym_fst (x : Sym) (v w : List Char × Option (List ℕ)) (h : dropSym x v = some w) : w.1 = v.1 := by
  unfold dropSym at h
  rcases v with ⟨n, _ | inds⟩
  · simp only at h
    split_ifs at h
    cases h; rfl
  · simp only at h
    split_ifs at h
    cases h; rfl

theorem dropSym_sub (x : Sym) (v w : List Char × Option (List ℕ)) (h : dropSym x v = some w) (inds' : List ℕ)
    (hw : w.2 = some inds') : ∃ inds, v.2 = some inds ∧ inds'.Sublist inds := by
  unfold dropSym at h
  rcases v with ⟨n, _ | inds⟩
  · simp only at h
    split_ifs at h
    cases h; simp at hw
  · simp only at h
    split_ifs at h
    cases h
    simp only [Option.some.injEq] at hw
    subst hw
    exact ⟨inds, rfl, List.filter_sublist⟩

theorem mem_dropSym (x s : Sym) (v : List Char × Option (List ℕ)) :
    (∃ w, dropSym x v = some w ∧ s ∈ varSymbols w) ↔ s ∈ varSymbols v ∧ s ≠ x := by
  unfold dropSym
  rcases v with ⟨n, _ | inds⟩
  · simp only [varSymbols, List.mem_singleton]
    split_ifs with h
    · subst h; simp
    · constructor
      · rintro ⟨w, hw, hs⟩
        cases hw
        simp only [List.mem_singleton] at hs
        subst hs
        exact ⟨rfl, h⟩
      · rintro ⟨rfl, _⟩
        exact ⟨_, rfl, by simp⟩
  · simp only
    split_ifs with h
    · simp only [false_and, exists_false, false_iff, not_and, not_not]
      intro hs
      simp only [varSymbols, List.mem_map] at hs
      obtain ⟨i, hi, rfl⟩ := hs
      rw [List.filter_eq_nil_iff] at h
      simpa using h i hi
    · simp only [Option.some.injEq, exists_eq_left', varSymbols, List.mem_map, List.mem_filter]
      constructor
      · rintro ⟨i, ⟨hi, hx⟩, rfl⟩
        exact ⟨⟨i, hi, rfl⟩, by simpa using hx⟩
      · rintro ⟨⟨i, hi, rfl⟩, hx⟩
        exact ⟨i, ⟨hi, by simpa using hx⟩, rfl⟩

theorem constMeta_varSyms (m : Meta) (x s : Sym) : s ∈ (constMeta m x).varSyms ↔ s ∈ m.varSyms ∧ s ≠ x := by
  unfold constMeta Meta.varSyms
  simp only [List.mem_flatMap, List.mem_filterMap]
  constructor
  · rintro ⟨w, ⟨v, hv, hw⟩, hs⟩
    have := (mem_dropSym x s v).1 ⟨w, hw, hs⟩
    exact ⟨⟨v, hv, this.1⟩, this.2⟩
  · rintro ⟨⟨v, hv, hs⟩, hne⟩
    obtain ⟨w, hw, hs⟩ := (mem_dropSym x s v).2 ⟨hs, hne⟩
    exact ⟨w, ⟨v, hv, hw⟩, hs⟩

theorem constMeta_vars_ne (m : Meta) (x : Sym) (h : ∃ s ∈ m.varSyms, s ≠ x) : (constMeta m x).vars ≠ [] := by
  obtain ⟨s, hs, hsx⟩ := h
  have := (constMeta_varSyms m x s).2 ⟨hs, hsx⟩
  intro h0
  unfold Meta.varSyms at this
  rw [h0] at this
  simp at this

theorem constMeta_vars_eq_nil (m : Meta) (x : Sym) (h : ∀ s ∈ m.varSyms, s = x) : (constMeta m x).vars = [] := by
  unfold constMeta
  simp only [List.filterMap_eq_nil_iff]
  intro v hv
  cases hd : dropSym x v with
  | none => rfl
  | some w =>
    exfalso
    have hw : ∃ s, s ∈ varSymbols w := by
      unfold dropSym at hd
      rcases v with ⟨n, _ | inds⟩
      · simp only at hd
        split_ifs at hd
        cases hd
        exact ⟨n, by simp [varSymbols]⟩
      · simp only at hd
        split_ifs at hd with hr
        cases hd
        obtain ⟨i, hi⟩ := List.exists_mem_of_ne_nil _ hr
        exact ⟨mergeSubscript n i, List.mem_map.2 ⟨i, hi, rfl⟩⟩
    obtain ⟨s, hs⟩ := hw
    obtain ⟨h1, h2⟩ := (mem_dropSym x s v).1 ⟨w, hd, hs⟩
    exact h2 (h s (List.mem_flatMap.2 ⟨v, hv, h1⟩))

theorem coeff_uniCoeff_erase (p : MvPolynomial Sym ℂ) (x : Sym) (m : Sym →₀ ℕ) :
    coeff (m.erase x) (uniCoeff p x (m x)) = coeff m p := by
  rw [coeff_uniCoeff p x (m x) _ Finsupp.erase_same, erase_add_single]

theorem names_sublist (vars : List (List Char × Option (List ℕ))) (x : Sym) :
    ((vars.filterMap (dropSym x)).map Prod.fst).Sublist (vars.map Prod.fst) := by
  induction vars with
  | nil => simp
  | cons v vs ih =>
    rw [List.filterMap_cons]
    cases h : dropSym x v with
    | none => simpa using ih.cons v.1
    | some w =>
      simp only [List.map_cons]
      rw [dropSym_fst x v w h]
      exact ih.cons_cons v.1

theorem constMeta_wf (m : Meta) (hm : m.WF) (x : Sym) : (constMeta m x).WF where
  namesNodup := (names_sublist m.vars x).nodup hm.namesNodup
  good := by
    intro w hw
    obtain ⟨v, hv, hw⟩ := List.mem_filterMap.1 hw
    rw [dropSym_fst x v w hw]
    exact hm.good v hv
  indsNodup := by
    intro w hw inds hinds
    obtain ⟨v, hv, hw⟩ := List.mem_filterMap.1 hw
    obtain ⟨inds', h1, h2⟩ := dropSym_sub x v w hw inds hinds
    exact h2.nodup (hm.indsNodup v hv inds' h1)
  paramsNodup := hm.paramsNodup
  params := by
    intro s hs
    obtain ⟨n, ix, h1, h2⟩ := hm.params s hs
    exact ⟨n, ix, h1, fun h => h2 ((names_sublist m.vars x).subset h)⟩

theorem polyval_reverse_range (d : ℕ) (f : ℕ → ℂ) (x : ℂ) :
    polyval ((List.range (d + 1)).reverse.map f) x = ∑ k ∈ Finset.range (d + 1), f k * x ^ k := by
  unfold polyval
  simp only [List.length_map, List.length_reverse, List.length_range]
  apply Finset.sum_congr rfl
  intro k hk
  rw [Finset.mem_range] at hk
  congr 1
  rw [List.getD_eq_getElem?_getD, List.getElem?_map, List.getElem?_eq_getElem (by simp)]
  simp only [Option.map_some, Option.getD_some, List.getElem_reverse, List.getElem_range,
    List.length_range]
  congr 1
  omega

end Cyjax.Polynomial
