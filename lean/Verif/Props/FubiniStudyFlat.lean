import Verif.Props.FubiniStudyH
import Verif.Props.RicciScalar
import Verif.Lemmas.FubiniStudyLow
import Mathlib.RingTheory.RootsOfUnity.Complex

/-! # C152: the Fubini–Study metric on a Calabi–Yau hypersurface, and why it is not Ricci-flat -/

namespace Cyjax

open MeasureTheory ProbabilityTheory MvPolynomial Cyjax.Spec Cyjax.Polynomial Cyjax.Variety Cyjax.Donaldson Cyjax.Projective Set
  Filter Topology
open scoped ENNReal ComplexOrder

variable {n : ℕ} {F : MvPolynomial (Fin (n + 2)) ℂ} {V : HomKind} {ps : List ℂ}

/-- **C152.** The value of `eta` for the matrix of the Fubini–Study metric, on a hypersurface of degree `n + 2`: a quotient of
the squared norms of the gradient and of the point. -/
theorem C152_eta (hF : Hypersurface V (.vec ps) (n + 1) (n + 2) F) (k : ℕ) (hk : k ≠ 0) (Z : Fin (n + 2) → ℂ) (hZ : Z ≠ 0)
    (h0 : eval Z F = 0) (hs : ∃ i, eval Z (pderiv i F) ≠ 0) :
    AlgebraicMetric.eta ⟨V, monomialBasisFull (n + 1) k⟩ (fubiniStudyH (n + 1) k) (List.ofFn Z) (.vec ps) none none none =
      .ok (((∑ i, ‖eval Z (pderiv i F)‖ ^ 2) / (Real.pi ^ n * (∑ i, ‖Z i‖ ^ 2) ^ (n + 1)) : ℝ) : ℂ) := by
  have hp0 : Z (homToAffineAuto Z).2 ≠ 0 := (C17_bounded Z hZ 0).1
  obtain ⟨-, -, hz⟩ := C17_patch Z
  obtain ⟨d, hd0⟩ := smooth_affine hF.homogeneous Z h0 hs _ hp0
  rw [eval_pderiv_dehom, ← hz] at hd0
  obtain ⟨η', w', -, -, e1, e2, e3⟩ := C115_weight hF k hk (homToAffineAuto Z).2 (homToAffineAuto Z).1 d none hd0 (Or.inl rfl)
  have e4 := (C103_homogeneous ⟨V, monomialBasisFull (n + 1) k⟩ hF.dim (fubiniStudyH (n + 1) k) (.vec ps) none none Z).2.2.1
  have e5 := Except.ok.inj (e2.symm.trans (weight_auto hF Z hZ h0 hs))
  rw [(C111_calabi_yau hF.homogeneous Z hZ).1] at e5
  rw [e4, e1]
  congr 2
  obtain ⟨i, hi⟩ : ∃ i, Z i ≠ 0 := Function.ne_iff.1 hZ
  obtain ⟨j, hj⟩ := hs
  have h1 := sum_norm_sq_pos Z i hi
  have h2 := sum_norm_sq_pos (fun i => eval Z (pderiv i F)) j hj
  have hf : (0 : ℝ) < n.factorial := by exact_mod_cast n.factorial_pos
  have hpi := Real.pi_pos
  rw [e5] at e3
  rw [eq_div_iff (by positivity)]
  field_simp at e3
  linear_combination e3

/-- A point with `s` coordinates of modulus one and the others zero, at which the gradient has modulus `n + 2` in the same
coordinates and zero in the others. -/
private theorem eta_at (hF : Hypersurface V (.vec ps) (n + 1) (n + 2) F) (k : ℕ) (hk : k ≠ 0) (Z : Fin (n + 2) → ℂ)
    (h0 : eval Z F = 0) (s : ℕ) (hs : s ≠ 0) (hsum : ∑ i, ‖Z i‖ ^ 2 = s)
    (hg : ∀ i, ‖eval Z (pderiv i F)‖ ^ 2 = ((n + 2 : ℕ) : ℝ) ^ 2 * ‖Z i‖ ^ 2) :
    AlgebraicMetric.eta ⟨V, monomialBasisFull (n + 1) k⟩ (fubiniStudyH (n + 1) k) (List.ofFn Z) (.vec ps) none none none =
      .ok ((((n + 2 : ℕ) : ℝ) ^ 2 / (Real.pi ^ n * (s : ℝ) ^ n) : ℝ) : ℂ) := by
  have hs' : (s : ℝ) ≠ 0 := by exact_mod_cast hs
  have hN : (((n + 2 : ℕ) : ℝ)) ≠ 0 := by positivity
  obtain ⟨i, hi⟩ : ∃ i, Z i ≠ 0 := by
    by_contra! hcon
    simp [hcon] at hsum
    exact hs' hsum.symm
  have hgi : ∃ i, eval Z (pderiv i F) ≠ 0 := by
    refine ⟨i, fun h => ?_⟩
    have h1 := hg i
    rw [h, norm_zero, zero_pow two_ne_zero] at h1
    have : 0 < ‖Z i‖ := norm_pos_iff.2 hi
    have : 0 < ((n + 2 : ℕ) : ℝ) ^ 2 * ‖Z i‖ ^ 2 := by positivity
    linarith
  rw [C152_eta hF k hk Z (fun h => hi (congrFun h i)) h0 hgi, Finset.sum_congr rfl fun i _ => hg i, ← Finset.mul_sum, hsum]
  congr 2
  have := Real.pi_ne_zero
  field_simp
  ring

private theorem root_neg (N : ℕ) (hN : N ≠ 0) : ∃ ζ : ℂ, ‖ζ‖ = 1 ∧ ζ ^ N = -1 := by
  refine ⟨Complex.exp (((Real.pi / N : ℝ) : ℂ) * Complex.I), Complex.norm_exp_ofReal_mul_I _, ?_⟩
  rw [← Complex.exp_nat_mul, ← Complex.exp_pi_mul_I]
  congr 1
  have : (N : ℂ) ≠ 0 := by exact_mod_cast hN
  push_cast
  field_simp

private theorem root_three (N : ℕ) (hN : N ≠ 0) : ∃ t : ℂ, ‖t‖ = 1 ∧ 1 + t ^ N + (t ^ 2) ^ N = 0 := by
  refine ⟨Complex.exp (((2 * Real.pi / 3 / N : ℝ) : ℂ) * Complex.I), Complex.norm_exp_ofReal_mul_I _, ?_⟩
  have h1 := (Complex.isPrimitiveRoot_exp 3 (by norm_num)).geom_sum_eq_zero (by norm_num)
  have h2 : Complex.exp (((2 * Real.pi / 3 / N : ℝ) : ℂ) * Complex.I) ^ N = Complex.exp (2 * Real.pi * Complex.I / (3 : ℕ)) := by
    rw [← Complex.exp_nat_mul]
    congr 1
    have : (N : ℂ) ≠ 0 := by exact_mod_cast hN
    push_cast
    field_simp
  rw [← pow_mul, mul_comm 2 N, pow_mul, h2]
  rw [Finset.sum_range_succ, Finset.sum_range_succ, Finset.sum_range_one, pow_zero, pow_one] at h1
  exact h1

/-- Two points of `Σ Z_j^N = 0` with coordinates of modulus one or zero. -/
private theorem two_points (hn : n ≠ 0) : ∃ Z W : Fin (n + 2) → ℂ,
    (∑ j, Z j ^ (n + 2) = 0 ∧ ∑ j, ‖Z j‖ ^ 2 = (2 : ℕ) ∧ (∀ j, ‖Z j‖ = 0 ∨ ‖Z j‖ = 1) ∧ ∀ j : Fin (n + 2), 2 ≤ (j : ℕ) → Z j = 0) ∧
    ∑ j, W j ^ (n + 2) = 0 ∧ ∑ j, ‖W j‖ ^ 2 = (3 : ℕ) ∧ (∀ j, ‖W j‖ = 0 ∨ ‖W j‖ = 1) ∧ ∀ j : Fin (n + 2), 3 ≤ (j : ℕ) → W j = 0 := by
  obtain ⟨m, rfl⟩ := Nat.exists_eq_succ_of_ne_zero hn
  obtain ⟨ζ, hζ, hζN⟩ := root_neg (m + 3) (by omega)
  obtain ⟨t, ht, htN⟩ := root_three (m + 3) (by omega)
  refine ⟨Fin.cons 1 (Fin.cons ζ fun _ : Fin (m + 1) => 0), Fin.cons 1 (Fin.cons t (Fin.cons (t ^ 2) fun _ : Fin m => 0)),
    ⟨?_, ?_, ?_, ?_⟩, ?_, ?_, ?_, ?_⟩
  · rw [Fin.sum_univ_succ, Fin.sum_univ_succ]
    simp only [Fin.cons_zero, Fin.cons_succ, one_pow, hζN]
    simp
  · rw [Fin.sum_univ_succ, Fin.sum_univ_succ]
    simp only [Fin.cons_zero, Fin.cons_succ, hζ, norm_one]
    norm_num
  · refine Fin.cases (Or.inr ?_) (Fin.cases (Or.inr ?_) fun _ => Or.inl ?_)
    · exact norm_one
    · exact hζ
    · exact norm_zero
  · intro j hj
    revert hj
    refine Fin.cases (fun h => absurd h (by simp)) (Fin.cases (fun h => absurd h (by simp)) fun _ _ => rfl) j
  · rw [Fin.sum_univ_succ, Fin.sum_univ_succ, Fin.sum_univ_succ]
    simp only [Fin.cons_zero, Fin.cons_succ, one_pow]
    simp only [zero_pow (show m + 1 + 2 ≠ 0 by omega), Finset.sum_const_zero, add_zero, ← add_assoc]
    exact htN
  · rw [Fin.sum_univ_succ, Fin.sum_univ_succ, Fin.sum_univ_succ]
    simp only [Fin.cons_zero, Fin.cons_succ, ht, norm_one, norm_pow]
    norm_num
  · refine Fin.cases (Or.inr ?_) (Fin.cases (Or.inr ?_) (Fin.cases (Or.inr ?_) fun _ => Or.inl ?_))
    · exact norm_one
    · exact ht
    · exact (norm_pow t 2).trans (by rw [ht, one_pow])
    · exact norm_zero
  · intro j hj
    revert hj
    refine Fin.cases (fun h => absurd h (by simp)) (Fin.cases (fun h => absurd h (by simp)) (Fin.cases
      (fun h => absurd h (by simp only [Fin.val_succ, Fin.val_zero]; omega)) fun _ _ => rfl)) j

private theorem norm_grad (a : ℂ) (Z : Fin (n + 2) → ℂ) (hZ : ∀ j, ‖Z j‖ = 0 ∨ ‖Z j‖ = 1)
    (hprod : ∀ i, a * ∏ j ∈ Finset.univ.erase i, Z j = 0) (i : Fin (n + 2)) :
    ‖eval Z (pderiv i (∑ j, X j ^ (n + 2) + C a * ∏ j, X j : MvPolynomial (Fin (n + 2)) ℂ))‖ ^ 2 =
      ((n + 2 : ℕ) : ℝ) ^ 2 * ‖Z i‖ ^ 2 := by
  rw [pderiv_dwork, hprod i, add_zero, norm_mul, mul_pow, norm_pow, Complex.norm_natCast]
  rcases hZ i with h | h <;> simp [h]

private theorem not_const (hn : n ≠ 0) (a : ℂ) (ha : a = 0 ∨ 3 ≤ n)
    (hF : Hypersurface V (.vec ps) (n + 1) (n + 2) (∑ j, X j ^ (n + 2) + C a * ∏ j, X j)) (k : ℕ) (hk : k ≠ 0) :
    ∃ Z W : Fin (n + 2) → ℂ, Z ≠ 0 ∧ W ≠ 0 ∧
      eval Z (∑ j, X j ^ (n + 2) + C a * ∏ j, X j : MvPolynomial (Fin (n + 2)) ℂ) = 0 ∧
      eval W (∑ j, X j ^ (n + 2) + C a * ∏ j, X j : MvPolynomial (Fin (n + 2)) ℂ) = 0 ∧
      AlgebraicMetric.eta ⟨V, monomialBasisFull (n + 1) k⟩ (fubiniStudyH (n + 1) k) (List.ofFn Z) (.vec ps) none none none =
        .ok ((((n + 2 : ℕ) : ℝ) ^ 2 / (Real.pi ^ n * 2 ^ n) : ℝ) : ℂ) ∧
      AlgebraicMetric.eta ⟨V, monomialBasisFull (n + 1) k⟩ (fubiniStudyH (n + 1) k) (List.ofFn W) (.vec ps) none none none =
        .ok ((((n + 2 : ℕ) : ℝ) ^ 2 / (Real.pi ^ n * 3 ^ n) : ℝ) : ℂ) := by
  obtain ⟨Z, W, ⟨z1, z2, z3, z4⟩, w1, w2, w3, w4⟩ := two_points hn
  have herase : ∀ (Y : Fin (n + 2) → ℂ), (∀ j : Fin (n + 2), 3 ≤ (j : ℕ) → Y j = 0) → ∀ i, a * ∏ j ∈ Finset.univ.erase i, Y j = 0 := by
    intro Y hY i
    rcases ha with rfl | hn3
    · rw [zero_mul]
    · obtain ⟨j, hj, hji⟩ : ∃ j : Fin (n + 2), 3 ≤ (j : ℕ) ∧ j ≠ i := by
        by_cases h : i = ⟨3, by omega⟩
        · exact ⟨⟨4, by omega⟩, by simp, by rw [h]; simp⟩
        · exact ⟨⟨3, by omega⟩, by simp, Ne.symm h⟩
      rw [Finset.prod_eq_zero (Finset.mem_erase.2 ⟨hji, Finset.mem_univ j⟩) (hY j hj), mul_zero]
  have hall : ∀ (Y : Fin (n + 2) → ℂ), (∀ j : Fin (n + 2), 3 ≤ (j : ℕ) → Y j = 0) → a * ∏ j, Y j = 0 := by
    intro Y hY
    have h1 := herase Y hY 0
    rw [← Finset.mul_prod_erase _ _ (Finset.mem_univ 0), mul_left_comm, h1, mul_zero]
  have hZ : eval Z (∑ j, X j ^ (n + 2) + C a * ∏ j, X j : MvPolynomial (Fin (n + 2)) ℂ) = 0 := by
    rw [eval_dwork, z1, hall Z fun j hj => z4 j (by omega), add_zero]
  have hW : eval W (∑ j, X j ^ (n + 2) + C a * ∏ j, X j : MvPolynomial (Fin (n + 2)) ℂ) = 0 := by
    rw [eval_dwork, w1, hall W w4, add_zero]
  refine ⟨Z, W, ?_, ?_, hZ, hW, ?_, ?_⟩
  · rintro rfl
    simp at z2
  · rintro rfl
    simp at w2
  · simpa using eta_at hF k hk Z hZ 2 two_ne_zero z2 (norm_grad a Z z3 (herase Z fun j hj => z4 j (by omega)))
  · simpa using eta_at hF k hk W hW 3 three_ne_zero w2 (norm_grad a W w3 (herase W w4))

private theorem values_ne (hn : n ≠ 0) :
    (((((n + 2 : ℕ) : ℝ) ^ 2 / (Real.pi ^ n * 2 ^ n) : ℝ)) : ℂ) ≠ ((((n + 2 : ℕ) : ℝ) ^ 2 / (Real.pi ^ n * 3 ^ n) : ℝ) : ℂ) := by
  rw [Complex.ofReal_inj.ne]
  have h1 : (2 : ℝ) ^ n < 3 ^ n := pow_lt_pow_left₀ (by norm_num) (by norm_num) hn
  have hpi := Real.pi_pos
  have hN : (0 : ℝ) < ((n + 2 : ℕ) : ℝ) := by positivity
  refine (div_lt_div_of_pos_left (by positivity) (by positivity) ?_).ne'
  exact mul_lt_mul_of_pos_left h1 (by positivity)

/-- What is shown about the Fubini–Study metric: `eta` has two different values, the accuracy is not zero in any chart, and
the Ricci scalar is positive at one point and negative at another. -/
def NotFlat (V : HomKind) (ps : List ℂ) (F : MvPolynomial (Fin (n + 2)) ℂ) (k : ℕ) : Prop :=
  (∃ (Z W : Fin (n + 2) → ℂ) (a b : ℂ), Z ≠ 0 ∧ W ≠ 0 ∧ eval Z F = 0 ∧ eval W F = 0 ∧ a ≠ b ∧
    AlgebraicMetric.eta ⟨V, monomialBasisFull (n + 1) k⟩ (fubiniStudyH (n + 1) k) (List.ofFn Z) (.vec ps) none none none = .ok a ∧
    AlgebraicMetric.eta ⟨V, monomialBasisFull (n + 1) k⟩ (fubiniStudyH (n + 1) k) (List.ofFn W) (.vec ps) none none none = .ok b) ∧
  (∀ p d, accuracy (cyMeasure p d F) (etaAt ⟨V, monomialBasisFull (n + 1) k⟩ (fubiniStudyH (n + 1) k) ps) ≠ 0) ∧
  (∃ (Z : Fin (n + 2) → ℂ) (c : ℝ), Z ≠ 0 ∧ eval Z F = 0 ∧ 0 < c ∧
    AlgebraicMetric.ricciScalar ⟨V, monomialBasisFull (n + 1) k⟩ (fubiniStudyH (n + 1) k) (List.ofFn Z) (.vec ps) none none none =
      .ok (c : ℂ)) ∧
  ∃ (Z : Fin (n + 2) → ℂ) (c : ℝ), Z ≠ 0 ∧ eval Z F = 0 ∧ c < 0 ∧
    AlgebraicMetric.ricciScalar ⟨V, monomialBasisFull (n + 1) k⟩ (fubiniStudyH (n + 1) k) (List.ofFn Z) (.vec ps) none none none =
      .ok (c : ℂ)

private theorem notFlat_of (hn : n ≠ 0) (hS : Samplable V (n + 1) (n + 2) ps)
    (hF : Hypersurface V (.vec ps) (n + 1) (n + 2) F) (hsm : SmoothHypersurface F) (k : ℕ) (hk : k ≠ 0)
    (h : ∃ (Z W : Fin (n + 2) → ℂ) (a b : ℂ), Z ≠ 0 ∧ W ≠ 0 ∧ eval Z F = 0 ∧ eval W F = 0 ∧ a ≠ b ∧
      AlgebraicMetric.eta ⟨V, monomialBasisFull (n + 1) k⟩ (fubiniStudyH (n + 1) k) (List.ofFn Z) (.vec ps) none none none = .ok a ∧
      AlgebraicMetric.eta ⟨V, monomialBasisFull (n + 1) k⟩ (fubiniStudyH (n + 1) k) (List.ofFn W) (.vec ps) none none none = .ok b) :
    NotFlat V ps F k := by
  have hacc : ∀ p d, accuracy (cyMeasure p d F) (etaAt ⟨V, monomialBasisFull (n + 1) k⟩ (fubiniStudyH (n + 1) k) ps) ≠ 0 := by
    intro p d h0
    rw [C138_constant (A := ⟨V, monomialBasisFull (n + 1) k⟩) hsm hn p d hS hF (C105_sections F k).1 hk _ (C115_posDef _ _)] at h0
    obtain ⟨c, hc⟩ := h0
    obtain ⟨Z, W, a, b, hZ, hW, hZ0, hW0, hab, ha, hb⟩ := h
    exact hab ((Except.ok.inj (ha.symm.trans (hc Z hZ hZ0))).trans (Except.ok.inj (hb.symm.trans (hc W hW hW0))).symm)
  obtain ⟨⟨Z, c, h1, h2, h3, h4⟩, Z', c', h1', h2', h3', h4'⟩ := C151_signs (A := ⟨V, monomialBasisFull (n + 1) k⟩) hsm hn 0 0
    hS hF (C105_sections F k).1 hk _ (C115_posDef _ _) (hacc 0 0)
  exact ⟨h, hacc, ⟨Z, c, h1, h2, h4, h3⟩, Z', c', h1', h2', h4', h3'⟩

/-- **C152.** On the Fermat hypersurface of degree `n + 2`, of any dimension `n ≥ 1`, the Fubini–Study metric is not
Ricci-flat. -/
theorem C152_fermat (n : ℕ) (hn : n ≠ 0) (k : ℕ) (hk : k ≠ 0) :
    NotFlat (n := n) (.fermat (n + 2)) [] (∑ j, X j ^ (n + 2)) k := by
  have hF := (C114_fermat (m := n + 1) (.vec [])).1
  refine notFlat_of hn (.fermat (n + 1)) hF (C114_fermat (.vec [])).2 k hk ?_
  have hF0 : (∑ j, X j ^ (n + 2) : MvPolynomial (Fin (n + 2)) ℂ) = ∑ j, X j ^ (n + 2) + C 0 * ∏ j, X j := by
    rw [C_0, zero_mul, add_zero]
  have hF' := hF
  rw [show (∑ j, X j ^ (n + 1 + 1) : MvPolynomial (Fin (n + 1 + 1)) ℂ) = ∑ j, X j ^ (n + 2) + C 0 * ∏ j, X j from hF0] at hF'
  obtain ⟨Z, W, h1, h2, h3, h4, h5, h6⟩ := not_const hn 0 (Or.inl rfl) hF' k hk
  rw [← hF0] at h3 h4
  exact ⟨Z, W, _, _, h1, h2, h3, h4, values_ne hn, h5, h6⟩

/-- Two values of the quotient of the norms are two values of `eta`. -/
private theorem eta_ne (hF : Hypersurface V (.vec ps) (n + 1) (n + 2) F) (hsm : SmoothHypersurface F) (k : ℕ) (hk : k ≠ 0)
    (h : ∃ Z W : Fin (n + 2) → ℂ, Z ≠ 0 ∧ W ≠ 0 ∧ eval Z F = 0 ∧ eval W F = 0 ∧
      (∑ i, ‖eval Z (pderiv i F)‖ ^ 2) / (∑ i, ‖Z i‖ ^ 2) ^ (n + 1) ≠
        (∑ i, ‖eval W (pderiv i F)‖ ^ 2) / (∑ i, ‖W i‖ ^ 2) ^ (n + 1)) :
    ∃ (Z W : Fin (n + 2) → ℂ) (a b : ℂ), Z ≠ 0 ∧ W ≠ 0 ∧ eval Z F = 0 ∧ eval W F = 0 ∧ a ≠ b ∧
      AlgebraicMetric.eta ⟨V, monomialBasisFull (n + 1) k⟩ (fubiniStudyH (n + 1) k) (List.ofFn Z) (.vec ps) none none none = .ok a ∧
      AlgebraicMetric.eta ⟨V, monomialBasisFull (n + 1) k⟩ (fubiniStudyH (n + 1) k) (List.ofFn W) (.vec ps) none none none = .ok b := by
  obtain ⟨Z, W, hZ, hW, hZ0, hW0, hne⟩ := h
  refine ⟨Z, W, _, _, hZ, hW, hZ0, hW0, ?_, C152_eta hF k hk Z hZ hZ0 (hsm Z hZ hZ0), C152_eta hF k hk W hW hW0 (hsm W hW hW0)⟩
  rw [Complex.ofReal_inj.ne]
  intro h1
  rw [mul_comm, ← div_div, mul_comm, ← div_div] at h1
  exact hne ((div_left_inj' (pow_ne_zero _ Real.pi_ne_zero)).1 h1)

/-- **C152.** On every smooth member of the Dwork family, of any dimension `n ≥ 1`, the Fubini–Study metric is not Ricci-flat. -/
theorem C152_dwork (n : ℕ) (hn : n ≠ 0) (f : DworkFactor) (hf : f.value.im = 0) (psi : ℂ)
    (hpsi : (-(f.value * psi)) ^ (n + 2) ≠ ((n + 2 : ℕ) : ℂ) ^ (n + 2)) (k : ℕ) (hk : k ≠ 0) :
    NotFlat (n := n) (.dwork (n + 2) f) [psi] (∑ j, X j ^ (n + 2) + C (f.value * psi) * ∏ j, X j) k := by
  have hF := hypersurface_dwork_explicit (n + 1) f psi []
  have hsm := (smooth_dwork (m := n + 1) _).2 hpsi
  refine notFlat_of hn (.dwork (n + 1) f hf psi) hF hsm k hk ?_
  rcases n with _ | _ | _ | n
  · exact absurd rfl hn
  · exact eta_ne hF hsm k hk (curve_not_const _ fun h => hpsi (h.trans (by norm_num)))
  · exact eta_ne hF hsm k hk (surface_not_const _)
  · obtain ⟨Z, W, h1, h2, h3, h4, h5, h6⟩ := not_const hn _ (Or.inr (by omega)) hF k hk
    exact ⟨Z, W, _, _, h1, h2, h3, h4, values_ne hn, h5, h6⟩

/-- The quintic threefold with `psi = 2` and sections of degree one, where the matrix is the identity. -/
example : NotFlat (n := 3) (.dwork 5 (.flag true)) [2] (∑ j, X j ^ 5 + C ((DworkFactor.flag true).value * 2) * ∏ j, X j) 1 ∧
    fubiniStudyH 4 1 = 1 :=
  ⟨C152_dwork 3 (by norm_num) (.flag true) (by simp [DworkFactor.value]) 2 (by simp [DworkFactor.value]; norm_num) 1 one_ne_zero,
    C115_one 4⟩

/-- A cubic curve and a quartic surface. -/
example : NotFlat (n := 1) (.dwork 3 (.number 1)) [1] (∑ j, X j ^ 3 + C ((DworkFactor.number 1).value * 1) * ∏ j, X j) 2 ∧
    NotFlat (n := 2) (.dwork 4 (.number 1)) [1] (∑ j, X j ^ 4 + C ((DworkFactor.number 1).value * 1) * ∏ j, X j) 2 :=
  ⟨C152_dwork 1 (by norm_num) (.number 1) (by simp [DworkFactor.value]) 1 (by simp [DworkFactor.value]; norm_num) 2 two_ne_zero,
    C152_dwork 2 (by norm_num) (.number 1) (by simp [DworkFactor.value]) 1 (by simp [DworkFactor.value]; norm_num) 2 two_ne_zero⟩

end Cyjax
