import Verif.Props.Smooth
import Mathlib.RingTheory.RootsOfUnity.Complex

/-! # The norm of the gradient on the curves and surfaces of the Dwork family -/

namespace Cyjax

open MvPolynomial

/-- The two values of `eta` compared on a curve agree only for the singular members of the family. -/
theorem curve_values (c t : ℂ) (h : t ^ 3 + c * t + 2 = 0)
    (heq : (18 + ‖c‖ ^ 2) / 4 = (2 * ‖3 + c * t‖ ^ 2 + ‖3 * t ^ 2 + c‖ ^ 2) / (2 + ‖t‖ ^ 2) ^ 2) : (-c) ^ 3 = 27 := by
  have ht : t ≠ 0 := by
    rintro rfl
    norm_num at h
  obtain ⟨r, hr⟩ : ∃ r : ℝ, r = ‖t‖ := ⟨_, rfl⟩
  have hr0 : 0 < r := by rw [hr]; exact norm_pos_iff.2 ht
  obtain ⟨x, hx⟩ : ∃ x : ℝ, x = (t ^ 3).re := ⟨_, rfl⟩
  obtain ⟨y, hy⟩ : ∃ y : ℝ, y = (t ^ 3).im := ⟨_, rfl⟩
  have hxy : x ^ 2 + y ^ 2 = r ^ 6 := by
    have h1 : ‖t ^ 3‖ ^ 2 = x ^ 2 + y ^ 2 := by
      rw [hx, hy, ← Complex.normSq_eq_norm_sq, Complex.normSq_apply]
      ring
    rw [← h1, norm_pow, ← hr]
    ring
  have hA : ‖3 + c * t‖ ^ 2 = 1 - 2 * x + r ^ 6 := by
    have h1 : 3 + c * t = 1 - t ^ 3 := by linear_combination h
    rw [h1, ← Complex.normSq_eq_norm_sq, Complex.normSq_apply, ← hxy]
    simp only [Complex.sub_re, Complex.sub_im, Complex.one_re, Complex.one_im, ← hx, ← hy]
    ring
  have hB : r ^ 2 * ‖3 * t ^ 2 + c‖ ^ 2 = 4 * (1 - 2 * x + r ^ 6) := by
    have h1 : t * (3 * t ^ 2 + c) = -(2 * (3 + c * t)) := by linear_combination 3 * h
    rw [← hA, hr, ← mul_pow, ← norm_mul, h1, norm_neg, norm_mul, mul_pow]
    norm_num
  have hC : r ^ 2 * ‖c‖ ^ 2 = 4 + 4 * x + r ^ 6 := by
    have h1 : t * c = -(2 + t ^ 3) := by linear_combination h
    rw [hr, ← mul_pow, ← norm_mul, h1, norm_neg, ← hr, ← Complex.normSq_eq_norm_sq, Complex.normSq_apply, ← hxy]
    simp only [Complex.add_re, Complex.add_im, Complex.re_ofNat, Complex.im_ofNat, ← hx, ← hy]
    ring
  rw [← hr, div_eq_div_iff (by norm_num) (by positivity)] at heq
  have e1 : (2 + r ^ 2) * ((18 * r ^ 2 + (4 + 4 * x + r ^ 6)) * (2 + r ^ 2) - 8 * (1 - 2 * x + r ^ 6)) = 0 := by
    rw [← hC]
    have := congrArg (r ^ 2 * ·) heq
    rw [hA] at this
    linear_combination this + 4 * hB
  have e2 : x * (24 + 4 * r ^ 2) = -(r ^ 2 * (r ^ 6 - 6 * r ^ 4 + 18 * r ^ 2 + 40)) := by
    have := (mul_eq_zero.1 e1).resolve_left (by positivity)
    linear_combination this
  have hxr : -r ^ 3 ≤ x := by
    refine (abs_le.1 ?_).1
    refine abs_le_of_sq_le_sq ?_ (by positivity)
    nlinarith [sq_nonneg y]
  have e3 : (r - 2) ^ 2 * (r ^ 4 + 4 * r ^ 3 + 6 * r ^ 2 + 4 * r + 10) ≤ 0 := by
    have h1 : -r ^ 3 * (24 + 4 * r ^ 2) ≤ x * (24 + 4 * r ^ 2) := mul_le_mul_of_nonneg_right hxr (by positivity)
    rw [e2] at h1
    have h2 : r ^ 2 * ((r - 2) ^ 2 * (r ^ 4 + 4 * r ^ 3 + 6 * r ^ 2 + 4 * r + 10)) ≤ r ^ 2 * 0 := by linarith
    exact le_of_mul_le_mul_left h2 (by positivity)
  have hr2 : r = 2 := by
    have h1 : (r - 2) ^ 2 ≤ 0 := by
      by_contra! hcon
      have := mul_pos hcon (by positivity : 0 < r ^ 4 + 4 * r ^ 3 + 6 * r ^ 2 + 4 * r + 10)
      linarith
    have := pow_eq_zero_iff two_ne_zero |>.1 (le_antisymm h1 (sq_nonneg _))
    linarith
  rw [hr2] at e2 hxy
  have hx8 : x = -8 := by linarith
  have hy0 : y = 0 := by
    rw [hx8] at hxy
    have : y ^ 2 = 0 := by linarith
    exact pow_eq_zero_iff two_ne_zero |>.1 this
  have ht3 : t ^ 3 = -8 := by
    apply Complex.ext
    · rw [← hx, hx8]; simp
    · rw [← hy, hy0]; simp
  have hct : c * t = 6 := by linear_combination h - ht3
  have h1 : c ^ 3 * t ^ 3 = 216 := by rw [← mul_pow, hct]; norm_num
  rw [ht3] at h1
  linear_combination (1 / 8 : ℂ) * h1

/-- The three values of `eta` compared on a surface are not all the same. -/
theorem surface_values (C u : ℝ) (hu : 0 ≤ u) (hu2 : u ^ 2 = 2) (h1 : (4 : ℝ) = (48 + C) / 27)
    (h2 : (4 : ℝ) = (16 * (2 + u ^ 3) + C * u) / (2 + u) ^ 3) : False := by
  have hC : C = 60 := by linarith
  rw [eq_div_iff (by positivity), hC] at h2
  have h3 : u = 4 / 3 := by
    have : u ^ 3 = 2 * u := by rw [pow_succ, hu2]
    nlinarith
  rw [h3] at hu2
  norm_num at hu2

private theorem erase3 : (Finset.univ.erase (0 : Fin 3) = {1, 2}) ∧ (Finset.univ.erase (1 : Fin 3) = {0, 2}) ∧
    Finset.univ.erase (2 : Fin 3) = {0, 1} := by decide

private theorem erase4 : (Finset.univ.erase (0 : Fin 4) = {1, 2, 3}) ∧ (Finset.univ.erase (1 : Fin 4) = {0, 2, 3}) ∧
    (Finset.univ.erase (2 : Fin 4) = {0, 1, 3}) ∧ Finset.univ.erase (3 : Fin 4) = {0, 1, 2} := by decide

/-- The gradient on a curve of the family. -/
theorem curve_gradient (a : ℂ) (Z : Fin 3 → ℂ) :
    ∑ i, ‖eval Z (pderiv i (∑ j, X j ^ 3 + C a * ∏ j, X j : MvPolynomial (Fin 3) ℂ))‖ ^ 2 =
      ‖3 * Z 0 ^ 2 + a * (Z 1 * Z 2)‖ ^ 2 + ‖3 * Z 1 ^ 2 + a * (Z 0 * Z 2)‖ ^ 2 + ‖3 * Z 2 ^ 2 + a * (Z 0 * Z 1)‖ ^ 2 := by
  rw [Fin.sum_univ_three, pderiv_dwork, pderiv_dwork, pderiv_dwork, erase3.1, erase3.2.1, erase3.2.2,
    Finset.prod_pair (by decide), Finset.prod_pair (by decide), Finset.prod_pair (by decide)]
  norm_num

/-- The gradient at a point of a surface of the family with last coordinate zero. -/
theorem surface_gradient (a : ℂ) (Z : Fin 4 → ℂ) (h : Z 3 = 0) :
    ∑ i, ‖eval Z (pderiv i (∑ j, X j ^ 4 + C a * ∏ j, X j : MvPolynomial (Fin 4) ℂ))‖ ^ 2 =
      16 * (‖Z 0‖ ^ 6 + ‖Z 1‖ ^ 6 + ‖Z 2‖ ^ 6) + ‖a‖ ^ 2 * (‖Z 0‖ * ‖Z 1‖ * ‖Z 2‖) ^ 2 := by
  have hp : ∀ i : Fin 4, i ≠ 3 → a * ∏ j ∈ Finset.univ.erase i, Z j = 0 := fun i hi => by
    rw [Finset.prod_eq_zero (Finset.mem_erase.2 ⟨hi.symm, Finset.mem_univ 3⟩) h, mul_zero]
  have hq : ∏ j ∈ Finset.univ.erase (3 : Fin 4), Z j = Z 0 * Z 1 * Z 2 := by
    rw [erase4.2.2.2, Finset.prod_insert (by decide), Finset.prod_pair (by decide), mul_assoc]
  rw [Fin.sum_univ_four, pderiv_dwork, pderiv_dwork, pderiv_dwork, pderiv_dwork, hp 0 (by decide), hp 1 (by decide),
    hp 2 (by decide), hq, h]
  simp only [norm_mul, norm_pow, add_zero, Nat.cast_ofNat, Complex.norm_ofNat, mul_zero, zero_add, ne_eq, OfNat.ofNat_ne_zero,
    not_false_eq_true, zero_pow, Nat.reduceSub, mul_pow]
  ring

/-- On every smooth curve of the family the quotient of the norms of the gradient and of the point takes two values. -/
theorem curve_not_const (a : ℂ) (ha : (-a) ^ 3 ≠ 27) : ∃ Z W : Fin 3 → ℂ, Z ≠ 0 ∧ W ≠ 0 ∧
    eval Z (∑ j, X j ^ 3 + C a * ∏ j, X j : MvPolynomial (Fin 3) ℂ) = 0 ∧
    eval W (∑ j, X j ^ 3 + C a * ∏ j, X j : MvPolynomial (Fin 3) ℂ) = 0 ∧
    (∑ i, ‖eval Z (pderiv i (∑ j, X j ^ 3 + C a * ∏ j, X j : MvPolynomial (Fin 3) ℂ))‖ ^ 2) / (∑ i, ‖Z i‖ ^ 2) ^ 2 ≠
      (∑ i, ‖eval W (pderiv i (∑ j, X j ^ 3 + C a * ∏ j, X j : MvPolynomial (Fin 3) ℂ))‖ ^ 2) / (∑ i, ‖W i‖ ^ 2) ^ 2 := by
  obtain ⟨t, ht⟩ : ∃ t : ℂ, t ^ 3 + a * t + 2 = 0 := by
    have hd : (Polynomial.X ^ 3 + (Polynomial.C a * Polynomial.X + Polynomial.C 2) : Polynomial ℂ).degree ≠ 0 := by
      have h1 : (Polynomial.C a * Polynomial.X + Polynomial.C 2 : Polynomial ℂ).degree < (3 : ℕ) :=
        lt_of_le_of_lt Polynomial.degree_linear_le (by norm_num)
      rw [Polynomial.degree_add_eq_left_of_degree_lt (by rwa [Polynomial.degree_X_pow]), Polynomial.degree_X_pow]
      norm_num
    obtain ⟨t, ht⟩ := IsAlgClosed.exists_root _ hd
    refine ⟨t, ?_⟩
    simpa [Polynomial.IsRoot, add_assoc] using ht
  refine ⟨![1, -1, 0], ![1, 1, t], fun h => by simpa using congrFun h 0, fun h => by simpa using congrFun h 0, ?_, ?_, ?_⟩
  · rw [eval_dwork, Fin.sum_univ_three, Fin.prod_univ_three]
    simp
    norm_num
  · rw [eval_dwork, Fin.sum_univ_three, Fin.prod_univ_three]
    simp only [Matrix.cons_val_zero, Matrix.cons_val_one, Matrix.cons_val]
    linear_combination ht
  · rw [curve_gradient, curve_gradient, Fin.sum_univ_three, Fin.sum_univ_three]
    intro h
    refine ha (curve_values a t ht ?_)
    simp only [Matrix.cons_val_zero, Matrix.cons_val_one, Matrix.cons_val, one_pow, mul_one, one_mul, mul_zero, add_zero,
      norm_one, norm_zero, norm_neg, neg_sq, mul_neg] at h
    norm_num at h
    rw [h]
    congr 1
    ring

/-- The same on every surface of the family. -/
theorem surface_not_const (a : ℂ) : ∃ Z W : Fin 4 → ℂ, Z ≠ 0 ∧ W ≠ 0 ∧
    eval Z (∑ j, X j ^ 4 + C a * ∏ j, X j : MvPolynomial (Fin 4) ℂ) = 0 ∧
    eval W (∑ j, X j ^ 4 + C a * ∏ j, X j : MvPolynomial (Fin 4) ℂ) = 0 ∧
    (∑ i, ‖eval Z (pderiv i (∑ j, X j ^ 4 + C a * ∏ j, X j : MvPolynomial (Fin 4) ℂ))‖ ^ 2) / (∑ i, ‖Z i‖ ^ 2) ^ 3 ≠
      (∑ i, ‖eval W (pderiv i (∑ j, X j ^ 4 + C a * ∏ j, X j : MvPolynomial (Fin 4) ℂ))‖ ^ 2) / (∑ i, ‖W i‖ ^ 2) ^ 3 := by
  -- the points `(1, x, y, 0)` with `1 + x⁴ + y⁴ = 0`
  have hpt : ∀ x y : ℂ, 1 + x ^ 4 + y ^ 4 = 0 →
      (![1, x, y, 0] : Fin 4 → ℂ) ≠ 0 ∧ eval ![1, x, y, 0] (∑ j, X j ^ 4 + C a * ∏ j, X j : MvPolynomial (Fin 4) ℂ) = 0 ∧
      (∑ i, ‖eval ![1, x, y, 0] (pderiv i (∑ j, X j ^ 4 + C a * ∏ j, X j : MvPolynomial (Fin 4) ℂ))‖ ^ 2) /
        (∑ i, ‖(![1, x, y, 0] : Fin 4 → ℂ) i‖ ^ 2) ^ 3 =
      (16 * (1 + ‖x‖ ^ 6 + ‖y‖ ^ 6) + ‖a‖ ^ 2 * (‖x‖ * ‖y‖) ^ 2) / (1 + ‖x‖ ^ 2 + ‖y‖ ^ 2) ^ 3 := by
    intro x y h
    refine ⟨fun h => by simpa using congrFun h 0, ?_, ?_⟩
    · rw [eval_dwork, Fin.sum_univ_four, Fin.prod_univ_four]
      simpa using h
    · rw [surface_gradient a _ (by simp), Fin.sum_univ_four]
      simp
  obtain ⟨ζ, hζ⟩ := IsAlgClosed.exists_pow_nat_eq (-1 : ℂ) (n := 4) (by norm_num)
  obtain ⟨ω, hω⟩ := IsAlgClosed.exists_pow_nat_eq (Complex.exp (2 * Real.pi * Complex.I / (3 : ℕ))) (n := 4) (by norm_num)
  obtain ⟨s, hs⟩ := IsAlgClosed.exists_pow_nat_eq (-2 : ℂ) (n := 4) (by norm_num)
  have hζ1 : ‖ζ‖ = 1 := by
    have : ‖ζ‖ ^ 4 = 1 := by rw [← norm_pow, hζ, norm_neg, norm_one]
    exact (pow_eq_one_iff_of_nonneg (norm_nonneg _) (by norm_num)).1 this
  have hprim := Complex.isPrimitiveRoot_exp 3 (by norm_num)
  have hω1 : ‖ω‖ = 1 := by
    have : ‖ω‖ ^ 4 = 1 := by rw [← norm_pow, hω, Complex.norm_eq_one_of_pow_eq_one hprim.pow_eq_one (by norm_num)]
    exact (pow_eq_one_iff_of_nonneg (norm_nonneg _) (by norm_num)).1 this
  have hωs : 1 + ω ^ 4 + (ω ^ 2) ^ 4 = 0 := by
    have h1 := hprim.geom_sum_eq_zero (by norm_num)
    rw [Finset.sum_range_succ, Finset.sum_range_succ, Finset.sum_range_one, pow_zero, pow_one] at h1
    rw [← pow_mul, show 2 * 4 = 4 * 2 by norm_num, pow_mul, hω]
    exact h1
  obtain ⟨u, hu⟩ : ∃ u : ℝ, u = ‖s‖ ^ 2 := ⟨_, rfl⟩
  have hu2 : u ^ 2 = 2 := by
    rw [hu, ← pow_mul, ← norm_pow, hs, norm_neg, Complex.norm_ofNat]
  obtain ⟨z1, z2, z3⟩ := hpt ζ 0 (by rw [hζ]; norm_num)
  obtain ⟨w1, w2, w3⟩ := hpt ω (ω ^ 2) hωs
  obtain ⟨v1, v2, v3⟩ := hpt 1 s (by rw [hs]; norm_num)
  rw [hζ1] at z3
  rw [norm_pow, hω1] at w3
  rw [norm_one, show ‖s‖ ^ 6 = u ^ 3 by rw [hu, ← pow_mul], one_mul, ← hu] at v3
  rw [show (16 * (1 + (1 : ℝ) ^ 6 + ‖(0 : ℂ)‖ ^ 6) + ‖a‖ ^ 2 * (1 * ‖(0 : ℂ)‖) ^ 2) / (1 + 1 ^ 2 + ‖(0 : ℂ)‖ ^ 2) ^ 3 = 4 by
    rw [norm_zero]; norm_num] at z3
  rw [show (16 * (1 + (1 : ℝ) ^ 6 + (1 ^ 2) ^ 6) + ‖a‖ ^ 2 * (1 * 1 ^ 2) ^ 2) / (1 + 1 ^ 2 + (1 ^ 2) ^ 2) ^ 3 =
    (48 + ‖a‖ ^ 2) / 27 by norm_num] at w3
  rw [show (16 * (1 + (1 : ℝ) ^ 6 + u ^ 3) + ‖a‖ ^ 2 * u) / (1 + 1 ^ 2 + u) ^ 3 =
    (16 * (2 + u ^ 3) + ‖a‖ ^ 2 * u) / (2 + u) ^ 3 by norm_num] at v3
  by_cases h : (4 : ℝ) = (48 + ‖a‖ ^ 2) / 27
  · refine ⟨_, _, z1, v1, z2, v2, ?_⟩
    rw [z3, v3]
    exact fun h' => surface_values _ u (by rw [hu]; positivity) hu2 h h'
  · refine ⟨_, _, z1, w1, z2, w2, ?_⟩
    rw [z3, w3]
    exact h

end Cyjax
