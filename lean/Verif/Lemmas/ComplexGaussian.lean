import Mathlib.MeasureTheory.Integral.Gamma
import Mathlib.MeasureTheory.Integral.Pi
import Mathlib.MeasureTheory.Measure.Lebesgue.Complex
import Mathlib.Analysis.SpecialFunctions.Gamma.Basic
import Mathlib.MeasureTheory.Measure.Haar.OfBasis
import Mathlib.MeasureTheory.Group.LIntegral

/-! # Gaussian integrals over complex vectors -/

namespace Cyjax

open MeasureTheory
open scoped ENNReal

theorem integral_norm_pow_gauss (n : ℕ) {c : ℝ} (hc : 0 < c) :
    ∫ z : ℂ, ‖z‖ ^ (2 * n) * Real.exp (-c * ‖z‖ ^ 2) = Real.pi * n.factorial / c ^ (n + 1) := by
  have h := Complex.integral_rpow_mul_exp_neg_mul_rpow (p := 2) (q := 2 * n) (b := c) (by norm_num)
    (by have : (0 : ℝ) ≤ n := Nat.cast_nonneg n; linarith) hc
  have e1 : ((2 * n : ℝ) + 2) / 2 = n + 1 := by ring
  have e2 : -((2 * n : ℝ) + 2) / 2 = -((n + 1 : ℕ) : ℝ) := by push_cast; ring
  rw [e1, e2, Real.Gamma_nat_eq_factorial, Real.rpow_neg hc.le, Real.rpow_natCast] at h
  have e3 : ∀ z : ℂ, ‖z‖ ^ (2 * (n : ℝ)) * Real.exp (-c * ‖z‖ ^ (2 : ℝ)) = ‖z‖ ^ (2 * n) * Real.exp (-c * ‖z‖ ^ 2) := by
    intro z
    rw [show (2 * (n : ℝ)) = ((2 * n : ℕ) : ℝ) by push_cast; ring, Real.rpow_natCast, Real.rpow_two]
  simp_rw [e3] at h
  rw [h]
  field_simp

theorem integrable_norm_pow_gauss (n : ℕ) {c : ℝ} (hc : 0 < c) :
    Integrable fun z : ℂ => ‖z‖ ^ (2 * n) * Real.exp (-c * ‖z‖ ^ 2) := by
  by_contra hcon
  have h := integral_norm_pow_gauss n hc
  rw [integral_undef hcon] at h
  have : 0 < Real.pi * n.factorial / c ^ (n + 1) := by
    have := n.factorial_pos
    positivity
  exact this.ne h

theorem lintegral_norm_pow_gauss (n : ℕ) {c : ℝ} (hc : 0 < c) :
    ∫⁻ z : ℂ, ENNReal.ofReal (‖z‖ ^ (2 * n) * Real.exp (-c * ‖z‖ ^ 2)) =
      ENNReal.ofReal (Real.pi * n.factorial / c ^ (n + 1)) := by
  rw [← integral_norm_pow_gauss n hc, ofReal_integral_eq_lintegral_ofReal (integrable_norm_pow_gauss n hc)]
  exact Filter.Eventually.of_forall fun z => by positivity

theorem lintegral_gauss {c : ℝ} (hc : 0 < c) :
    ∫⁻ z : ℂ, ENNReal.ofReal (Real.exp (-c * ‖z‖ ^ 2)) = ENNReal.ofReal (Real.pi / c) := by
  simpa using lintegral_norm_pow_gauss 0 hc

/-- The area of the sphere, in stereographic coordinates. -/
theorem lintegral_sphere : ∫⁻ t : ℂ, ENNReal.ofReal (1 / (1 + ‖t‖ ^ 2) ^ 2) = ENNReal.ofReal Real.pi := by
  have h1 : ∀ t : ℂ, ENNReal.ofReal Real.pi * ENNReal.ofReal (1 / (1 + ‖t‖ ^ 2) ^ 2) =
      ∫⁻ r : ℂ, ENNReal.ofReal (‖r‖ ^ 2 * Real.exp (-(1 + ‖t‖ ^ 2) * ‖r‖ ^ 2)) := by
    intro t
    have := lintegral_norm_pow_gauss 1 (c := 1 + ‖t‖ ^ 2) (by positivity)
    rw [mul_one] at this
    rw [this, ← ENNReal.ofReal_mul Real.pi_pos.le]
    congr 1
    simp
    ring
  have h2 : ∫⁻ t : ℂ, ENNReal.ofReal Real.pi * ENNReal.ofReal (1 / (1 + ‖t‖ ^ 2) ^ 2) =
      ENNReal.ofReal Real.pi * ENNReal.ofReal Real.pi := by
    simp_rw [h1]
    rw [lintegral_lintegral_swap]
    · have h3 : ∀ r : ℂ, r ≠ 0 → ∫⁻ t : ℂ, ENNReal.ofReal (‖r‖ ^ 2 * Real.exp (-(1 + ‖t‖ ^ 2) * ‖r‖ ^ 2)) =
          ENNReal.ofReal Real.pi * ENNReal.ofReal (Real.exp (-1 * ‖r‖ ^ 2)) := by
        intro r hr
        have hr' : 0 < ‖r‖ ^ 2 := by positivity
        have h4 : ∀ t : ℂ, ENNReal.ofReal (‖r‖ ^ 2 * Real.exp (-(1 + ‖t‖ ^ 2) * ‖r‖ ^ 2)) =
            ENNReal.ofReal (‖r‖ ^ 2 * Real.exp (-1 * ‖r‖ ^ 2)) * ENNReal.ofReal (Real.exp (-(‖r‖ ^ 2) * ‖t‖ ^ 2)) := by
          intro t
          rw [← ENNReal.ofReal_mul (by positivity), mul_assoc, ← Real.exp_add]
          congr 3
          ring
        simp_rw [h4]
        rw [lintegral_const_mul' _ _ ENNReal.ofReal_ne_top, lintegral_gauss hr', ← ENNReal.ofReal_mul (by positivity),
          ← ENNReal.ofReal_mul Real.pi_pos.le]
        congr 1
        field_simp
      have h5 : ∀ᵐ r : ℂ, ∫⁻ t : ℂ, ENNReal.ofReal (‖r‖ ^ 2 * Real.exp (-(1 + ‖t‖ ^ 2) * ‖r‖ ^ 2)) =
          ENNReal.ofReal Real.pi * ENNReal.ofReal (Real.exp (-1 * ‖r‖ ^ 2)) := by
        filter_upwards [compl_mem_ae_iff.2 (measure_singleton (0 : ℂ))] with r hr
        exact h3 r hr
      rw [lintegral_congr_ae h5, lintegral_const_mul' _ _ ENNReal.ofReal_ne_top, lintegral_gauss one_pos, div_one]
    · exact Measurable.aemeasurable (by fun_prop)
  rw [lintegral_const_mul' _ _ ENNReal.ofReal_ne_top] at h2
  exact (ENNReal.mul_right_inj (by simpa using Real.pi_pos) ENNReal.ofReal_ne_top).1 h2

section Vectors

variable {N : ℕ} {c : ℝ}

theorem integrable_gauss_one (hc : 0 < c) : Integrable fun z : ℂ => ((Real.exp (-c * ‖z‖ ^ 2) : ℝ) : ℂ) := by
  have := (integrable_norm_pow_gauss 0 hc).ofReal (𝕜 := ℂ)
  simpa using this

theorem integrable_gauss_mul (hc : 0 < c) : Integrable fun z : ℂ => z * ((Real.exp (-c * ‖z‖ ^ 2) : ℝ) : ℂ) := by
  have h0 := integrable_norm_pow_gauss 0 hc
  have h1 := integrable_norm_pow_gauss 1 hc
  refine Integrable.mono' (h0.add h1) (Continuous.aestronglyMeasurable (by fun_prop)) (Filter.Eventually.of_forall fun z => ?_)
  rw [norm_mul, Complex.norm_real, Real.norm_eq_abs, abs_of_pos (Real.exp_pos _), Pi.add_apply]
  have : ‖z‖ ≤ 1 + ‖z‖ ^ 2 := by nlinarith [sq_nonneg (‖z‖ - 1), norm_nonneg z]
  have := mul_le_mul_of_nonneg_right this (Real.exp_pos (-c * ‖z‖ ^ 2)).le
  simpa [add_mul] using this

theorem integral_gauss_mul (c : ℝ) : ∫ z : ℂ, z * ((Real.exp (-c * ‖z‖ ^ 2) : ℝ) : ℂ) = 0 := by
  have h := integral_neg_eq_self (fun z : ℂ => z * ((Real.exp (-c * ‖z‖ ^ 2) : ℝ) : ℂ)) volume
  simp only [norm_neg, neg_mul, integral_neg] at h
  have h' : ∫ z : ℂ, z * ((Real.exp (-(c * ‖z‖ ^ 2)) : ℝ) : ℂ) = 0 := self_eq_neg.1 h.symm
  simpa [neg_mul] using h'

/-- The factors of `q i * conj (q j) * exp (-c |q|²)`. -/
private noncomputable def fac (c : ℝ) (i j k : Fin N) (z : ℂ) : ℂ :=
  (if k = i then z else 1) * (if k = j then starRingEnd ℂ z else 1) * ((Real.exp (-c * ‖z‖ ^ 2) : ℝ) : ℂ)

private theorem prod_fac (c : ℝ) (i j : Fin N) (q : Fin N → ℂ) :
    ∏ k, fac c i j k (q k) = q i * starRingEnd ℂ (q j) * ((Real.exp (-c * ∑ k, ‖q k‖ ^ 2) : ℝ) : ℂ) := by
  simp only [fac, Finset.prod_mul_distrib]
  rw [Finset.prod_ite_eq' Finset.univ i, Finset.prod_ite_eq' Finset.univ j, if_pos (Finset.mem_univ _), if_pos (Finset.mem_univ _),
    ← Complex.ofReal_prod, ← Real.exp_sum, ← Finset.mul_sum]

private theorem integrable_fac (hc : 0 < c) (i j k : Fin N) : Integrable (fac c i j k) := by
  have h1 := integrable_gauss_mul hc
  have h2 : Integrable fun z : ℂ => starRingEnd ℂ z * ((Real.exp (-c * ‖z‖ ^ 2) : ℝ) : ℂ) := by
    refine Integrable.mono h1 (Continuous.aestronglyMeasurable (by fun_prop)) (Filter.Eventually.of_forall fun z => ?_)
    simp
  have h3 : Integrable fun z : ℂ => z * starRingEnd ℂ z * ((Real.exp (-c * ‖z‖ ^ 2) : ℝ) : ℂ) := by
    have := (integrable_norm_pow_gauss 1 hc).ofReal (𝕜 := ℂ)
    refine this.congr (Filter.Eventually.of_forall fun z => ?_)
    simp [Complex.mul_conj, Complex.normSq_eq_norm_sq]
  by_cases hi : k = i <;> by_cases hj : k = j
  · exact h3.congr (Filter.Eventually.of_forall fun z => by rw [fac, if_pos hi, if_pos hj])
  · exact h1.congr (Filter.Eventually.of_forall fun z => by rw [fac, if_pos hi, if_neg hj, mul_one])
  · exact h2.congr (Filter.Eventually.of_forall fun z => by rw [fac, if_neg hi, if_pos hj, one_mul])
  · exact (integrable_gauss_one hc).congr (Filter.Eventually.of_forall fun z => by rw [fac, if_neg hi, if_neg hj, one_mul, one_mul])

private theorem integral_fac (hc : 0 < c) (i j : Fin N) :
    ∫ q : Fin N → ℂ, q i * starRingEnd ℂ (q j) * ((Real.exp (-c * ∑ k, ‖q k‖ ^ 2) : ℝ) : ℂ) =
      if i = j then ((Real.pi ^ N / c ^ (N + 1) : ℝ) : ℂ) else 0 := by
  simp_rw [← prod_fac c i j]
  rw [integral_fintype_prod_volume_eq_prod]
  split_ifs with hij
  · subst hij
    have h1 : ∀ k, ∫ z, fac c i i k z = (if k = i then ((1 / c : ℝ) : ℂ) else 1) * ((Real.pi / c : ℝ) : ℂ) := by
      intro k
      by_cases hk : k = i
      · subst hk
        have := integral_norm_pow_gauss 1 hc
        have e : ∀ z, fac c k k k z = ((‖z‖ ^ (2 * 1) * Real.exp (-c * ‖z‖ ^ 2) : ℝ) : ℂ) := by
          intro z
          simp [fac, Complex.mul_conj, Complex.normSq_eq_norm_sq]
        simp_rw [e]
        rw [integral_complex_ofReal, this, if_pos trivial, ← Complex.ofReal_mul]
        congr 1
        simp
        field_simp
      · have := integral_norm_pow_gauss 0 hc
        have e : ∀ z, fac c i i k z = ((‖z‖ ^ (2 * 0) * Real.exp (-c * ‖z‖ ^ 2) : ℝ) : ℂ) := by
          intro z
          simp [fac, hk]
        simp_rw [e]
        rw [integral_complex_ofReal, this, if_neg hk, one_mul]
        simp
    simp_rw [h1, Finset.prod_mul_distrib]
    rw [Finset.prod_ite_eq' Finset.univ i, if_pos (Finset.mem_univ _), Finset.prod_const, Finset.card_univ, Fintype.card_fin,
      ← Complex.ofReal_pow, ← Complex.ofReal_mul]
    congr 1
    rw [div_pow, pow_succ]
    field_simp
  · refine Finset.prod_eq_zero (Finset.mem_univ i) ?_
    have e : ∀ z, fac c i j i z = z * ((Real.exp (-c * ‖z‖ ^ 2) : ℝ) : ℂ) := by
      intro z
      simp [fac, hij]
    simp_rw [e]
    exact integral_gauss_mul c

/-- Second moments of a linear form. -/
theorem lintegral_linear_gauss (hc : 0 < c) (v : Fin N → ℂ) :
    ∫⁻ q : Fin N → ℂ, ENNReal.ofReal (‖∑ i, v i * q i‖ ^ 2 * Real.exp (-c * ∑ k, ‖q k‖ ^ 2)) =
      ENNReal.ofReal ((∑ i, ‖v i‖ ^ 2) * (Real.pi ^ N / c ^ (N + 1))) := by
  have hint : ∀ i j, Integrable fun q : Fin N → ℂ =>
      v i * starRingEnd ℂ (v j) * (q i * starRingEnd ℂ (q j) * ((Real.exp (-c * ∑ k, ‖q k‖ ^ 2) : ℝ) : ℂ)) := by
    intro i j
    have := Integrable.fintype_prod (μ := fun _ : Fin N => volume) (f := fac c i j) fun k => integrable_fac hc i j k
    simp_rw [prod_fac] at this
    exact this.const_mul _
  have hexp : ∀ q : Fin N → ℂ, ((‖∑ i, v i * q i‖ ^ 2 * Real.exp (-c * ∑ k, ‖q k‖ ^ 2) : ℝ) : ℂ) =
      ∑ i, ∑ j, v i * starRingEnd ℂ (v j) * (q i * starRingEnd ℂ (q j) * ((Real.exp (-c * ∑ k, ‖q k‖ ^ 2) : ℝ) : ℂ)) := by
    intro q
    rw [Complex.ofReal_mul, ← Complex.normSq_eq_norm_sq, ← Complex.mul_conj, map_sum, Finset.sum_mul_sum, Finset.sum_mul]
    refine Finset.sum_congr rfl fun i _ => ?_
    rw [Finset.sum_mul]
    refine Finset.sum_congr rfl fun j _ => ?_
    rw [map_mul]
    ring
  have hI : Integrable fun q : Fin N → ℂ => ((‖∑ i, v i * q i‖ ^ 2 * Real.exp (-c * ∑ k, ‖q k‖ ^ 2) : ℝ) : ℂ) := by
    simp_rw [hexp]
    exact integrable_finsetSum _ fun i _ => integrable_finsetSum _ fun j _ => hint i j
  have hIR : Integrable fun q : Fin N → ℂ => ‖∑ i, v i * q i‖ ^ 2 * Real.exp (-c * ∑ k, ‖q k‖ ^ 2) := by
    exact hI.re.congr (Filter.Eventually.of_forall fun q => Complex.ofReal_re _)
  rw [← ofReal_integral_eq_lintegral_ofReal hIR (Filter.Eventually.of_forall fun q => by positivity)]
  congr 1
  apply Complex.ofReal_injective
  rw [← integral_complex_ofReal]
  simp_rw [hexp]
  rw [integral_finsetSum _ fun i _ => integrable_finsetSum _ fun j _ => hint i j]
  have h1 : ∀ i, ∫ q : Fin N → ℂ, ∑ j, v i * starRingEnd ℂ (v j) * (q i * starRingEnd ℂ (q j) * ((Real.exp (-c * ∑ k, ‖q k‖ ^ 2) : ℝ) : ℂ)) =
      ((‖v i‖ ^ 2 : ℝ) : ℂ) * ((Real.pi ^ N / c ^ (N + 1) : ℝ) : ℂ) := by
    intro i
    rw [integral_finsetSum _ fun j _ => hint i j]
    simp_rw [integral_const_mul, integral_fac hc]
    rw [Finset.sum_eq_single i]
    · rw [if_pos rfl, Complex.mul_conj, Complex.normSq_eq_norm_sq]
    · intro j _ hj
      rw [if_neg (Ne.symm hj), mul_zero]
    · simp
  simp_rw [h1]
  rw [← Finset.sum_mul]
  push_cast
  rfl

private theorem complete_square (Z q : ℂ) (t : ℂ) :
    ‖q‖ ^ 2 + ‖Z - t * q‖ ^ 2 =
      (1 + ‖t‖ ^ 2) * ‖q - starRingEnd ℂ t * Z / ((1 + ‖t‖ ^ 2 : ℝ) : ℂ)‖ ^ 2 + ‖Z‖ ^ 2 / (1 + ‖t‖ ^ 2) := by
  have hs : (1 + ‖t‖ ^ 2) ≠ 0 := by positivity
  obtain ⟨a, b⟩ := Z
  obtain ⟨x, y⟩ := q
  obtain ⟨u, v⟩ := t
  have hn : ‖(⟨u, v⟩ : ℂ)‖ ^ 2 = u ^ 2 + v ^ 2 := by
    rw [← Complex.normSq_eq_norm_sq, Complex.normSq_mk]
    ring
  rw [hn] at hs ⊢
  simp only [← Complex.normSq_eq_norm_sq, Complex.normSq_apply, Complex.sub_re, Complex.sub_im, Complex.mul_re, Complex.mul_im,
    Complex.div_ofReal_re, Complex.div_ofReal_im, Complex.conj_re, Complex.conj_im]
  field_simp
  ring

/-- The Gaussian integral over directions: if `v` is orthogonal to `Z`, completing the square removes `Z`. -/
theorem lintegral_direction (Z v : Fin N → ℂ) (hv : ∑ i, v i * Z i = 0) (t : ℂ) :
    ∫⁻ q : Fin N → ℂ, ENNReal.ofReal (‖∑ i, v i * q i‖ ^ 2 *
        Real.exp (-(1 / 2) * ((∑ k, ‖q k‖ ^ 2) + ∑ k, ‖Z k - t * q k‖ ^ 2))) =
      ENNReal.ofReal ((∑ i, ‖v i‖ ^ 2) * (Real.pi ^ N / ((1 + ‖t‖ ^ 2) / 2) ^ (N + 1)) *
        Real.exp (-(1 / (2 * (1 + ‖t‖ ^ 2))) * ∑ k, ‖Z k‖ ^ 2)) := by
  have hs : 0 < 1 + ‖t‖ ^ 2 := by positivity
  set w : Fin N → ℂ := fun k => starRingEnd ℂ t * Z k / ((1 + ‖t‖ ^ 2 : ℝ) : ℂ) with hw
  have hvw : ∑ i, v i * w i = 0 := by
    have : ∀ i, v i * w i = starRingEnd ℂ t / ((1 + ‖t‖ ^ 2 : ℝ) : ℂ) * (v i * Z i) := fun i => by rw [hw]; ring
    simp_rw [this]
    rw [← Finset.mul_sum, hv, mul_zero]
  have hE : ∀ q : Fin N → ℂ, ENNReal.ofReal (‖∑ i, v i * q i‖ ^ 2 *
        Real.exp (-(1 / 2) * ((∑ k, ‖q k‖ ^ 2) + ∑ k, ‖Z k - t * q k‖ ^ 2))) =
      ENNReal.ofReal (Real.exp (-(1 / (2 * (1 + ‖t‖ ^ 2))) * ∑ k, ‖Z k‖ ^ 2)) *
        ENNReal.ofReal (‖∑ i, v i * (q - w) i‖ ^ 2 * Real.exp (-((1 + ‖t‖ ^ 2) / 2) * ∑ k, ‖(q - w) k‖ ^ 2)) := by
    intro q
    rw [← ENNReal.ofReal_mul (Real.exp_pos _).le]
    congr 1
    have h1 : ∑ i, v i * (q - w) i = ∑ i, v i * q i := by
      simp only [Pi.sub_apply, mul_sub, Finset.sum_sub_distrib, hvw, sub_zero]
    rw [h1, mul_left_comm, ← Real.exp_add]
    congr 2
    rw [← Finset.sum_add_distrib, Finset.sum_congr rfl fun k _ => complete_square (Z k) (q k) t, Finset.sum_add_distrib,
      ← Finset.mul_sum, ← Finset.sum_div]
    simp only [Pi.sub_apply, hw]
    field_simp
    ring
  simp_rw [hE]
  rw [lintegral_const_mul' _ _ ENNReal.ofReal_ne_top]
  rw [lintegral_sub_right_eq_self (fun q : Fin N → ℂ => ENNReal.ofReal (‖∑ i, v i * q i‖ ^ 2 *
    Real.exp (-((1 + ‖t‖ ^ 2) / 2) * ∑ k, ‖q k‖ ^ 2))) w, lintegral_linear_gauss (by positivity),
    ← ENNReal.ofReal_mul (Real.exp_pos _).le]
  congr 1
  ring

end Vectors

end Cyjax
