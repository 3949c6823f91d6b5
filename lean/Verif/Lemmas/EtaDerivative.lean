import Verif.Lemmas.EtaCurve
import Verif.Props.KahlerVolume
import Mathlib.Analysis.Calculus.ParametricIntegral

/-! # The derivative of `eta` along a curve of matrices -/

namespace Cyjax

open MeasureTheory ProbabilityTheory MvPolynomial Cyjax.Spec Cyjax.Polynomial Cyjax.Variety Cyjax.Donaldson Cyjax.Projective Cyjax.Ml Set
  Filter Topology Cyjax.Differential
open scoped ENNReal NNReal ComplexOrder ComplexConjugate

variable {n : ℕ} {F : MvPolynomial (Fin (n + 2)) ℂ} {A : AlgebraicMetric (n + 1)} {ps : List ℂ} (hsm : SmoothHypersurface F) (hn : n ≠ 0)
  (p : Fin (n + 2)) (d : Fin (n + 1)) (hS : Samplable A.variety (n + 1) (n + 2) ps)
  (hF : Hypersurface A.variety (.vec ps) (n + 1) (n + 2) F) (hB : SpansModulo F A.sections.degree A.sections.rows)
  (hk : A.sections.degree ≠ 0)
  {h : ℝ → A.H} (hd : ∀ a b, ContDiffAt ℝ 1 (fun t => h t a b) 0) (hh : ∀ᶠ t in 𝓝 (0 : ℝ), (h t).PosDef)

include hsm hF hB hd hh in
/-- The derivative of `eta` is a bounded measurable function on the hypersurface. -/
theorem etaAt_curve_derivative : ∃ (D : (Fin (n + 2) → ℂ) → ℝ) (M : ℝ), Measurable D ∧ (∀ c : ℂ, c ≠ 0 → ∀ Z, D (c • Z) = D Z) ∧
    ∀ Z, Z ≠ 0 → eval Z F = 0 → HasDerivAt (fun t => etaAt A (h t) ps Z) (D Z) 0 ∧ |D Z| ≤ M := by
  have hh0 : (h 0).PosDef := hh.self_of_nhds
  obtain ⟨M, hM⟩ := etaAt_curve_lipschitz hsm hF hB hd hh0
  refine ⟨fun Z => limsup (fun m : ℕ => ((m : ℝ) + 1) * (etaAt A (h (1 / ((m : ℝ) + 1))) ps Z - etaAt A (h 0) ps Z)) atTop, M,
    Measurable.limsup fun m => ((measurable_etaAt hF _ hB).sub (measurable_etaAt hF _ hB)).const_mul _, fun c hc Z => ?_, fun Z hZ h0 => ?_⟩
  · simp only [etaAt_smul hF _ c hc Z]
  · have hdiff := (etaAt_curve_differentiable hF hB hd hh0 Z hZ h0).hasDerivAt
    have hseq : Tendsto (fun m : ℕ => 1 / ((m : ℝ) + 1)) atTop (𝓝[≠] 0) := by
      refine tendsto_nhdsWithin_iff.2 ⟨tendsto_one_div_add_atTop_nhds_zero_nat, Eventually.of_forall fun m => ?_⟩
      have : (0 : ℝ) < 1 / ((m : ℝ) + 1) := by positivity
      exact this.ne'
    have hlim : Tendsto (fun m : ℕ => ((m : ℝ) + 1) * (etaAt A (h (1 / ((m : ℝ) + 1))) ps Z - etaAt A (h 0) ps Z)) atTop
        (𝓝 (deriv (fun t => etaAt A (h t) ps Z) 0)) := by
      refine ((hasDerivAt_iff_tendsto_slope.1 hdiff).comp hseq).congr fun m => ?_
      simp only [Function.comp_apply, slope_def_field]
      rw [sub_zero, div_div_eq_mul_div, div_one, mul_comm]
    beta_reduce
    rw [hlim.limsup_eq]
    refine ⟨hdiff, le_of_tendsto hlim.abs ?_⟩
    filter_upwards [(hseq.mono_right nhdsWithin_le_nhds).eventually hM] with m hm
    have h1 := hm Z hZ h0
    have h2 : (0 : ℝ) < (m : ℝ) + 1 := by positivity
    rw [abs_mul, abs_of_pos h2]
    rw [abs_of_pos (by positivity : (0 : ℝ) < 1 / ((m : ℝ) + 1))] at h1
    calc ((m : ℝ) + 1) * _ ≤ ((m : ℝ) + 1) * (M * (1 / ((m : ℝ) + 1))) := by gcongr
      _ = M := by field_simp

include hsm hn hS hF hB hk hd hh in
/-- The integral of the derivative of `eta` is zero, since the integral of `eta` does not depend on the matrix. -/
theorem integral_eta_derivative (D : (Fin (n + 2) → ℂ) → ℝ)
    (hD : ∀ Z, Z ≠ 0 → eval Z F = 0 → HasDerivAt (fun t => etaAt A (h t) ps Z) (D Z) 0) :
    ∫ Z, D Z ∂cyMeasure p d F = 0 := by
  have hh0 : (h 0).PosDef := hh.self_of_nhds
  obtain ⟨hfin0, -, -⟩ := C130_measure hsm hn p d hS hF
  have hfin : IsFiniteMeasure (cyMeasure p d F) := ⟨hfin0.lt_top⟩
  obtain ⟨B, hBd⟩ := etaAt_bounded hF (h 0) hB hh0 hsm
  obtain ⟨M, hM⟩ := etaAt_curve_lipschitz hsm hF hB hd hh0
  have hae : ∀ᵐ Z ∂cyMeasure p d F, Z ≠ 0 ∧ eval Z F = 0 := by
    have : ∀ᵐ Z ∂cyMeasure p d F, Z ≠ 0 ∧ Z ∈ regularSet p d F := by
      rw [cyMeasure_withDensity p d hF.homogeneous]
      exact (withDensity_absolutelyContinuous _ _).ae_le (ae_fsMeasure hF.homogeneous p d)
    exact this.mono fun Z hZ => ⟨hZ.1, hZ.2.1⟩
  have hm : ∀ t, Measurable (etaAt A (h t) ps) := fun t => measurable_etaAt hF _ hB
  have hint : Integrable (fun Z => etaAt A (h 0) ps Z) (cyMeasure p d F) :=
    Integrable.of_bound (hm 0).aestronglyMeasurable B (hae.mono fun Z hZ => by
      rw [Real.norm_eq_abs]
      exact hBd Z hZ.1 hZ.2)
  have hseq : Tendsto (fun m : ℕ => 1 / ((m : ℝ) + 1)) atTop (𝓝[≠] 0) := by
    refine tendsto_nhdsWithin_iff.2 ⟨tendsto_one_div_add_atTop_nhds_zero_nat, Eventually.of_forall fun m => ?_⟩
    have : (0 : ℝ) < 1 / ((m : ℝ) + 1) := by positivity
    exact this.ne'
  have hlim : Tendsto (fun m : ℕ => ∫ Z, slope (fun t => etaAt A (h t) ps Z) 0 (1 / ((m : ℝ) + 1)) ∂cyMeasure p d F) atTop
      (𝓝 (∫ Z, D Z ∂cyMeasure p d F)) := by
    refine tendsto_integral_filter_of_dominated_convergence (fun _ => M) (Eventually.of_forall fun m => ?_) ?_ (integrable_const _)
      (hae.mono fun Z hZ => (hasDerivAt_iff_tendsto_slope.1 (hD Z hZ.1 hZ.2)).comp hseq)
    · simp only [slope_def_field]
      exact (((hm _).sub (hm 0)).div_const _).aestronglyMeasurable
    · filter_upwards [(hseq.mono_right nhdsWithin_le_nhds).eventually hM] with m hm1
      refine hae.mono fun Z hZ => ?_
      have h1 := hm1 Z hZ.1 hZ.2
      have h2 : (0 : ℝ) < 1 / ((m : ℝ) + 1) := by positivity
      rw [abs_of_pos h2] at h1
      rw [slope_def_field, sub_zero, Real.norm_eq_abs, abs_div, abs_of_pos h2, div_le_iff₀ h2]
      exact h1
  refine tendsto_nhds_unique hlim (tendsto_const_nhds.congr' ?_)
  filter_upwards [(hseq.mono_right nhdsWithin_le_nhds).eventually hh] with m hm1
  obtain ⟨i1, v1⟩ := C153_volume hsm hn p d hS hF hB hk (h (1 / ((m : ℝ) + 1))) hm1
  obtain ⟨i0, v0⟩ := C153_volume hsm hn p d hS hF hB hk (h 0) hh0
  simp only [slope_def_field]
  rw [integral_div, integral_sub i1 i0, v1, v0, sub_self, zero_div]

include hsm hn hS hF hB hd hh in
/-- The derivative of the integral of the square of `eta`. -/
theorem integral_eta_sq_derivative (D : (Fin (n + 2) → ℂ) → ℝ)
    (hD : ∀ Z, Z ≠ 0 → eval Z F = 0 → HasDerivAt (fun t => etaAt A (h t) ps Z) (D Z) 0) :
    HasDerivAt (fun t => ∫ Z, etaAt A (h t) ps Z ^ 2 ∂cyMeasure p d F) (2 * ∫ Z, etaAt A (h 0) ps Z * D Z ∂cyMeasure p d F) 0 := by
  have hh0 : (h 0).PosDef := hh.self_of_nhds
  obtain ⟨hfin0, -, -⟩ := C130_measure hsm hn p d hS hF
  have hfin : IsFiniteMeasure (cyMeasure p d F) := ⟨hfin0.lt_top⟩
  obtain ⟨B, hBd⟩ := etaAt_bounded hF (h 0) hB hh0 hsm
  obtain ⟨M, hM⟩ := etaAt_curve_lipschitz hsm hF hB hd hh0
  have hae : ∀ᵐ Z ∂cyMeasure p d F, Z ≠ 0 ∧ eval Z F = 0 := by
    have : ∀ᵐ Z ∂cyMeasure p d F, Z ≠ 0 ∧ Z ∈ regularSet p d F := by
      rw [cyMeasure_withDensity p d hF.homogeneous]
      exact (withDensity_absolutelyContinuous _ _).ae_le (ae_fsMeasure hF.homogeneous p d)
    exact this.mono fun Z hZ => ⟨hZ.1, hZ.2.1⟩
  have hm : ∀ t, Measurable (etaAt A (h t) ps) := fun t => measurable_etaAt hF _ hB
  have hM' : ∀ᶠ t : ℝ in 𝓝[≠] 0, t ≠ 0 ∧ |t| ≤ 1 ∧ ∀ Z : Fin (n + 2) → ℂ, Z ≠ 0 → eval Z F = 0 →
      |etaAt A (h t) ps Z - etaAt A (h 0) ps Z| ≤ |M| * |t| := by
    have h1 : ∀ᶠ t : ℝ in 𝓝 0, |t| ≤ 1 := by
      filter_upwards [Metric.closedBall_mem_nhds (0 : ℝ) one_pos] with t ht
      simpa using ht
    filter_upwards [self_mem_nhdsWithin, nhdsWithin_le_nhds h1, nhdsWithin_le_nhds hM] with t t0 t1 t2
    exact ⟨t0, t1, fun Z hZ h0 => (t2 Z hZ h0).trans (mul_le_mul_of_nonneg_right (le_abs_self M) (abs_nonneg t))⟩
  have bd : ∀ t : ℝ, (|t| ≤ 1 ∧ ∀ Z : Fin (n + 2) → ℂ, Z ≠ 0 → eval Z F = 0 →
      |etaAt A (h t) ps Z - etaAt A (h 0) ps Z| ≤ |M| * |t|) → Integrable (fun Z => etaAt A (h t) ps Z ^ 2) (cyMeasure p d F) := by
    intro t ht
    refine Integrable.of_bound ((hm t).pow_const 2).aestronglyMeasurable ((B + |M|) ^ 2) (hae.mono fun Z hZ => ?_)
    rw [Real.norm_eq_abs, abs_pow]
    refine pow_le_pow_left₀ (abs_nonneg _) ?_ 2
    have h1 := ht.2 Z hZ.1 hZ.2
    have h2 : |M| * |t| ≤ |M| := mul_le_of_le_one_right (abs_nonneg _) ht.1
    have h3 := hBd Z hZ.1 hZ.2
    have h4 := abs_sub_abs_le_abs_sub (etaAt A (h t) ps Z) (etaAt A (h 0) ps Z)
    linarith
  have hi0 := bd 0 ⟨by simp, fun Z _ _ => by simp⟩
  rw [hasDerivAt_iff_tendsto_slope, ← integral_const_mul]
  have hlim : Tendsto (fun t : ℝ => ∫ Z, slope (fun t => etaAt A (h t) ps Z ^ 2) 0 t ∂cyMeasure p d F) (𝓝[≠] 0)
      (𝓝 (∫ Z, 2 * (etaAt A (h 0) ps Z * D Z) ∂cyMeasure p d F)) := by
    refine tendsto_integral_filter_of_dominated_convergence (fun _ => |M| * (2 * B + |M|)) (Eventually.of_forall fun t => ?_) ?_
      (integrable_const _) (hae.mono fun Z hZ => ?_)
    · simp only [slope_def_field]
      exact ((((hm _).pow_const 2).sub ((hm 0).pow_const 2)).div_const _).aestronglyMeasurable
    · filter_upwards [hM'] with t ht
      refine hae.mono fun Z hZ => ?_
      have h1 := ht.2.2 Z hZ.1 hZ.2
      have h2 : |M| * |t| ≤ |M| := mul_le_of_le_one_right (abs_nonneg _) ht.2.1
      have h3 := hBd Z hZ.1 hZ.2
      have hp : 0 < |t| := abs_pos.2 ht.1
      rw [slope_def_field, sub_zero, Real.norm_eq_abs, abs_div, div_le_iff₀ hp]
      have e : etaAt A (h t) ps Z ^ 2 - etaAt A (h 0) ps Z ^ 2 =
        (etaAt A (h t) ps Z - etaAt A (h 0) ps Z) * (2 * etaAt A (h 0) ps Z + (etaAt A (h t) ps Z - etaAt A (h 0) ps Z)) := by ring
      rw [e, abs_mul]
      have h5 : |2 * etaAt A (h 0) ps Z + (etaAt A (h t) ps Z - etaAt A (h 0) ps Z)| ≤ 2 * B + |M| := by
        refine (abs_add_le _ _).trans ?_
        rw [abs_mul, abs_two]
        linarith
      calc _ ≤ |M| * |t| * (2 * B + |M|) := mul_le_mul h1 h5 (abs_nonneg _) (by positivity)
        _ = _ := by ring
    · refine hasDerivAt_iff_tendsto_slope.1 (((hD Z hZ.1 hZ.2).fun_pow 2).congr_deriv ?_)
      norm_num
      ring
  refine hlim.congr' ?_
  filter_upwards [hM'] with t ht
  simp only [slope_def_field]
  rw [integral_div, integral_sub (bd t ht.2) hi0]

end Cyjax
