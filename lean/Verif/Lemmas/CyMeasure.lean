import Verif.Lemmas.LineSum

/-! # The measure of the holomorphic volume form: density, finiteness, positivity -/

namespace Cyjax

open MeasureTheory MvPolynomial Cyjax.Spec Set
open scoped ENNReal

variable {n : ℕ} {F : MvPolynomial (Fin (n + 2)) ℂ}

theorem pointWeight_smul (hom : F.IsHomogeneous (n + 2)) (c : ℂ) (hc : c ≠ 0) (Z : Fin (n + 2) → ℂ) :
    pointWeight (n + 2) F (c • Z) = pointWeight (n + 2) F Z := by
  by_cases hZ : Z = 0
  · rw [hZ, smul_zero]
  · exact (C111_calabi_yau hom Z hZ).2 c hc

theorem measurable_pointWeight (e : ℕ) : Measurable (pointWeight e F) := by
  have h1 : Measurable fun Z : Fin (n + 2) → ℂ => ∑ i, ‖eval Z (pderiv i F)‖ ^ 2 := measurable_gradSq F
  have h2 : Measurable fun Z : Fin (n + 2) → ℂ => ⨆ i, ‖Z i‖ := Measurable.iSup fun i => by fun_prop
  unfold pointWeight
  fun_prop

theorem pointWeight_bounded (hom : F.IsHomogeneous (n + 2)) (hsm : SmoothHypersurface F) :
    ∃ B : ℝ, 0 < B ∧ ∀ Z : Fin (n + 2) → ℂ, Z ≠ 0 → eval Z F = 0 → pointWeight (n + 2) F Z ≤ B := by
  have hK : IsCompact (Metric.sphere (0 : Fin (n + 2) → ℂ) 1 ∩ {Z | eval Z F = 0}) :=
    (isCompact_sphere _ _).inter_right (isClosed_singleton.preimage (MvPolynomial.continuous_eval F))
  have hcont : ContinuousOn (fun Z : Fin (n + 2) → ℂ => Real.pi ^ n / n.factorial *
      ((∑ i, ‖Z i‖ ^ 2) ^ (n + 1) / ∑ i, ‖eval Z (pderiv i F)‖ ^ 2))
      (Metric.sphere (0 : Fin (n + 2) → ℂ) 1 ∩ {Z | eval Z F = 0}) := by
    refine continuousOn_const.mul (ContinuousOn.div (by fun_prop) ?_ fun Z hZ => ?_)
    · refine (continuous_finsetSum _ fun i _ => ?_).continuousOn
      exact ((MvPolynomial.continuous_eval _).norm).pow 2
    · obtain ⟨i, hi⟩ := hsm Z (by
        rintro rfl
        simpa using hZ.1) hZ.2
      exact (sum_norm_sq_pos (fun i => eval Z (pderiv i F)) i hi).ne'
  obtain ⟨B, hB⟩ := hK.exists_bound_of_continuousOn hcont
  refine ⟨max B 1, lt_max_of_lt_right one_pos, fun Z hZ h0 => ?_⟩
  have hn : (‖Z‖⁻¹ : ℂ) ≠ 0 := by simpa using hZ
  have hZ' : (‖Z‖⁻¹ : ℂ) • Z ≠ 0 := smul_ne_zero hn hZ
  rw [← pointWeight_smul hom _ hn Z, (C111_calabi_yau hom _ hZ').1]
  refine le_trans ((Real.le_norm_self _).trans (hB _ ⟨?_, ?_⟩)) (le_max_left _ _)
  · rw [mem_sphere_zero_iff_norm, norm_smul, norm_inv, Complex.norm_real, norm_norm, inv_mul_cancel₀ (norm_ne_zero_iff.2 hZ)]
  · change eval _ F = 0
    rw [eval_smul_point hom, h0, mul_zero]

variable (p : Fin (n + 2)) (d : Fin (n + 1))

theorem cyMeasure_withDensity (hom : F.IsHomogeneous (n + 2)) :
    cyMeasure p d F = (fsMeasure p d F).withDensity fun Z => ENNReal.ofReal (pointWeight (n + 2) F Z) := by
  have hm : Measurable fun Z : Fin (n + 2) → ℂ => 1 / ‖eval Z (pderiv (p.succAbove d) F)‖ ^ 2 := by
    have h2 : Measurable fun Z : Fin (n + 2) → ℂ => eval Z (pderiv (p.succAbove d) F) :=
      (MvPolynomial.continuous_eval _).measurable
    fun_prop
  have hw : Measurable fun Z : Fin (n + 2) → ℂ => ENNReal.ofReal (pointWeight (n + 2) F Z) :=
    (measurable_pointWeight _).ennreal_ofReal
  ext s hs
  rw [withDensity_apply _ hs, ← lintegral_indicator_one hs, ← lintegral_indicator hs, cyMeasure, fsMeasure_eq p d hom,
    lintegral_sheetMeasure p d F hm (measurable_one.indicator hs),
    lintegral_sheetMeasure p d F (measurable_lineRho p d F) (hw.indicator hs)]
  refine lintegral_congr fun w => tsum_congr fun y => ?_
  by_cases hy : hpoint p d 1 y w ∈ regularSet p d F
  · rw [indicator_of_mem hy, indicator_of_mem hy]
    have hne : hpoint p d 1 y w ≠ 0 := fun h => by
      have := hpoint_p p d 1 y w
      rw [h] at this
      simp at this
    have h := weight_lineRho p d (hpoint p d 1 y w) hy (hpoint_p p d 1 y w) (C111_calabi_yau hom _ hne).1
    have hpos := pointWeight_pos (e := n + 2) (F := F) (hpoint p d 1 y w) hne ⟨_, hy.2⟩
    by_cases hs' : hpoint p d 1 y w ∈ s
    · rw [indicator_of_mem hs', indicator_of_mem hs', Pi.one_apply, one_mul, ← h, ENNReal.ofReal_mul hpos.le]
    · rw [indicator_of_notMem hs', indicator_of_notMem hs', zero_mul, zero_mul]
  · rw [indicator_of_notMem hy, indicator_of_notMem hy]

end Cyjax
