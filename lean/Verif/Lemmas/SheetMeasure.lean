import Verif.Lemmas.ConeScaling

/-! # Integrals with respect to measures on a hypersurface -/

namespace Cyjax

open MeasureTheory MvPolynomial Cyjax.Spec Set
open scoped ENNReal

variable {n : ℕ} (p : Fin (n + 2)) (d : Fin (n + 1)) (F : MvPolynomial (Fin (n + 2)) ℂ)

theorem measurable_sheet {ρ : (Fin (n + 2) → ℂ) → ℝ} (hρ : Measurable ρ) :
    Measurable fun w : Fin n → ℂ => Measure.sum fun y : ℂ =>
      (regularSet p d F).indicator (fun Z => ENNReal.ofReal (ρ Z)) (hpoint p d 1 y w) • Measure.dirac (hpoint p d 1 y w) := by
  refine Measure.measurable_of_measurable_coe _ fun s hs => ?_
  have heq : ∀ w : Fin n → ℂ, (Measure.sum fun y : ℂ =>
      (regularSet p d F).indicator (fun Z => ENNReal.ofReal (ρ Z)) (hpoint p d 1 y w) • Measure.dirac (hpoint p d 1 y w)) s =
      ∑' y, (regularSet p d F).indicator (fun Z => ENNReal.ofReal (ρ Z) * s.indicator 1 Z) (hpoint p d 1 y w) := by
    intro w
    rw [Measure.sum_apply _ hs]
    refine tsum_congr fun y => ?_
    rw [Measure.smul_apply, Measure.dirac_apply' _ hs, smul_eq_mul]
    by_cases hy : hpoint p d 1 y w ∈ regularSet p d F
    · rw [indicator_of_mem hy, indicator_of_mem hy]
    · rw [indicator_of_notMem hy, indicator_of_notMem hy, zero_mul]
  simp_rw [heq]
  have hk : Measurable fun Z : Fin (n + 2) → ℂ => ENNReal.ofReal (ρ Z) * s.indicator 1 Z :=
    hρ.ennreal_ofReal.mul (measurable_one.indicator hs)
  exact measurable_regularSum p d F (X := Fin n → ℂ) (a := fun _ => 1) (b := fun w => w)
    (k := fun _ Z => ENNReal.ofReal (ρ Z) * s.indicator 1 Z) continuous_const continuous_id
    (hk.comp (f := fun z : (Fin n → ℂ) × ℂ => hpoint p d 1 z.2 z.1) (by fun_prop))

theorem lintegral_sheetMeasure {ρ : (Fin (n + 2) → ℂ) → ℝ} (hρ : Measurable ρ) {f : (Fin (n + 2) → ℂ) → ℝ≥0∞}
    (hf : Measurable f) :
    ∫⁻ Z, f Z ∂sheetMeasure p d F ρ =
      ∫⁻ w, ∑' y, (regularSet p d F).indicator (fun Z => f Z * ENNReal.ofReal (ρ Z)) (hpoint p d 1 y w) := by
  rw [sheetMeasure, Measure.lintegral_bind (measurable_sheet p d F hρ).aemeasurable hf.aemeasurable]
  refine lintegral_congr fun w => ?_
  rw [lintegral_sum_measure]
  refine tsum_congr fun y => ?_
  rw [lintegral_smul_measure, lintegral_dirac' _ hf, smul_eq_mul]
  by_cases hy : hpoint p d 1 y w ∈ regularSet p d F
  · rw [indicator_of_mem hy, indicator_of_mem hy, mul_comm]
  · rw [indicator_of_notMem hy, indicator_of_notMem hy, zero_mul]

/-- Only the values on the regular points of the patch matter. -/
theorem sheetMeasure_congr {ρ ρ' : (Fin (n + 2) → ℂ) → ℝ} (h : ∀ Z ∈ regularSet p d F, Z p = 1 → ρ Z = ρ' Z) :
    sheetMeasure p d F ρ = sheetMeasure p d F ρ' := by
  unfold sheetMeasure
  congr 1
  funext w
  congr 1
  funext y
  congr 1
  by_cases hy : hpoint p d 1 y w ∈ regularSet p d F
  · rw [indicator_of_mem hy, indicator_of_mem hy, h _ hy (hpoint_p p d 1 y w)]
  · rw [indicator_of_notMem hy, indicator_of_notMem hy]

end Cyjax
