import Verif.Spec.AccuracyLimit

/-! # Specification: the variance of eta over the hypersurface (C174) -/

namespace Cyjax.Spec

open MeasureTheory

/-- The integral `∫ (1 - η V/K)² dμ` with `V` the volume of the measure `μ` and `K = ∫ η dμ`, so that `K/V` is the average of `η`. -/
noncomputable def etaVariance {X : Type*} [MeasurableSpace X] (μ : Measure X) (η : X → ℝ) : ℝ :=
  ∫ x, (1 - η x * (μ Set.univ).toReal / ∫ y, η y ∂μ) ^ 2 ∂μ

end Cyjax.Spec
