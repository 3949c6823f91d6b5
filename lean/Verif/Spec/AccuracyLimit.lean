import Verif.Model.AlgebraicMetric
import Verif.Spec.Hypersurface
import Mathlib.MeasureTheory.Integral.Bochner.Basic

/-! # Specification: the accuracy of a metric as an integral over the hypersurface (C133) -/

namespace Cyjax.Spec

open MeasureTheory Cyjax.Donaldson Cyjax.Polynomial

/-- The value of `AlgebraicMetric.eta` at the point with homogeneous coordinates `Z` (and `0` for an exception). -/
noncomputable def etaAt {n : ℕ} (A : AlgebraicMetric (n + 1)) (h : A.H) (ps : List ℂ) (Z : Fin (n + 2) → ℂ) : ℝ :=
  (onOk id (A.eta h (List.ofFn Z) (.vec ps) none none none)).re

/-- The accuracy `1/V · ∫ |1 - η V/K| dμ` with `V` the volume of the measure `μ` and `K = ∫ η dμ`. -/
noncomputable def accuracy {X : Type*} [MeasurableSpace X] (μ : Measure X) (η : X → ℝ) : ℝ :=
  (∫ x, |1 - η x * (μ Set.univ).toReal / ∫ y, η y ∂μ| ∂μ) / (μ Set.univ).toReal

/-- A returned number, and `0` for an exception. -/
noncomputable def resultOrZero : Except PyErr ℝ → ℝ
  | .ok r => r
  | .error _ => 0

end Cyjax.Spec
