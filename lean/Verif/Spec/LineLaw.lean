import Verif.Spec.RandomLaw

/-! # Specification: the law of the random numbers behind the random lines (C113, C116) -/

namespace Cyjax.Spec

open MeasureTheory

/-- The law of an array of shape `(2, count, 2 * m)` of independent standard normal numbers. -/
noncomputable def normalsLaw (m count : ℕ) : Measure (Fin 2 → Fin count → Fin (2 * m) → ℝ) :=
  Measure.pi fun _ => Measure.pi fun _ => normalRow (2 * m)

instance (m count : ℕ) : IsProbabilityMeasure (normalsLaw m count) := by unfold normalsLaw; infer_instance

end Cyjax.Spec
