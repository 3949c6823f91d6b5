import Mathlib.Probability.Distributions.Gaussian.Real
import Verif.Model.Random
import Mathlib.MeasureTheory.Constructions.Pi
import Mathlib.MeasureTheory.Constructions.BorelSpace.Complex
import Mathlib.MeasureTheory.Measure.Lebesgue.Basic

/-! # Laws of the random points (for C88, C95, C96) -/

namespace Cyjax.Spec

open MeasureTheory Cyjax.Random

/-- The uniform distribution on `[0, 1)`: the law of one number of `jax.random.uniform`. -/
noncomputable def unifDraw : Measure ℝ := volume.restrict (Set.Ico 0 1)

/-- The law of `n` independent such numbers. -/
noncomputable def unifRow (n : ℕ) : Measure (Fin n → ℝ) := Measure.pi fun _ => unifDraw

/-- The law of a point of `projective_overlap`. -/
noncomputable def overlapLaw {dim : ℕ} (thisPatch otherPatch : ℤ) (patchSize : ℝ) : Measure (Fin dim → ℂ) :=
  ((unifRow dim).prod (unifRow dim)).map fun x => projectiveOverlap thisPatch otherPatch patchSize x.1 x.2

/-- The law of `n` independent standard normal numbers, as produced by `jax.random.normal`. -/
noncomputable def normalRow (n : ℕ) : Measure (Fin n → ℝ) := Measure.pi fun _ => ProbabilityTheory.gaussianReal 0 1

instance (n : ℕ) : IsProbabilityMeasure (normalRow n) := by unfold normalRow; infer_instance

end Cyjax.Spec
