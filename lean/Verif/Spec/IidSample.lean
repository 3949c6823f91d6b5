import Mathlib.Probability.HasLaw
import Mathlib.MeasureTheory.Constructions.Pi

/-! # Samples of independent points with weights -/

namespace Cyjax.Spec

open MeasureTheory ProbabilityTheory

/-- With the random key `key`, the points and weights that `sample key count` returns are `count` independent draws from
`μ`, for every `count`. -/
def IidSample {Ω Key Z : Type*} [MeasurableSpace Ω] [MeasurableSpace Z] (P : Measure Ω) (key : Ω → Key)
    (sample : Key → (c : ℕ) → (Fin c → Z) × (Fin c → ℝ)) (μ : Measure (Z × ℝ)) : Prop :=
  ∀ c : ℕ, HasLaw (fun ω (i : Fin c) => ((sample (key ω) c).1 i, (sample (key ω) c).2 i)) (Measure.pi fun _ : Fin c => μ) P

end Cyjax.Spec
