import Verif.Spec.LineLaw
import Mathlib.Probability.HasLaw
import Mathlib.Probability.Independence.Basic

/-! # Ideal random keys -/

namespace Cyjax.Spec

open MeasureTheory ProbabilityTheory

/-- Keys without collisions: from a key made by `split(k, num)` one can read off `k` and the position, and the number of splits
that led to it. It is left open whether `split(k, 2)[0]` and `split(k, 3)[0]` are the same key; this depends on the version of
`jax`. -/
structure KeyTree {Key : Type*} (child : Key → ℕ → ℕ → Key) where
  origin : Key → Option (Key × ℕ)
  rank : Key → ℕ
  origin_child : ∀ k num i, i < num → origin (child k num i) = some (k, i)
  rank_child : ∀ k num i, i < num → rank (child k num i) = rank k + 1

/-- An ideal generator: the standard normal arrays drawn with different keys are independent. -/
structure IdealGenerator {Key Ω : Type*} [MeasurableSpace Ω] (P : Measure Ω) (m L : ℕ)
    (U : Key → Ω → Fin 2 → Fin L → Fin (2 * m) → ℝ) : Prop where
  law : ∀ k, HasLaw (U k) (normalsLaw m L) P
  indep : iIndepFun U P

/-- No key is consumed twice; the rule of `jax.random`. -/
def SingleUse {Key Use : Type*} (trace : List (Key × Use)) : Prop := (trace.map Prod.fst).Nodup

end Cyjax.Spec
