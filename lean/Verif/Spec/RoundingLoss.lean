import Verif.Spec.RoundingAccuracy
import Mathlib.Analysis.SpecialFunctions.Log.Basic

/-! # Specification of an accurate logarithm of real numbers -/

namespace Cyjax.Fl

/-- The computed logarithm of positive numbers has relative error at most `ε`. -/
def LogAccurate (lg : ℝ → ℝ) (ε : ℝ) : Prop := ∀ x, 0 < x → |lg x - Real.log x| ≤ ε * |Real.log x|

/-- A rounding that keeps zero and does not take numbers above one below it. -/
structure KeepsOne (fl : ℝ → ℝ) : Prop where
  zero : fl 0 = 0
  one : fl 1 = 1
  one_le : ∀ x, 1 ≤ x → 1 ≤ fl x

end Cyjax.Fl
