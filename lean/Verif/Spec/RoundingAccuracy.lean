import Verif.Model.RoundingAccuracy
import Verif.Spec.RoundingSections

/-! # Specification of accurate quotients and absolute values -/

namespace Cyjax.Fl

/-- Quotients by non-zero numbers and absolute values have relative error at most `ε`. -/
structure DivAbs.Accurate (D : DivAbs) (ε : ℝ) : Prop where
  div : ∀ a b, b ≠ 0 → ‖D.div a b - a / b‖ ≤ ε * ‖a / b‖
  abs : ∀ a, |D.abs a - ‖a‖| ≤ ε * ‖a‖

/-- `y` has relative error at most `δ` with respect to `x`. -/
def RelErr (δ : ℝ) (y x : ℂ) : Prop := ‖y - x‖ ≤ δ * ‖x‖

end Cyjax.Fl
