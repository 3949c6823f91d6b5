import Verif.Model.Rounding

/-! # Roundings that do not depend on the sign -/

namespace Cyjax.Fl

/-- Rounding to nearest, ties away from zero. -/
noncomputable def rndSym (p : ℕ) (x : ℝ) : ℝ := if x < 0 then -rnd p (-x) else rnd p x

/-- `-x` is rounded like `x`. -/
def OddRounding (fl : ℝ → ℝ) : Prop := ∀ x, fl (-x) = -fl x

end Cyjax.Fl
