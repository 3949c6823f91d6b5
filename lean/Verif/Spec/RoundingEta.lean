import Verif.Model.RoundingEta
import Verif.Spec.RoundingSections

/-! # Specification of the sizes in the error bounds of the algebraic metric (C167) -/

namespace Cyjax.Donaldson

/-- Every index occurs in both orders of summation once, and the contraction has at most `k` operations in sequence. -/
def Path.Within {N : ℕ} (P : Path N) (k : ℕ) : Prop := P.ti.Covers ∧ P.tj.Covers ∧ P.ti.depth + P.tj.depth + 2 ≤ k

/-- The sum of the absolute values of the terms of `x h y`. -/
noncomputable def absTerms {N : ℕ} (h : HArg N) (x y : Fin N → ℂ) : ℝ :=
  match h with
  | .diag h => ∑ i, ‖x i‖ * ‖h i‖ * ‖y i‖
  | .full h => ∑ i, ∑ j, ‖x i‖ * ‖h i j‖ * ‖y j‖

end Cyjax.Donaldson
