import Mathlib.LinearAlgebra.Matrix.PosDef
import Mathlib.Analysis.Complex.Order

/-! # Specification: distance of positive definite matrices (C164) -/

namespace Cyjax.Spec

open scoped ComplexOrder

/-- `H` and `K` agree up to the factor `c`: `H ≤ c K` and `K ≤ c H` as quadratic forms. -/
def WithinFactor {N : ℕ} (c : ℝ) (H K : Matrix (Fin N) (Fin N) ℂ) : Prop :=
  ((c : ℂ) • K - H).PosSemidef ∧ ((c : ℂ) • H - K).PosSemidef

end Cyjax.Spec
