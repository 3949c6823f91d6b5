import Mathlib.Data.Matrix.Basic
import Mathlib.LinearAlgebra.Matrix.ConjTranspose
import Mathlib.Data.Complex.Basic
import Mathlib.Data.List.FinRange

/-! # Specifications for `cyjax/ml.py` -/

namespace Cyjax.Ml

/-- Upper triangular with diagonal `diag`. -/
structure IsUpper {n : ℕ} (M : Matrix (Fin n) (Fin n) ℂ) (diag : Fin n → ℝ) : Prop where
  lower : ∀ i j, j < i → M i j = 0
  diag : ∀ i, M i i = diag i

/-- The entries above the diagonal, row after row. -/
def rowsAbove {n : ℕ} (M : Matrix (Fin n) (Fin n) ℂ) : List ℂ :=
  ((List.finRange n).map fun i => ((List.finRange n).filter fun j => i < j).map fun j => M i j).flatten

end Cyjax.Ml
