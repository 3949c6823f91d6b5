import Mathlib.LinearAlgebra.Matrix.Determinant.Basic
import Mathlib.Analysis.Complex.Basic

/-! # Specification of a stable determinant (C166) -/

namespace Cyjax.Spec

/-- Backward stability of a library function for determinants: the result is the exact determinant of a matrix whose entries differ by
at most `ρ` times the bound `b` of the entries of the given one. -/
def DetStable {n : ℕ} (detF : Matrix (Fin n) (Fin n) ℂ → ℂ) (ρ : ℝ) : Prop :=
  ∀ (X : Matrix (Fin n) (Fin n) ℂ) (b : ℝ), (∀ i j, ‖X i j‖ ≤ b) →
    ∃ E : Matrix (Fin n) (Fin n) ℂ, (∀ i j, ‖E i j‖ ≤ ρ * b) ∧ detF X = (X + E).det

end Cyjax.Spec
