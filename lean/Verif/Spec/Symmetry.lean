import Mathlib.LinearAlgebra.UnitaryGroup
import Mathlib.Algebra.MvPolynomial.Eval
import Mathlib.Data.Complex.Basic

/-! # Specification: symmetries of a hypersurface (C155) -/

namespace Cyjax.Spec

open MvPolynomial Matrix

variable {m N : ℕ}

/-- A unitary change of the homogeneous coordinates that maps the hypersurface `F = 0` to itself: `F (U Z)` is a multiple
of `F (Z)`. -/
structure IsSymmetry (F : MvPolynomial (Fin m) ℂ) (U : Matrix (Fin m) (Fin m) ℂ) : Prop where
  unitary : U ∈ Matrix.unitaryGroup (Fin m) ℂ
  factor : ∃ c : ℂ, ∀ Z : Fin m → ℂ, eval (U *ᵥ Z) F = c * eval Z F

/-- On the hypersurface, the values of the sections at `U Z` are the combinations with the rows of `R` of the values at
`Z`. -/
def ActsBy (F : MvPolynomial (Fin m) ℂ) (s : Fin N → MvPolynomial (Fin m) ℂ) (U : Matrix (Fin m) (Fin m) ℂ)
    (R : Matrix (Fin N) (Fin N) ℂ) : Prop :=
  ∀ Z : Fin m → ℂ, eval Z F = 0 → ∀ a, eval (U *ᵥ Z) (s a) = ∑ b, R a b * eval Z (s b)

end Cyjax.Spec
