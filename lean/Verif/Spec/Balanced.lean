import Verif.Spec.DonaldsonLimit
import Mathlib.LinearAlgebra.Matrix.PosDef

/-! # Specification: balanced matrices (C139) -/

namespace Cyjax.Spec

open MvPolynomial MeasureTheory
open scoped ComplexOrder

variable {N m : ℕ}

/-- One step of Donaldson's iteration with exact integrals: the transposed inverse of the T operator. -/
noncomputable def exactStep (s : Fin N → MvPolynomial (Fin m) ℂ) (μ : Measure (Fin m → ℂ)) (h : Matrix (Fin N) (Fin N) ℂ) :
    Matrix (Fin N) (Fin N) ℂ := (tIntegral s h μ)⁻¹.transpose

/-- A balanced matrix: positive definite, and the integrals `N / V ∫ s_a conj(s_b) / Σ s_c h_cd conj(s_d)` are the entries
of the transposed inverse of `h`. -/
def Balanced (s : Fin N → MvPolynomial (Fin m) ℂ) (μ : Measure (Fin m → ℂ)) (h : Matrix (Fin N) (Fin N) ℂ) : Prop :=
  h.PosDef ∧ tIntegral s h μ = h⁻¹.transpose

end Cyjax.Spec
