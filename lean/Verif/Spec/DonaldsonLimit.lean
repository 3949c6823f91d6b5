import Verif.Spec.DonaldsonStep
import Verif.Model.Pipeline
import Mathlib.MeasureTheory.Integral.Bochner.Basic

/-! # Specification: Donaldson's T operator as an integral (C134) -/

namespace Cyjax.Spec

open MvPolynomial MeasureTheory Cyjax.Polynomial
open scoped ComplexConjugate

/-- Donaldson's T operator for a measure: `N / V ∫ s_a conj(s_b) / Σ s_c h_cd conj(s_d)`, with the volume `V` of the
measure. -/
noncomputable def tIntegral {N m : ℕ} (s : Fin N → MvPolynomial (Fin m) ℂ) (h : Matrix (Fin N) (Fin N) ℂ)
    (μ : Measure (Fin m → ℂ)) : Matrix (Fin N) (Fin N) ℂ :=
  Matrix.of fun a b => (N : ℂ) / (μ Set.univ).toReal * ∫ Z, eval Z (s a) * conj (eval Z (s b)) /
    ∑ c, ∑ d, eval Z (s c) * h c d * conj (eval Z (s d)) ∂μ

/-- The matrix returned, or zero for an exception. -/
def matrixOrZero {N : ℕ} : Except PyErr (Matrix (Fin N) (Fin N) ℂ) → Matrix (Fin N) (Fin N) ℂ
  | .ok h => h
  | .error _ => 0

end Cyjax.Spec
