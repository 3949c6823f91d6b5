import Mathlib.Algebra.MvPolynomial.Eval
import Mathlib.Analysis.Complex.Basic
import Mathlib.LinearAlgebra.Matrix.PosDef

/-! # Specification: the T operator of Donaldson's algorithm (C112) -/

namespace Cyjax.Spec

open MvPolynomial
open scoped ComplexConjugate

variable {m N : ℕ}

/-- Donaldson's T operator as a Monte Carlo sum over the points `pts` with weights `w`: `N / vol` times the mean of
`s_a(Z) conj(s_b(Z)) w(Z) / Σ s_c(Z) h_cd conj(s_d(Z))`. -/
noncomputable def tOperator (s : Fin N → MvPolynomial (Fin m) ℂ) (h : Matrix (Fin N) (Fin N) ℂ) (vol : ℝ)
    (w : (Fin m → ℂ) → ℝ) (pts : List (Fin m → ℂ)) : Matrix (Fin N) (Fin N) ℂ :=
  Matrix.of fun a b => (N : ℂ) / vol * ((pts.map fun Z => eval Z (s a) * conj (eval Z (s b)) * w Z /
    ∑ c, ∑ d, eval Z (s c) * h c d * conj (eval Z (s d))).sum / pts.length)

/-- No non-trivial linear combination of the sections vanishes at all points. -/
def IndependentOn (s : Fin N → MvPolynomial (Fin m) ℂ) (pts : List (Fin m → ℂ)) : Prop :=
  ∀ c : Fin N → ℂ, (∀ Z ∈ pts, ∑ a, c a * eval Z (s a) = 0) → c = 0

end Cyjax.Spec
