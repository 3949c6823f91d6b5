import Mathlib.Analysis.Calculus.FDeriv.Basic
import Mathlib.Analysis.Complex.Basic
import Mathlib.Analysis.Calculus.FDeriv.Prod
import Mathlib.Analysis.Complex.OperatorNorm

/-! # Wirtinger derivatives (for C64–C68) -/

namespace Cyjax.Spec

open scoped ComplexConjugate

/-- `f : ℂ → ℂ` is real-differentiable at `w` with holomorphic derivative `a` and antiholomorphic derivative `b`:
`df = a dw + b dw̄`. -/
def HasWirtAt (f : ℂ → ℂ) (a b w : ℂ) : Prop :=
  HasFDerivAt f (a • ContinuousLinearMap.id ℝ ℂ + b • (Complex.conjCLE : ℂ →L[ℝ] ℂ)) w

/-- `∂F/∂z_i = (∂F/∂x_i - i ∂F/∂y_i) / 2`. -/
noncomputable def dz {n : ℕ} (F : (Fin n → ℂ) → ℂ) (i : Fin n) (z : Fin n → ℂ) : ℂ :=
  (fderiv ℝ (fun t => F (Function.update z i t)) (z i) 1 -
    Complex.I * fderiv ℝ (fun t => F (Function.update z i t)) (z i) Complex.I) / 2

/-- `∂F/∂z̄_i = (∂F/∂x_i + i ∂F/∂y_i) / 2`. -/
noncomputable def dzbar {n : ℕ} (F : (Fin n → ℂ) → ℂ) (i : Fin n) (z : Fin n → ℂ) : ℂ :=
  (fderiv ℝ (fun t => F (Function.update z i t)) (z i) 1 +
    Complex.I * fderiv ℝ (fun t => F (Function.update z i t)) (z i) Complex.I) / 2

end Cyjax.Spec
