import Verif.Spec.Sampling
import Verif.Spec.Samplable

/-! # Specification of approximate root finders -/

namespace Cyjax.Spec

open Cyjax.Polynomial MvPolynomial

/-- Value of the polynomial (coefficients in order of descending powers) with all coefficients replaced by their absolute values. -/
noncomputable def polyvalAbs (cs : List ℂ) (x : ℝ) : ℝ :=
  ∑ k ∈ Finset.range cs.length, ‖cs.getD (cs.length - 1 - k) 0‖ * x ^ k

/-- A root finder with backward error `τ`: for a non-zero leading coefficient it returns as many numbers as the degree, and the
residual at each of them is at most what relative errors `τ` in the coefficients produce. -/
def ApproxRoots (roots : List ℂ → List ℂ) (τ : ℝ) : Prop :=
  ∀ c cs, c ≠ 0 → (roots (c :: cs)).length = cs.length ∧
    ∀ r ∈ roots (c :: cs), ‖polyval (c :: cs) r‖ ≤ τ * polyvalAbs (c :: cs) ‖r‖

/-- Sum of the absolute values of the coefficients. -/
noncomputable def coeffNorm {m : ℕ} (F : MvPolynomial (Fin m) ℂ) : ℝ := ∑ e ∈ F.support, ‖coeff e F‖

end Cyjax.Spec
