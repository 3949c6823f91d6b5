import Verif.Model.Variety
import Mathlib.Analysis.Calculus.FDeriv.Basic
import Mathlib.Analysis.Complex.Basic

/-! # Specification: local holomorphic coordinates on a variety (for C108) -/

namespace Cyjax.Spec

open Cyjax.Polynomial Cyjax.Variety
open scoped Topology

/-- Near `x`, `φ` is a holomorphic parametrisation of the variety in patch `p`: it takes values on the variety, and its
parameters are all affine coordinates but the one with index `d`. -/
def LocalCoordinates {n : ℕ} (V : HomKind) (params : Val) (p : ℕ) (d : Fin (n + 1)) (φ : (Fin n → ℂ) → Fin (n + 1) → ℂ)
    (x : Fin n → ℂ) : Prop :=
  ∀ᶠ y in 𝓝 x, DifferentiableAt ℂ φ y ∧ (∀ r, φ y (d.succAbove r) = y r) ∧
    defining V (List.ofFn (φ y)) params (some (.index p)) = .ok 0

end Cyjax.Spec
