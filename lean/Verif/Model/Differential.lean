import Verif.Model.Projective
import Mathlib.Analysis.Calculus.Deriv.Basic
import Mathlib.LinearAlgebra.Matrix.ConjTranspose

/-! # Model of `cyjax/differential.py` -/

namespace Cyjax.Differential

open Cyjax.Util
open scoped BigOperators

/-- `complex_hessian(potential)`, `cyjax/differential.py:27-66`, at one point:
`jacfwd(jacrev(potential, z_index), z_c_index)`. `jacrev`/`jacfwd` with `holomorphic=True` are
modelled by the complex derivative in each entry of the respective argument, the other argument
fixed. Entry `[i, j]` differentiates in `z[i]` and then in `z_c[j]`. Renaming of the wrapped function
(lines 56-65) is not modelled. -/
noncomputable def complexHessian {n : ℕ} (potential : (Fin n → ℂ) → (Fin n → ℂ) → ℂ)
    (z zc : Fin n → ℂ) : Matrix (Fin n) (Fin n) ℂ := fun i j =>
  deriv (fun s => deriv (fun t => potential (Function.update z i t) (Function.update zc j s)) (z i))
    (zc j)

/-- `jacobian_embed`, `cyjax/differential.py:71-103`, for one gradient. -/
def jacobianEmbed {K : Type*} [Field K] {n : ℕ} (gradDef : Fin (n + 1) → K) (dependent : ℤ) :
    Matrix (Fin n) (Fin (n + 1)) K :=
  let jac : Fin n → Fin n → K := fun i j => if i = j then 1 else 0
  let p := pop gradDef dependent
  let colDep : Fin n → K := fun i => -p.2 i / p.1
  insertCol1 jac colDep dependent

/-- The contraction `einsum('ij,kl,jl->ik', jac, jac_c, metric)`, `cyjax/differential.py:154`. -/
def pullback {K : Type*} [Field K] {m n : ℕ} (jac jacC : Matrix (Fin m) (Fin n) K)
    (metric : Matrix (Fin n) (Fin n) K) : Matrix (Fin m) (Fin m) K := fun i k =>
  ∑ j, ∑ l, jac i j * jacC k l * metric j l

/-- `induced_metric`, `cyjax/differential.py:108-154`, with optional conjugate gradient. -/
noncomputable def inducedMetric {n : ℕ} (metric : Matrix (Fin (n + 1)) (Fin (n + 1)) ℂ)
    (gradDef : Fin (n + 1) → ℂ) (dependent : ℤ) (gradDefC : Option (Fin (n + 1) → ℂ)) :
    Matrix (Fin n) (Fin n) ℂ :=
  let jac := jacobianEmbed gradDef dependent
  let jacC := match gradDefC with
    | some gc => jacobianEmbed gc dependent
    | none => fun i j => (starRingEnd ℂ) (jac i j)
  pullback jac jacC metric

end Cyjax.Differential
