import Verif.Model.Training
import Mathlib.Analysis.Calculus.FDeriv.Basic

/-! # Model of the gradient of `variance_eta_loss`

`jax.value_and_grad` is modelled by the derivative of the function in which every argument of `jax.lax.stop_gradient` is
replaced by its value at the point of differentiation. -/

namespace Cyjax.Ml

open Cyjax.Polynomial (PyErr)
open Cyjax.Donaldson Cyjax.Util Cyjax.Variety

/-- `variance_eta_loss`, `cyjax/ml.py:184-199`, with the argument of `jax.lax.stop_gradient` (line 190) kept apart:
`stopped` are the etas that enter the average. -/
noncomputable def lossStopped {n : ℕ} (etas stopped weights : Fin n → ℝ) : ℝ :=
  let etaMean := mean (fun i => weights i * stopped i) / mean weights
  let loss := fun i => (etas i / etaMean - 1) ^ 2
  let loss := mean (fun i => loss i * weights i)
  loss + mean fun i => Real.log ((if etas i < 0 then etas i else 0) ^ 2 + 1)

/-- `jax.value_and_grad` of `variance_eta_loss` as used in `scripts/train.py:157`, for etas that depend on parameters `θ`:
the value of the loss and, in the direction `v`, its derivative for a constant average of the etas. -/
noncomputable def lossValueAndGrad {E : Type*} [NormedAddCommGroup E] [NormedSpace ℝ E] {n : ℕ} (etas : E → Fin n → ℝ)
    (weights : Fin n → ℝ) (θ : E) : ℝ × (E →L[ℝ] ℝ) :=
  (lossStopped (etas θ) (etas θ) weights, fderiv ℝ (fun t => lossStopped (etas t) (etas θ) weights) θ)

variable {n : ℕ}

/-- `variance_eta_loss`, `cyjax/ml.py:184-199`, on the points of a row: `h` is the matrix for the etas and `hStop` the matrix for
the etas in `stop_gradient` (line 190). Otherwise as `varianceEtaLossRow`. -/
noncomputable def lossRowStopped (A : AlgebraicMetric (n + 1)) (h hStop : A.H) (row : SampleRow (n + 1)) : Except PyErr ℝ := do
  let etas ← row.pts.mapM fun (z, patch) => A.eta h (List.ofFn z) (.vec row.params) (some (patch : ℕ)) none none
  let stopped ← row.pts.mapM fun (z, patch) => A.eta hStop (List.ofFn z) (.vec row.params) (some (patch : ℕ)) none none
  if row.weights.length = etas.length then
    return lossStopped (n := etas.length) (fun i => (etas.get i).re) (fun i => (stopped.getD i 0).re)
      fun i => row.weights.getD i 0
  else throw .valueError

/-- `loss_function`, `scripts/train.py:142-150`, with the parameters `params0`, `final0` inside `stop_gradient`. -/
noncomputable def lossFunctionStopped (A : AlgebraicMetric (n + 1)) (net : HNet) (keep : ℕ → ℕ → ℕ → Bool)
    (params params0 : ℕ → DenseParams) (final final0 : DenseParams) (sample : List (SampleRow (n + 1))) : Except PyErr ℝ := do
  match ← net.apply false (some keep) params final (.batch (sample.map SampleRow.params)),
      ← net.apply false (some keep) params0 final0 (.batch (sample.map SampleRow.params)) with
  | .batch hParams, .batch hParams0 =>
    let hs ← hParams.mapM fun h => do asH A (← choleskyFromParam h)
    let hs0 ← hParams0.mapM fun h => do asH A (← choleskyFromParam h)
    let loss ← (hs.zip (hs0.zip sample)).mapM fun (h, h0, row) => lossRowStopped A h h0 row
    return listMean loss
  | _, _ => throw .typeError

/-- `jax.value_and_grad(loss_function)(params, key, sample)`, `scripts/train.py:157`. All parameters of the network are given by
a vector `θ`. -/
noncomputable def trainValueAndGrad {E : Type*} [NormedAddCommGroup E] [NormedSpace ℝ E] (A : AlgebraicMetric (n + 1))
    (net : HNet) (keep : ℕ → ℕ → ℕ → Bool) (params : E → ℕ → DenseParams) (final : E → DenseParams)
    (sample : List (SampleRow (n + 1))) (θ : E) : Except PyErr (ℝ × (E →L[ℝ] ℝ)) :=
  let stopped := fun t => (lossFunctionStopped A net keep (params t) (params θ) (final t) (final θ) sample).toOption.getD 0
  match lossFunction A net keep (params θ) (final θ) sample with
  | .error e => .error e
  | .ok loss => .ok (loss, fderiv ℝ stopped θ)

end Cyjax.Ml
