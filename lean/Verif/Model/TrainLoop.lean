import Verif.Model.Ml
import Mathlib.Data.Real.Basic

/-! # Model of the training loop, `scripts/train.py:129-222`

Logging is left out; files are part of the state. The network, the gradient, the optimiser and the accuracy are functions given by
the configuration. -/

namespace Cyjax.TrainScript

open Cyjax.Polynomial (PyErr)
open Cyjax.Util Cyjax.Ml

/-- What the script gets from the configuration and from libraries. `M` are arrays of moduli, `S` samples, `Par` parameters of
the network, `Opt` states of the optimiser. -/
structure Setup (Key M S Par Grad Upd Opt Acc : Type*) where
  /-- `jax.random.split` -/
  split : Key → Key × Key
  /-- `param_sampler(key, count)`, `scripts/train.py:172-175` -/
  paramSampler : Key → ℕ → M
  /-- a sample of the batch sampler, `scripts/train.py:177-181` -/
  sample : Key → Except PyErr S
  bufferSize : ℕ
  /-- `model.init(key, moduli, deterministic=True)` -/
  init : Key → M → Except PyErr Par
  /-- `opt.init` -/
  optInit : Par → Opt
  /-- `jax.value_and_grad(loss_function)(params, key, sample)` -/
  valueAndGrad : Par → Key → S → Except PyErr (ℝ × Grad)
  /-- `opt.update` -/
  optUpdate : Grad → Opt → Upd × Opt
  /-- `optax.apply_updates` -/
  applyUpdates : Par → Upd → Par
  /-- `validation_accuracy(key, get_h_matrix(params))` for the moduli, `scripts/train.py:188-195` -/
  validate : M → Key → Par → Except PyErr Acc
  validationCount : ℕ
  logEvery : ℕ

variable {Key M S Par Grad Upd Opt Acc : Type*}

/-- The files written while training. -/
structure Files (M Par Acc : Type*) where
  validationParams : Option M
  losses : Option (List ℝ)
  validation : Option (List Acc)
  finalParams : Option Par

/-- The local variables of `main` that change in the loop, and the files. -/
structure TrainState (Key M S Par Opt Acc : Type*) where
  rns : Key
  sampler : Sampler Key S
  moduliValidation : M
  params : Par
  optState : Opt
  losses : List ℝ
  validation : List Acc
  step : ℕ
  files : Files M Par Acc

variable (c : Setup Key M S Par Grad Upd Opt Acc)

/-- `update_step`, `scripts/train.py:154-160`. -/
def updateStep (key : Key) (params : Par) (optState : Opt) (sample : S) : Except PyErr (ℝ × Par × Opt) :=
  match c.valueAndGrad params key sample with
  | .error e => .error e
  | .ok (loss, grads) =>
    let (updates, optState) := c.optUpdate grads optState
    .ok (loss, c.applyUpdates params updates, optState)

/-- The script before the loop, `scripts/train.py:161-202`; `seed` is the key made from the configured seed or from the time. -/
def trainInit (seed : Key) : Except PyErr (TrainState Key M S Par Opt Acc) :=
  let rns := prngInit (fun _ => seed) (.key seed)
  let (rns, k0) := prngNext c.split rns
  match samplerInit c.split c.sample c.bufferSize (prngInit (fun _ => seed) (.key k0)) with
  | .error e => .error e
  | .ok sampler =>
    let (rns, k1) := prngNext c.split rns
    let moduliValidation := c.paramSampler k1 c.validationCount
    let (rns, k2) := prngNext c.split rns
    let (rns, k3) := prngNext c.split rns
    match c.init k2 (c.paramSampler k3 1) with
    | .error e => .error e
    | .ok params =>
      .ok ⟨rns, sampler, moduliValidation, params, c.optInit params, [], [], 0, ⟨some moduliValidation, none, none, none⟩⟩

/-- The body of the loop, `scripts/train.py:209-222`. -/
def trainStep (st : TrainState Key M S Par Opt Acc) : Except PyErr (TrainState Key M S Par Opt Acc) :=
  match samplerNext c.split c.sample c.bufferSize st.sampler with
  | (_, .error e) => .error e
  | (sampler, .ok sample) =>
    let (rns, key) := prngNext c.split st.rns
    match updateStep c key st.params st.optState sample with
    | .error e => .error e
    | .ok (loss, params, optState) =>
      let losses := st.losses ++ [loss]
      if c.logEvery = 0 then .error .zeroDivisionError
      else if st.step % c.logEvery = 0 then
        let (rns, key) := prngNext c.split rns
        match c.validate st.moduliValidation key params with
        | .error e => .error e
        | .ok acc =>
          let validation := st.validation ++ [acc]
          .ok ⟨rns, sampler, st.moduliValidation, params, optState, losses, validation, st.step + 1,
            { st.files with losses := some losses, validation := some validation, finalParams := some params }⟩
      else .ok ⟨rns, sampler, st.moduliValidation, params, optState, losses, st.validation, st.step + 1, st.files⟩

/-- The loop, `scripts/train.py:205-222`: `clock i` is the time read after `i` steps (`time_start` for `i = 0`), `trainTime` the
configured duration. The relation says how the loop ends, if it does. -/
inductive TrainLoop (clock : ℕ → ℝ) (trainTime : ℝ) :
    ℕ → TrainState Key M S Par Opt Acc → Except PyErr (TrainState Key M S Par Opt Acc) → Prop
  | stop (i st) (h : ¬ clock i - clock 0 < trainTime) : TrainLoop clock trainTime i st (.ok st)
  | fail (i st e) (h : clock i - clock 0 < trainTime) (hs : trainStep c st = .error e) : TrainLoop clock trainTime i st (.error e)
  | next (i st st' r) (h : clock i - clock 0 < trainTime) (hs : trainStep c st = .ok st')
      (hr : TrainLoop clock trainTime (i + 1) st' r) : TrainLoop clock trainTime i st r

/-- The script up to the end of training, `scripts/train.py:129-222`. -/
def Trains (clock : ℕ → ℝ) (trainTime : ℝ) (seed : Key) (r : Except PyErr (TrainState Key M S Par Opt Acc)) : Prop :=
  match trainInit c seed with
  | .error e => r = .error e
  | .ok st => TrainLoop c clock trainTime 0 st r

end Cyjax.TrainScript
