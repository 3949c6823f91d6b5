import Verif.Model.TrainLoop
import Verif.Spec.Keys

/-! # Specification: the course of the training -/

namespace Cyjax.Spec

open Cyjax.Polynomial (PyErr)
open Cyjax.TrainScript

/-- How many of the steps `0, ..., j - 1` are divisible by `every`. -/
def logged (every j : ℕ) : ℕ := ((List.range j).filter fun i => i % every = 0).length

/-- The last step before `n` that is divisible by `every`. -/
def lastLogged (every n : ℕ) : ℕ := (n - 1) / every * every

/-- The position in the sequence of keys used in step `j`: four keys before the loop, one for each step, one more for each
evaluation. -/
def stepKey (every j : ℕ) : ℕ := 4 + j + logged every j

variable {Key M S Par Grad Upd Opt Acc : Type*}

/-- The course of the first `N` steps of the training from `seed`: `par j`, `opt j` are the parameters and the state of the optimiser
after `j` updates, `loss j` is the loss of `par j` on sample number `j`, and `acc i` the accuracy at the `i`-th evaluation, made
after the update of step `i * logEvery`. -/
structure Course (c : Setup Key M S Par Grad Upd Opt Acc) (seed : Key) (N : ℕ) (par : ℕ → Par) (opt : ℕ → Opt) (loss : ℕ → ℝ)
    (acc : ℕ → Acc) : Prop where
  init : c.init (seqKey c.split seed 2) (c.paramSampler (seqKey c.split seed 3) 1) = .ok (par 0)
  optInit : opt 0 = c.optInit (par 0)
  step : ∀ j < N, ∃ x g, c.sample (seqKey c.split (seqKey c.split seed 0) j) = .ok x ∧
    c.valueAndGrad (par j) (seqKey c.split seed (stepKey c.logEvery j)) x = .ok (loss j, g) ∧
    par (j + 1) = c.applyUpdates (par j) (c.optUpdate g (opt j)).1 ∧ opt (j + 1) = (c.optUpdate g (opt j)).2
  validation : ∀ i, i * c.logEvery < N →
    c.validate (c.paramSampler (seqKey c.split seed 1) c.validationCount)
      (seqKey c.split seed (stepKey c.logEvery (i * c.logEvery) + 1)) (par (i * c.logEvery + 1)) = .ok (acc i)

end Cyjax.Spec
