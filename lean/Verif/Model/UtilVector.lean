import Verif.Model.UtilMisc

/-! # Model of `cyjax/util.py`: Monte Carlo integration with several weights for every point -/

namespace Cyjax.Util

open scoped BigOperators

/-- `jnp.mean(·, axis=0)` of an array of shape `(n, k)`. -/
noncomputable def meanAxis0 {K : Type*} [Field K] {n k : ℕ} (v : Fin n → Fin k → K) : Fin k → K := fun c => mean fun i => v i c

/-- `jnp.mean` without axis of an array of shape `(n, k)`: the mean over all entries. -/
noncomputable def meanAll {K : Type*} [Field K] {n k : ℕ} (v : Fin n → Fin k → K) : K :=
  (∑ i, ∑ c, v i c) / ((n * k : ℕ) : K)

/-- `util.mc_integrate`, `cyjax/util.py:167-203`, with `var=True` and weights of shape `(count, k)`; `fn` returns an array of the
same shape, modelled as `k` values for every point. All means are along the first axis (lines 199, 201). -/
noncomputable def mcIntegrateVec {Key Z K : Type*} [Field K] {k : ℕ} (key : Key) (count : ℕ) (fn : Z → Fin k → K)
    (sample : Key → (c : ℕ) → (Fin c → Z) × (Fin c → Fin k → K)) : (Fin k → K) × (Fin k → K) :=
  let zs := (sample key count).1
  let w := (sample key count).2
  let vals := fun i => fn (zs i) * w i
  let val := meanAxis0 w
  let var := fun c => (meanAxis0 (fun i => vals i ^ 2) c - val c ^ 2) / count
  (val, var)

/-- The key of batch `i`: the carry of the scan in `util.mc_integrate_batched`, `cyjax/util.py:227-240`. -/
def scanKey {Key : Type*} (split : Key → Key × Key) (key : Key) : ℕ → Key
  | 0 => key
  | i + 1 => (split (scanKey split key i)).2

/-- `util.mc_integrate_batched`, `cyjax/util.py:206-246`, with `var=True` and weights of shape `(batch_size, k)`. The outputs of
the scan (line 240) are the arrays `res` and `val2` of shape `(batches, k)`. The mean of `res` is along the first axis (line 241),
the mean of `val2` (line 243) is over all entries. -/
noncomputable def mcIntegrateBatchedVec {Key Z K : Type*} [Field K] {k : ℕ} (split : Key → Key × Key) (key : Key)
    (batches batchSize : ℕ) (fn : Z → Fin k → K) (sample : Key → (c : ℕ) → (Fin c → Z) × (Fin c → Fin k → K)) :
    (Fin k → K) × (Fin k → K) :=
  let res : Fin batches → Fin k → K := fun b => meanAxis0 (sample (scanKey split key b) batchSize).2
  let val2 : Fin batches → Fin k → K := fun b =>
    let zs := (sample (scanKey split key b) batchSize).1
    let w := (sample (scanKey split key b) batchSize).2
    fun c => meanAxis0 (fun i => (fn (zs i) * w i) ^ 2) c / batchSize
  let m := meanAxis0 res
  (m, fun c => meanAll val2 / batches - m c ^ 2 / (batches * batchSize))

end Cyjax.Util
