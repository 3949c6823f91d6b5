import Verif.Model.Pipeline
import Verif.Model.UtilMisc

/-! # Model of the use of random keys

For every function of the package with a random key: the calls of `jax.random` it makes, as a list of the keys that are
consumed. `child k num i` is `jax.random.split(k, num)[i]`. Calls under `jax.vmap` over keys are one call for each key; an
argument that is not batched is used once. -/

namespace Cyjax.Keys

open Cyjax.Polynomial
open Cyjax.Variety Cyjax.Donaldson Cyjax.Util

/-- How `jax.random` consumes a key: `jax.random.split(key, num)`, or random values. -/
inductive Use where
  | split (num : ℕ)
  | draw
  deriving DecidableEq

/-- The calls of `jax.random` with their keys, in order. -/
abbrev Trace (Key : Type*) := List (Key × Use)

variable {Key : Type*} (child : Key → ℕ → ℕ → Key)

/-- `k1, k2 = jax.random.split(key)`, as in `cyjax/util.py:228,265` and `cyjax/ml.py:150`. -/
def splitPair (k : Key) : Key × Key := (child k 2 0, child k 2 1)

/-- `jax.random.split(key, num)`, as in `cyjax/donaldson.py:867`, `cyjax/ml.py:152`, `cyjax/util.py:117` and
`scripts/train.py:247`. -/
def splitMany (k : Key) (num : ℕ) : List Key := (List.range num).map (child k num)

omit child in
/-- The functions of `cyjax/random.py` (lines 45, 69, 88, 112, 138, 163, 197), `hermitian_param_init` (`cyjax/ml.py:97`) and
`sample_intersect` (`cyjax/variety.py:256`): the key is passed on to one call that generates values. So do `mc_integrate`
(`cyjax/util.py:196`), which passes it to `sample`, and `sigma_accuracy` (`cyjax/donaldson.py:836`). Simplification: without
values to generate (empty shapes, no fluctuation) the code does not use the key. -/
def useDraw (k : Key) : Trace Key := [(k, .draw)]

/-- `keys = split(key, num)` followed by one draw with each of them: `shuffle_axis` (`cyjax/util.py:117`, one permutation for
each key), `donaldson_step` (`cyjax/donaldson.py:867-871`) and `eval_accuracies` (`scripts/train.py:247`). -/
def useEach (num : ℕ) (k : Key) : Trace Key := (k, .split num) :: (splitMany child k num).flatMap useDraw

/-- The closure `sample` of `BatchSampler`, `cyjax/ml.py:147-154`, with a `params_sampler` that draws once. -/
def useSample (batchSizeParams : ℕ) (k : Key) : Trace Key :=
  let (k1, k2) := splitPair child k
  (k, .split 2) :: useDraw k1 ++ useEach child batchSizeParams k2

/-- `mc_integrate_batched`, `cyjax/util.py:227-240`: the key is split, and the same key is given to `sample`. -/
def useBatched : ℕ → Key → Trace Key
  | 0, _ => []
  | b + 1, k =>
    let (_, k2) := splitPair child k
    (k, .split 2) :: useDraw k ++ useBatched b k2

/-- Calls of functions with `next(rns)` for a `PRNGSequence` with the stored key `r`, `cyjax/util.py:263-266`: each function
consumes its key as given by `f`. The second component is the key stored at the end. -/
def useSequence : List (Key → Trace Key) → Key → Trace Key × Key
  | [], r => ([], r)
  | f :: fs, r =>
    let (r', k) := prngNext (splitPair child) r
    let (rest, r'') := useSequence fs r'
    ((r, .split 2) :: f k ++ rest, r'')

/-- `new_buffer`, `cyjax/ml.py:163-170`: with the stored key `r`. -/
def useBuffer (bufferSize batchSizeParams : ℕ) (r : Key) : Trace Key × Key :=
  useSequence child (List.replicate bufferSize (useSample child batchSizeParams)) r

/-- The keys of the training script: the stored key of its `PRNGSequence`, and the state of its `BatchSampler` (index and
stored key). -/
structure ScriptState (Key : Type*) where
  rns : Key
  index : ℕ
  sampler : Key

/-- Script before the loop, `scripts/train.py:169-199`: the sampler with `seed=next(rns)` fills its buffer; then the moduli
for validation, and the key and the moduli for `model.init`. Simplification: `model.init` of `flax` consumes its key by one
draw. -/
def useInit (bufferSize batchSizeParams : ℕ) (seed : Key) : Trace Key × ScriptState Key :=
  let (r1, k0) := prngNext (splitPair child) seed
  let (t0, s) := useBuffer child bufferSize batchSizeParams k0
  let (t1, r2) := useSequence child [useDraw, useDraw, useDraw] r1
  ((seed, .split 2) :: t0 ++ t1, ⟨r2, 0, s⟩)

/-- A step of the loop, `scripts/train.py:209-218`: the sampler moves on and fills its buffer again when it has reached the
end (`cyjax/ml.py:175-181`); a key for the dropout, and every `logEvery` steps a key for the accuracy. Simplification: the
dropout consumes its key by one draw. -/
def useStep (bufferSize batchSizeParams logEvery step : ℕ) (st : ScriptState Key) : Trace Key × ScriptState Key :=
  let (t0, index, s) :=
    if st.index + 1 = bufferSize then
      let (t, s) := useBuffer child bufferSize batchSizeParams st.sampler
      (t, 0, s)
    else ([], st.index + 1, st.sampler)
  let (t1, r) := useSequence child (if step % logEvery = 0 then [useDraw, useDraw] else [useDraw]) st.rns
  (t0 ++ t1, ⟨r, index, s⟩)

/-- The loop for `N` steps, `scripts/train.py:208-222`. -/
def useLoop (bufferSize batchSizeParams logEvery : ℕ) : ℕ → ℕ → ScriptState Key → Trace Key × ScriptState Key
  | 0, _, st => ([], st)
  | N + 1, step, st =>
    let (t, st') := useStep child bufferSize batchSizeParams logEvery step st
    let (rest, st'') := useLoop bufferSize batchSizeParams logEvery N (step + 1) st'
    (t ++ rest, st'')

/-- The script with `N` training steps and an evaluation in batches of the given sizes, `scripts/train.py:161-258`. -/
def useScript (bufferSize batchSizeParams logEvery N : ℕ) (sizes : List ℕ) (seed : Key) : Trace Key :=
  let (t0, st) := useInit child bufferSize batchSizeParams seed
  let (t1, st) := useLoop child bufferSize batchSizeParams logEvery N 0 st
  let (t2, _) := useSequence child (sizes.map fun num => useEach child num) st.rns
  t0 ++ t1 ++ t2

/-- `donaldson_step` with its key, `cyjax/donaldson.py:850-887`: `draws` are the normals `sample_intersect` gets for a key. -/
noncomputable def donaldsonStepKey {n : ℕ} (A : AlgebraicMetric (n + 1)) (h : A.H) (o : SymOrder) (roots : List ℂ → List ℂ)
    (params : List ℂ) (volCy : ℝ) (batches batchSize : ℕ) (draws : Key → List (List ℂ × List ℂ)) (key : Key) :
    Except PyErr A.H :=
  A.donaldsonStep .complex h o roots params volCy batchSize ((splitMany child key batches).map draws)

/-- A program of a user, with all its keys from one `PRNGSequence`: first `compute_vol`, then `k` calls of `donaldson_step`,
each with `next(rns)`. The same number of batches in all calls. -/
noncomputable def algorithm {n : ℕ} (A : AlgebraicMetric (n + 1)) (o : SymOrder) (roots : List ℂ → List ℂ)
    (params : List ℂ) (batches batchSize volBatchSize : ℕ) (draws volDraws : Key → List (List ℂ × List ℂ)) (rns : Key)
    (k : ℕ) (h : A.H) : Except PyErr A.H := do
  let (rns, key) := prngNext (splitPair child) rns
  let (vol, _) ← computeVol n A.variety o roots params (splitPair child) volDraws key batches volBatchSize
  let (keys, _) := prngTake (splitPair child) rns k
  keys.foldlM (fun h key => donaldsonStepKey child A h o roots params vol batches batchSize draws key) h

end Cyjax.Keys
