import Verif.Model.Subscript
import Verif.Model.UtilMisc
import Mathlib.Data.Matrix.Mul
import Mathlib.Data.Matrix.Diagonal
import Mathlib.Analysis.SpecialFunctions.Pow.Complex
import Mathlib.Analysis.SpecialFunctions.Complex.Arg
import Mathlib.Analysis.SpecialFunctions.Sigmoid
import Mathlib.Algebra.Order.Round

/-! # Model of `cyjax/ml.py`

Floats are real numbers; `jax.jit` is the identity; random draws are arguments. -/

namespace Cyjax.Ml

open Cyjax.Polynomial (PyErr)
open Cyjax.Util Matrix

/-! ## Cholesky parametrisation -/

/-- `jnp.triu_indices(n, 1)`: positions above the diagonal, row by row. -/
def triuIndices (n : ℕ) : List (Fin n × Fin n) :=
  (List.finRange n).flatMap fun i => ((List.finRange n).filter fun j => i < j).map fun j => (i, j)

/-- `mat.at[index].set(value)` for one position. -/
def setEntry {n : ℕ} (M : Matrix (Fin n) (Fin n) ℂ) (ij : Fin n × Fin n) (v : ℂ) : Matrix (Fin n) (Fin n) ℂ :=
  fun a b => if (a, b) = ij then v else M a b

/-- `mat.at[indices].set(values)`: the values are broadcast against the indices, so an array with a single
entry fits any number of positions. -/
def setEntries {n : ℕ} (M : Matrix (Fin n) (Fin n) ℂ) (inds : List (Fin n × Fin n)) (vals : List ℂ) :
    Except PyErr (Matrix (Fin n) (Fin n) ℂ) :=
  if vals.length = inds.length then .ok ((inds.zip vals).foldl (fun M x => setEntry M x.1 x.2) M)
  else
    match vals with
    | [v] => .ok (inds.foldl (fun M ij => setEntry M ij v) M)
    | _ => .error .valueError

/-- `cholesky_decode`, `cyjax/ml.py:31-59`. -/
noncomputable def choleskyDecode {n : ℕ} (diag : Fin n → ℝ) (upper : List ℂ) :
    Except PyErr (Matrix (Fin n) (Fin n) ℂ) :=
  match setEntries (Matrix.diagonal fun i => (diag i : ℂ)) (triuIndices n) upper with
  | .error e => .error e
  | .ok mat => .ok (mat * (matᵀ).map (starRingEnd ℂ))

/-- `a.reshape(2, -1)` and unpacking of the two rows. -/
def reshapeTwo (a : List ℝ) : Except PyErr (List ℝ × List ℝ) :=
  if a.length % 2 = 0 then .ok (a.take (a.length / 2), a.drop (a.length / 2)) else .error .valueError

/-- `cholesky_from_param`, `cyjax/ml.py:62-81`. `np.round` rounds half to even and `round` half up; the root of an
integer is never half an integer, so they agree. The size of the result depends on the input. -/
noncomputable def choleskyFromParam (hPar : List ℝ) : Except PyErr (Σ n : ℕ, Matrix (Fin n) (Fin n) ℂ) :=
  let basisSize := (round (Real.sqrt hPar.length)).toNat
  let diag := hPar.take basisSize
  match reshapeTwo (hPar.drop basisSize) with
  | .error e => .error e
  | .ok (upperR, upperI) =>
    match choleskyDecode (fun i : Fin diag.length => diag.getD i 0)
        (List.zipWith (fun (r i : ℝ) => (r : ℂ) + Complex.I * (i : ℂ)) upperR upperI) with
    | .error e => .error e
    | .ok A => .ok ⟨diag.length, A⟩

/-- `hermitian_param_init`, `cyjax/ml.py:84-102`. `noise` are the normal draws (the documentation says uniform),
used if `fluctuate` is given. `par.at[:n].set(diag)` replaces the first `n` entries. -/
def hermitianParamInit (basisSize : ℕ) (fluctuate : Option ℝ) (noise : ℕ → ℝ) : List ℝ :=
  let par := List.replicate (basisSize ^ 2) 0
  let diag := match fluctuate with
    | some f => (List.range basisSize).map fun i => 1 + noise i * f
    | none => List.replicate basisSize 1
  diag ++ par.drop basisSize

/-! ## Batch sampler -/

/-- State of a `BatchSampler`. `rns` is the state of the key sequence. -/
structure Sampler (Key S : Type*) where
  buffer : List S
  index : ℕ
  rns : Key

/-- The loop of `new_buffer`, `cyjax/ml.py:166-170`. An exception leaves what was appended before; the key of
the failing call is used up. -/
def fillLoop {Key S : Type*} (split : Key → Key × Key) (sample : Key → Except PyErr S) :
    ℕ → List S → Key → (List S × Key) × Except PyErr Unit
  | 0, buffer, rns => ((buffer, rns), .ok ())
  | n + 1, buffer, rns =>
    let (rns', k) := prngNext split rns
    match sample k with
    | .error e => ((buffer, rns'), .error e)
    | .ok s => fillLoop split sample n (buffer ++ [s]) rns'

/-- `BatchSampler.new_buffer`, `cyjax/ml.py:163-170`. -/
def newBuffer {Key S : Type*} (split : Key → Key × Key) (sample : Key → Except PyErr S) (bufferSize : ℕ)
    (st : Sampler Key S) : Sampler Key S × Except PyErr Unit :=
  let r := fillLoop split sample bufferSize [] st.rns
  ({ st with buffer := r.1.1, rns := r.1.2 }, r.2)

/-- `BatchSampler.__init__`, `cyjax/ml.py:106-161`, after the closures are set up: no object exists if sampling
fails. -/
def samplerInit {Key S : Type*} (split : Key → Key × Key) (sample : Key → Except PyErr S) (bufferSize : ℕ)
    (rns : Key) : Except PyErr (Sampler Key S) :=
  match newBuffer split sample bufferSize ⟨[], 0, rns⟩ with
  | (_, .error e) => .error e
  | (st, .ok ()) => .ok { st with index := 0 }

/-- `BatchSampler.__next__`, `cyjax/ml.py:175-181`. Returns the new state and the sample or the exception. -/
def samplerNext {Key S : Type*} (split : Key → Key × Key) (sample : Key → Except PyErr S) (bufferSize : ℕ)
    (st : Sampler Key S) : Sampler Key S × Except PyErr S :=
  match st.buffer[st.index]? with
  | none => (st, .error .indexError)
  | some s =>
    let st := { st with index := st.index + 1 }
    if st.index = bufferSize then
      match newBuffer split sample bufferSize st with
      | (st, .error e) => (st, .error e)
      | (st, .ok ()) => ({ st with index := 0 }, .ok s)
    else (st, .ok s)

/-- The results of `n` calls of `next`; a caller may go on after an exception. -/
def samplerRun {Key S : Type*} (split : Key → Key × Key) (sample : Key → Except PyErr S) (bufferSize : ℕ) :
    ℕ → Sampler Key S → List (Except PyErr S) × Sampler Key S
  | 0, st => ([], st)
  | n + 1, st =>
    let (st', r) := samplerNext split sample bufferSize st
    let (rs, st'') := samplerRun split sample bufferSize n st'
    (r :: rs, st'')

/-! ## Loss -/

/-- `jnp.mean` of a one-dimensional array. -/
noncomputable def mean {n : ℕ} (x : Fin n → ℝ) : ℝ := (∑ i, x i) / n

/-- `variance_eta_loss`, `cyjax/ml.py:184-199`, as function of the real parts of the etas and the weights. -/
noncomputable def varianceEtaLoss {n : ℕ} (etas weights : Fin n → ℝ) : ℝ :=
  let etaMean := mean (fun i => weights i * etas i) / mean weights
  let loss := fun i => (etas i / etaMean - 1) ^ 2
  let loss := mean (fun i => loss i * weights i)
  loss + mean fun i => Real.log ((if etas i < 0 then etas i else 0) ^ 2 + 1)

/-! ## Network for the moduli dependence -/

/-- `np.unique`: sorted, without repetitions. Powers are rational (Python integers or floats). -/
def unique (l : List ℚ) : List ℚ := (l.mergeSort (· ≤ ·)).dedup

/-- `itertools.product(*([l] * m))`: the last position changes fastest. -/
def cart {α : Type*} (l : List α) : ℕ → List (List α)
  | 0 => [[]]
  | m + 1 => l.flatMap fun a => (cart l m).map (a :: ·)

/-- `jnp.prod(jnp.power(moduli, pw), -1)` for one row. -/
noncomputable def powProduct (moduli : List ℂ) (pw : List ℚ) : ℂ :=
  (List.zipWith (fun z p => z ^ ((p : ℚ) : ℂ)) moduli pw).prod

/-- The exponents used, `cyjax/ml.py:275-280`. -/
def featurePowers (powers : List ℚ) (m : ℕ) : List (List ℚ) :=
  (cart (unique (0 :: powers)) m).filter fun pw => ¬ pw.all (· = 0)

/-- Input features for one row of moduli, `cyjax/ml.py:275-289`. `jnp.stack` and `jnp.concatenate` raise for an
empty list. -/
noncomputable def features (powers : List ℚ) (angle abs parts : Bool) (moduli : List ℂ) : Except PyErr (List ℝ) :=
  let psiPow := (featurePowers powers moduli.length).map (powProduct moduli)
  if psiPow = [] then .error .valueError
  else if angle = false ∧ abs = false ∧ parts = false then .error .valueError
  else .ok ((if angle then moduli.map Complex.arg else []) ++
    (if abs then psiPow.map (‖·‖) else []) ++
    (if parts then psiPow.map Complex.re ++ psiPow.map Complex.im else []))

/-- Parameters of a dense layer; entries beyond the shape are not used. -/
structure DenseParams where
  kernel : ℕ → ℕ → ℝ
  bias : ℕ → ℝ

/-- `nn.Dense(features)` of flax: `x @ kernel + bias`. -/
def dense (features : ℕ) (p : DenseParams) (x : List ℝ) : List ℝ :=
  (List.range features).map fun j => ((List.range x.length).map fun i => x.getD i 0 * p.kernel i j).sum + p.bias j

/-- `nn.Dropout(rate)(x, deterministic=...)` of flax (used in `cyjax/ml.py:298`) for one row of the batch: entries that are kept are
divided by the probability to keep them. `keep row layer j` is the random mask, made from the key `dropout`. -/
noncomputable def dropout (deterministic : Bool) (keep : ℕ → ℕ → ℕ → Bool) (row layer : ℕ) (rate : ℚ) (x : List ℝ) : List ℝ :=
  if rate = 0 ∨ deterministic = true then x
  else if rate = 1 then List.replicate x.length 0
  else x.mapIdx fun j a => if keep row layer j then a / (1 - rate) else 0

/-- Hidden layers, `cyjax/ml.py:291-298`. `drop k rate x` is the dropout of layer `k`. The loop runs over
`zip(layer_sizes, dropout)`. -/
def hidden (activation : ℝ → ℝ) (drop : ℕ → ℚ → List ℝ → List ℝ) (params : ℕ → DenseParams) (layerSizes : List ℕ)
    (dropoutRates : Option (List (Option ℚ))) (x : List ℝ) : List ℝ :=
  let dropout := dropoutRates.getD (List.replicate layerSizes.length none)
  ((layerSizes.zip dropout).zipIdx).foldl (fun x l =>
    let x := (dense l.1.1 (params l.2) x).map activation
    match l.1.2 with
    | none => x
    | some rate => drop l.2 rate x) x

/-- Initial bias of the last layer, `cyjax/ml.py:300-308`. -/
def biasInit (sigSuppress : Bool) (basisSize : ℕ) (fluctuation : ℝ) (noise : ℕ → ℝ) : List ℝ :=
  let h := hermitianParamInit basisSize (some fluctuation) noise
  if sigSuppress then List.replicate h.length 0 ++ h else h

/-- Initial parameters of the last layer, `cyjax/ml.py:314-321`: zero kernel. -/
def finalInit (sigSuppress : Bool) (basisSize : ℕ) (fluctuation : ℝ) (noise : ℕ → ℝ) : DenseParams where
  kernel := fun _ _ => 0
  bias := fun j => (biasInit sigSuppress basisSize fluctuation noise).getD j 0

/-- Last layer and suppression, `cyjax/ml.py:310-325`, for one row. -/
noncomputable def output (sigSuppress : Bool) (basisSize : ℕ) (final : DenseParams) (x : List ℝ) : List ℝ :=
  let n := basisSize ^ 2
  let hParams := dense (if sigSuppress then n * 2 else n) final x
  if sigSuppress then List.zipWith (fun a b => Real.sigmoid a * b) (hParams.take n) (hParams.drop n) else hParams

/-- Configuration of a network, `cyjax/ml.py:240-262`. -/
structure HNet where
  basisSize : ℕ
  layerSizes : List ℕ
  dropoutRates : Option (List (Option ℚ))
  powers : List ℚ
  sigSuppress : Bool
  activation : ℝ → ℝ
  featureAngle : Bool
  featureAbs : Bool
  featureParts : Bool

/-- `HNetMLP.__call__` for one row of moduli, `cyjax/ml.py:275-325`, given the parameters of all layers. -/
noncomputable def HNet.row (net : HNet) (drop : ℕ → ℚ → List ℝ → List ℝ) (params : ℕ → DenseParams)
    (final : DenseParams) (moduli : List ℂ) : Except PyErr (List ℝ) :=
  match features net.powers net.featureAngle net.featureAbs net.featureParts moduli with
  | .error e => .error e
  | .ok x => .ok (output net.sigSuppress net.basisSize final
      (hidden net.activation drop params net.layerSizes net.dropoutRates x))

/-- The argument: a number, one set of moduli, a batch, or an array with more axes. -/
inductive Moduli where
  | scalar (z : ℂ)
  | single (z : List ℂ)
  | batch (z : List (List ℂ))
  | more

/-- The result: one set of parameters or a batch. -/
inductive HOut where
  | single (h : List ℝ)
  | batch (h : List (List ℝ))

/-- `HNetMLP.__call__`, `cyjax/ml.py:264-329`. Every step acts row by row, where `drop i` is the dropout in row `i`; a batch without
rows is accepted here whatever the configuration. -/
noncomputable def HNet.call (net : HNet) (drop : ℕ → ℕ → ℚ → List ℝ → List ℝ) (params : ℕ → DenseParams)
    (final : DenseParams) : Moduli → Except PyErr HOut
  | .scalar z => match net.row (drop 0) params final [z] with
    | .error e => .error e
    | .ok h => .ok (.single h)
  | .single z => match net.row (drop 0) params final z with
    | .error e => .error e
    | .ok h => .ok (.single h)
  | .batch zs => match zs.zipIdx.mapM (fun x => net.row (drop x.2) params final x.1) with
    | .error e => .error e
    | .ok hs => .ok (.batch hs)
  | .more => .error .valueError

/-- The layers with their dropout rates, `cyjax/ml.py:291-294`. -/
def HNet.layers (net : HNet) : List (ℕ × Option ℚ) :=
  net.layerSizes.zip (net.dropoutRates.getD (List.replicate net.layerSizes.length none))

/-- `model.apply(params, moduli, deterministic, rngs={'dropout': key})`. Without the key, flax raises an exception (here a
`RuntimeError`) in the first layer that needs a random mask; all other exceptions are raised before. -/
noncomputable def HNet.apply (net : HNet) (deterministic : Bool) (rngs : Option (ℕ → ℕ → ℕ → Bool)) (params : ℕ → DenseParams)
    (final : DenseParams) (moduli : Moduli) : Except PyErr HOut :=
  match rngs with
  | some keep => net.call (dropout deterministic keep) params final moduli
  | none =>
    match net.call (dropout deterministic fun _ _ _ => true) params final moduli with
    | .error e => .error e
    | .ok out =>
      if deterministic = false ∧ ∃ l ∈ net.layers, ∃ rate, l.2 = some rate ∧ rate ≠ 0 ∧ rate ≠ 1 then .error .runtimeError
      else .ok out

end Cyjax.Ml
