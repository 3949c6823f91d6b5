import Verif.Model.Pipeline
import Verif.Model.Ml

/-! # Model of the sampling closure of `BatchSampler`, of `variance_eta_loss` on a sample and of the training script

`cyjax/ml.py:141-154`, `:184-199` and `scripts/train.py`. Random draws are arguments: `draws key` is the array of pairs
`(p, q)` that `complex_sphere` returns for this key. -/

namespace Cyjax.Ml

open Cyjax.Polynomial (PyErr Val)
open Cyjax.Projective Cyjax.Variety Cyjax.Donaldson

/-- One row of the tuple `(params, zs, patch, weights)`: one set of moduli, the points sampled for it (affine coordinates
and patch) and their weights. -/
structure SampleRow (n : ℕ) where
  params : List ℂ
  pts : List ((Fin n → ℂ) × Fin (n + 1))
  weights : List ℝ

/-- The closure `_sample` for one key and one set of moduli, `cyjax/ml.py:141-145`. -/
noncomputable def sampleRow {Key : Type*} (n : ℕ) (V : HomKind) (o : SymOrder) (roots : List ℂ → List ℂ)
    (draws : Key → List (List ℂ × List ℂ)) (batchSize : ℕ) (key : Key) (params : List ℂ) :
    Except PyErr (SampleRow (n + 1)) := do
  match ← sampleIntersectOpt n V o roots params batchSize (draws key) true true with
  | .affineWeights pts weights => return ⟨params, pts, weights⟩
  | _ => throw .typeError

/-- The closure `sample`, `cyjax/ml.py:147-154`: moduli from the first half of the key, then for each of them points from
its own key. `splitN` is `jax.random.split(key, n)`. `jax.vmap` (line 141) rejects arrays of different lengths. The four
arrays of the result are kept as a list of rows. -/
noncomputable def sampleBatch {Key : Type*} (n : ℕ) (V : HomKind) (o : SymOrder) (roots : List ℂ → List ℂ)
    (split : Key → Key × Key) (splitN : Key → ℕ → List Key) (paramsSampler : Key → ℕ → List (List ℂ))
    (draws : Key → List (List ℂ × List ℂ)) (batchSizeParams batchSize : ℕ) (key : Key) :
    Except PyErr (List (SampleRow (n + 1))) := do
  let (k1, k2) := split key
  let paramsBatch := paramsSampler k1 batchSizeParams
  let keys := splitN k2 batchSizeParams
  if keys.length = paramsBatch.length then
    (keys.zip paramsBatch).mapM fun (k, p) => sampleRow n V o roots draws batchSize k p
  else throw .valueError

variable {n : ℕ}

/-- `variance_eta_loss`, `cyjax/ml.py:184-199`, on the points of a row. `stop_gradient` is the identity. Weights and points
that differ in number are not combined (an array of length one would be broadcast). -/
noncomputable def varianceEtaLossRow (A : AlgebraicMetric (n + 1)) (h : A.H) (row : SampleRow (n + 1)) : Except PyErr ℝ := do
  let etas ← row.pts.mapM fun (z, patch) => A.eta h (List.ofFn z) (.vec row.params) (some (patch : ℕ)) none none
  if row.weights.length = etas.length then
    return varianceEtaLoss (n := etas.length) (fun i => (etas.get i).re) fun i => row.weights.getD i 0
  else throw .valueError

/-- A decoded matrix as the matrix of a metric; `einsum` rejects other sizes. -/
def asH (A : AlgebraicMetric (n + 1)) (M : Σ m : ℕ, Matrix (Fin m) (Fin m) ℂ) : Except PyErr A.H :=
  if h : A.sections.size = M.1 then .ok (M.2.submatrix (Fin.cast h) (Fin.cast h)) else .error .valueError

/-- `loss_function`, `scripts/train.py:142-150`: the network gives parameters for every set of moduli of the batch, each is
decoded, and the losses are averaged. `keep` is the
random mask made from the key. -/
noncomputable def lossFunction (A : AlgebraicMetric (n + 1)) (net : HNet) (keep : ℕ → ℕ → ℕ → Bool)
    (params : ℕ → DenseParams) (final : DenseParams) (sample : List (SampleRow (n + 1))) : Except PyErr ℝ := do
  match ← net.apply false (some keep) params final (.batch (sample.map SampleRow.params)) with
  | .single _ => throw .typeError
  | .batch hParams =>
    let hs ← hParams.mapM fun h => do asH A (← choleskyFromParam h)
    let loss ← (hs.zip sample).mapM fun (h, row) => varianceEtaLossRow A h row
    return listMean loss

end Cyjax.Ml
