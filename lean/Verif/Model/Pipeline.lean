import Verif.Model.AlgebraicMetric
import Verif.Model.DonaldsonStep
import Verif.Model.UtilMisc
import Verif.Model.Random

/-! # Model of the functions that sample points and average over them

`sample_intersect` with all options and `compute_vol` of `cyjax/variety.py`, and `donaldson_step` of
`cyjax/donaldson.py` from the random lines to the new matrix. Random draws are arguments: `draws key` is the array of
pairs `(p, q)` that `complex_sphere` returns for this key, `split` is `jax.random.split`. -/

namespace Cyjax.Variety

open Cyjax.Polynomial Cyjax.Projective

/-- The random lines of `sample_intersect`, `cyjax/variety.py:255-256`: `complex_sphere(key, (2, sample_count, dim_complex))` from
the normal numbers drawn by `real_sphere`, an array of shape `(2, sample_count, 2 * dim_complex)`. -/
noncomputable def lineDraws {m sampleCount : ℕ} (normals : Fin 2 → Fin sampleCount → Fin (2 * m) → ℝ) :
    List ((Fin m → ℂ) × (Fin m → ℂ)) :=
  List.ofFn fun j => (Random.complexSphere (normals 0 j), Random.complexSphere (normals 1 j))

/-- What `sample_intersect` returns, `cyjax/variety.py:261-273`, by the values of `affine` and `weights`. -/
inductive Sample (n : ℕ) where
  | hom (zs : List (List ℂ))
  | homWeights (zs : List (List ℂ)) (weights : List ℝ)
  | affine (pts : List ((Fin n → ℂ) × Fin (n + 1)))
  | affineWeights (pts : List ((Fin n → ℂ) × Fin (n + 1))) (weights : List ℝ)

/-- `sample_intersect`, `cyjax/variety.py:233-273`, with all options. -/
noncomputable def sampleIntersectOpt (n : ℕ) (V : HomKind) (o : SymOrder) (roots : List ℂ → List ℂ) (params : List ℂ)
    (count : ℕ) (draws : List (List ℂ × List ℂ)) (affine weights : Bool) : Except PyErr (Sample (n + 1)) := do
  let zsHom ← sampleIntersect V o roots params count draws
  let pts := zsHom.map fun z => homToAffineAuto (toArr (n + 2) z)
  let ws := pts.mapM fun (z, patch) => weight V z (.vec params) (some (.index patch)) none (some 1)
  match affine, weights with
  | true, true => return .affineWeights pts (← ws)
  | true, false => return .affine pts
  | false, true => return .homWeights zsHom (← ws)
  | false, false => return .hom zsHom

/-- The `sample` closure of `compute_vol`, `cyjax/variety.py:279-280`: the options are passed by position. -/
noncomputable def volSample (n : ℕ) (V : HomKind) (o : SymOrder) (roots : List ℂ → List ℂ) (params : List ℂ) (count : ℕ)
    (draws : List (List ℂ × List ℂ)) : Except PyErr (List ℝ) := do
  match ← sampleIntersectOpt n V o roots params count draws false true with
  | .homWeights _ w => return w
  | _ => throw .typeError

/-- The mean of a list (NaN in the code if it is empty). -/
noncomputable def listMean (l : List ℝ) : ℝ := l.sum / l.length

/-- The loop of `mc_integrate_batched`, `cyjax/util.py:227-240`, as called by `compute_vol`: integrand one and samples
that may raise. Pairs of mean and mean square of the weights. -/
noncomputable def volBatches {Key : Type*} (split : Key → Key × Key) (batchSize : ℕ) (sample : Key → Except PyErr (List ℝ)) :
    Key → ℕ → Except PyErr (List (ℝ × ℝ))
  | _, 0 => .ok []
  | key, b + 1 => do
    let k2 := (split key).2
    let w ← sample key
    let vals := w.map fun x => 1 * x
    let val := listMean w
    let val2 := listMean (vals.map (· ^ 2)) / batchSize
    let rest ← volBatches split batchSize sample k2 b
    return (val, val2) :: rest

/-- `compute_vol`, `cyjax/variety.py:275-282`, with `mc_integrate_batched`, `cyjax/util.py:240-245`: mean and variance
(the latter returned only for `var=True`). -/
noncomputable def computeVol {Key : Type*} (n : ℕ) (V : HomKind) (o : SymOrder) (roots : List ℂ → List ℂ) (params : List ℂ)
    (split : Key → Key × Key) (draws : Key → List (List ℂ × List ℂ)) (key : Key) (batches batchSize : ℕ) :
    Except PyErr (ℝ × ℝ) := do
  let out ← volBatches split batchSize (fun k => volSample n V o roots params batchSize (draws k)) key batches
  let mean := (out.map Prod.fst).sum / batches
  let variance := (out.map Prod.snd).sum / batches / batches - mean ^ 2 / (batches * batchSize)
  return (mean, variance)

end Cyjax.Variety

namespace Cyjax.Donaldson

open Cyjax.Polynomial Cyjax.Projective Cyjax.Variety
open scoped ComplexConjugate

variable {n : ℕ}

/-- What `batch_step` adds to `T` before the division by `batches`, `cyjax/donaldson.py:869-880`. `nan_to_num` is the
identity on real numbers. -/
noncomputable def AlgebraicMetric.batchDelta (A : AlgebraicMetric (n + 1)) (h : A.H) (o : SymOrder)
    (roots : List ℂ → List ℂ) (params : List ℂ) (batchSize : ℕ) (draws : List (List ℂ × List ℂ)) : Except PyErr A.H := do
  match ← sampleIntersectOpt n A.variety o roots params batchSize draws true true with
  | .affineWeights pts weights =>
    return deltaT h (size := pts.length) (fun i => A.sections.call (pts.get i).1 ((pts.get i).2 : ℕ))
      fun i => weights.getD i 0
  | _ => throw .typeError

/-- `AlgebraicMetric.donaldson_step`, `cyjax/donaldson.py:850-887`, from the random lines (`draws i` for `keys[i]`) to the
new matrix. The body of `fori_loop` is traced before its type is compared. -/
noncomputable def AlgebraicMetric.donaldsonStep (A : AlgebraicMetric (n + 1)) (dtype : DType) (h : A.H) (o : SymOrder)
    (roots : List ℂ → List ℂ) (params : List ℂ) (volCy : ℝ) (batchSize : ℕ) (draws : List (List (List ℂ × List ℂ))) :
    Except PyErr A.H := do
  let hs := symmetrise h
  let deltas ← draws.mapM (A.batchDelta hs o roots params batchSize)
  foriLoopCheck dtype stepType
  let T := deltas.foldl (fun T d => Matrix.of fun a b => T a b + d a b / (draws.length : ℂ)) 0
  return (Matrix.of fun a b => T a b * ((A.sections.size : ℂ) / volCy))⁻¹.transpose

end Cyjax.Donaldson
