import Verif.Model.Ml
import Verif.Model.Random
import Mathlib.Data.Complex.Basic
import Mathlib.Algebra.Order.Floor.Defs
import Mathlib.Algebra.Order.Floor.Ring
import Mathlib.Data.Rat.Floor

/-! # Model of the moduli sampler and of the evaluation after training, `scripts/train.py`

The arrays of the grid are kept in row-major order. Files are left out; the plots are in `Model/Plot.lean`. -/

namespace Cyjax.TrainScript

open Cyjax.Polynomial (PyErr)
open Cyjax.Util

/-- `cube_param_sampler`, `scripts/train.py:40-42`, one row; `re` and `im` are drawn from `[-1, 1)`. -/
noncomputable def cubeParamSampler {paramsCount : ℕ} (maxAbs re im : Fin paramsCount → ℝ) : Fin paramsCount → ℂ :=
  fun j => Random.uniformComponents (re j) (im j) * (maxAbs j : ℂ)

/-- The slices of the grid, `scripts/train.py:228-234`: for each bound `r` the slice `-r : r + delta/10 : delta`, twice. -/
noncomputable def gridSlices (bounds : List ℝ) (gridPoints : ℕ) : Except PyErr (List (ℝ × ℝ × ℝ)) :=
  if gridPoints = 1 ∧ bounds ≠ [] then .error .zeroDivisionError
  else
    let delta := fun r : ℝ => (2 * r) / ((gridPoints : ℝ) - 1)
    .ok (bounds.flatMap fun r => List.replicate 2 (-r, r + delta r / 10, delta r))

/-- Number of points of `np.mgrid` for one slice with real step, `ceil((stop - start) / step)`. -/
noncomputable def axisSize (s : ℝ × ℝ × ℝ) : ℕ := ⌈(s.2.1 - s.1) / s.2.2⌉.toNat

/-- All multi-indices of an array, in row-major order (`np.indices`). -/
def indices : List ℕ → List (List ℕ)
  | [] => [[]]
  | s :: sh => (List.range s).flatMap fun i => (indices sh).map (i :: ·)

/-- `np.mgrid[slices]`: shape of the grid, and for each axis the flattened array of its coordinate. -/
noncomputable def mgrid (slices : List (ℝ × ℝ × ℝ)) : Except PyErr (List ℕ × List (List ℝ)) :=
  if ∃ s ∈ slices, s.2.2 = 0 then .error .zeroDivisionError
  else
    let size := slices.map axisSize
    .ok (size, slices.zipIdx.map fun x => (indices size).map fun idx => (idx.getD x.2 0 : ℝ) * x.1.2.2 + x.1.1)

/-- `moduli_grid.reshape(par_count, 2, -1)` and the complex numbers made from it, `scripts/train.py:236-237`: one row for each
position of the grid. -/
noncomputable def gridModuli (parCount : ℕ) (grid : List (List ℝ)) : Except PyErr (List (List ℂ)) :=
  let data := grid.flatten
  if parCount = 0 ∨ data.length % (parCount * 2) ≠ 0 then .error .valueError
  else
    let m := data.length / (parCount * 2)
    .ok ((List.range m).map fun j => (List.range parCount).map fun p =>
      (data.getD ((p * 2 + 0) * m + j) 0 : ℂ) + Complex.I * (data.getD ((p * 2 + 1) * m + j) 0 : ℂ))

/-- The moduli at which the accuracy is evaluated, `scripts/train.py:228-237`, with the shape of the grid. -/
noncomputable def evaluationModuli (parCount : ℕ) (bounds : List ℝ) (gridPoints : ℕ) :
    Except PyErr (List ℕ × List (List ℂ)) := do
  let slices ← gridSlices bounds gridPoints
  let (shape, grid) ← mgrid slices
  return (shape, ← gridModuli parCount grid)

/-- `a[i*b:(i+1)*b]`. -/
def slice {α : Type*} (a : List α) (b i : ℕ) : List α := (a.take ((i + 1) * b)).drop (i * b)

/-- `eval_accuracies`, `scripts/train.py:239-249`: one key for each matrix. `sigma` is `metric.sigma_accuracy` after decoding of
the parameters; the arrays have the same length. -/
def evalAccuracies {Key H M S : Type*} (splitN : Key → ℕ → List Key) (sigma : Key → H → M → S) (key : Key) (hs : List H)
    (moduli : List M) : List S :=
  List.zipWith (fun k x => sigma k x.1 x.2) (splitN key hs.length) (hs.zip moduli)

/-- The loop over batches `i, i + 1, …`, `scripts/train.py:254-258`. -/
def evalLoop {Key H M S : Type*} (split : Key → Key × Key) (splitN : Key → ℕ → List Key) (sigma : Key → H → M → S)
    (hs : List H) (moduli : List M) (batchSize : ℕ) : ℕ → ℕ → Key → List S
  | 0, _, _ => []
  | todo + 1, i, rns =>
    let (rns, key) := prngNext split rns
    evalAccuracies splitN sigma key (slice hs batchSize i) (slice moduli batchSize i) ++
      evalLoop split splitN sigma hs moduli batchSize todo (i + 1) rns

/-- The accuracies before they are given the shape of the grid, `scripts/train.py:251-260`. `np.concatenate` raises if there is
no batch. -/
def evaluate {Key H M S : Type*} (split : Key → Key × Key) (splitN : Key → ℕ → List Key) (sigma : Key → H → M → S)
    (hs : List H) (moduli : List M) (batchSize : ℕ) (rns : Key) : Except PyErr (List S) :=
  if batchSize = 0 then .error .zeroDivisionError
  else
    let batches := ⌈(moduli.length : ℚ) / batchSize⌉.toNat
    if batches = 0 then .error .valueError else .ok (evalLoop split splitN sigma hs moduli batchSize batches 0 rns)

end Cyjax.TrainScript
