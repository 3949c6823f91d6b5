import Verif.Model.Geometry
import Mathlib.Data.List.FinRange

/-! # Model of `AlgebraicMetric.sigma_accuracy` and `donaldson_step` of `cyjax/donaldson.py`

The sampled points enter through the values computed at them: `etas` and `weights`, or the sections `mon` and
`weights`. All theorems are for every value of these. -/

namespace Cyjax.Donaldson

open Cyjax.Polynomial (PyErr)
open scoped ComplexConjugate

variable {N : ℕ}

/-- `jnp.mean` of a one-dimensional complex array; the mean of an empty array (NaN in the code) is 0 here. -/
noncomputable def meanC {n : ℕ} (x : Fin n → ℂ) : ℂ := (∑ i, x i) / (n : ℂ)

/-- `sigma_accuracy`, `cyjax/donaldson.py:843-848`, given the values of `eta` and of the weights at the sampled points.
The weights are real (`sample_intersect_weights`), so `.real` of their mean is the mean. -/
noncomputable def sigmaAccuracy {count : ℕ} (etas : Fin count → ℂ) (weights : Fin count → ℝ) : ℝ :=
  let volK := meanC fun i => etas i * weights i
  let volCy : ℝ := (meanC fun i => (weights i : ℂ)).re
  ((∑ i, ‖1 - etas i * volCy / volK‖ * weights i) / count) / volCy

/-- The element type of the array `h`. -/
inductive DType where
  | real
  | complex
deriving DecidableEq

/-- `h = (h + h.T.conj()) / 2`, `cyjax/donaldson.py:866`. -/
noncomputable def symmetrise (h : Matrix (Fin N) (Fin N) ℂ) : Matrix (Fin N) (Fin N) ℂ :=
  Matrix.of fun a b => (h a b + conj (h b a)) / 2

/-- `den` of `batch_step` at one point, `cyjax/donaldson.py:879`. -/
noncomputable def stepDen (h : Matrix (Fin N) (Fin N) ℂ) (mon : Fin N → ℂ) : ℝ :=
  (∑ a, ∑ b, mon a * conj (mon b) * h a b).re

/-- `delta_T` of `batch_step`, `cyjax/donaldson.py:875-880`, given the sections `mon` and the weights at the points of
the batch. Simplification: `nan_to_num` (line 873) is the identity on real numbers. -/
noncomputable def deltaT {size : ℕ} (h : Matrix (Fin N) (Fin N) ℂ) (mon : Fin size → Fin N → ℂ)
    (weights : Fin size → ℝ) : Matrix (Fin N) (Fin N) ℂ :=
  Matrix.of fun a b => meanC fun i => mon i a * conj (mon i b) * ((weights i / stepDen h (mon i) : ℝ) : ℂ)

/-- The loop of `donaldson_step` and the normalisation, `cyjax/donaldson.py:865-885`: the matrix `T`. `mon i` and
`weights i` are the values at the points drawn with `keys[i]`. -/
noncomputable def stepT {batches size : ℕ} (h : Matrix (Fin N) (Fin N) ℂ) (volCy : ℝ)
    (mon : Fin batches → Fin size → Fin N → ℂ) (weights : Fin batches → Fin size → ℝ) : Matrix (Fin N) (Fin N) ℂ :=
  let hs := symmetrise h
  let T := (List.finRange batches).foldl
    (fun T i => Matrix.of fun a b => T a b + deltaT hs (mon i) (weights i) a b / (batches : ℂ)) 0
  Matrix.of fun a b => T a b * ((N : ℂ) / volCy)

/-- Type of a sum, product or quotient of arrays of the given types (the promotion rule of `jax.numpy`). -/
def DType.promote : DType → DType → DType
  | .real, .real => .real
  | _, _ => .complex

/-- Type of the value returned by `batch_step` for a carry `T` and a matrix `h` of the given types,
`cyjax/donaldson.py:869-881`: the sections at complex points are complex (line 875), `.real` of the denominator and the
weights are real (lines 872, 879), so `delta_T` is complex. -/
def stepType (T : DType) : DType :=
  let mon := DType.complex
  let num := mon.promote mon
  let delta := num.promote .real
  T.promote delta

/-- The carry of `jax.lax.fori_loop` must keep its type: the loop is rejected with a `TypeError` when the type of the
value returned by the body differs from that of the initial value (checked by tracing, hence for any number of
iterations). -/
def foriLoopCheck (init : DType) (body : DType → DType) : Except PyErr Unit :=
  if body init = init then .ok () else .error .typeError

/-- `donaldson_step`, `cyjax/donaldson.py:850-887`. `T` starts as `zeros_like(h)`, with the type of `h` (line 865).
Simplification: exact inverse; Mathlib's inverse of a singular matrix is zero where `jnp.linalg.inv` has no meaningful
value. -/
noncomputable def donaldsonStep {batches size : ℕ} (dtype : DType) (h : Matrix (Fin N) (Fin N) ℂ) (volCy : ℝ)
    (mon : Fin batches → Fin size → Fin N → ℂ) (weights : Fin batches → Fin size → ℝ) :
    Except PyErr (Matrix (Fin N) (Fin N) ℂ) :=
  match foriLoopCheck dtype stepType with
  | .error e => .error e
  | .ok _ => .ok (stepT h volCy mon weights)⁻¹.transpose

end Cyjax.Donaldson
