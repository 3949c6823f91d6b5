import Verif.Model.RoundingSections
import Verif.Model.Ml

/-! # Model of the Cholesky parametrisation in rounded arithmetic -/

namespace Cyjax.Ml

open Cyjax.Fl
open Cyjax.Polynomial (PyErr)

/-- `cholesky_decode`, `cyjax/ml.py:31-59`, in the given arithmetic. `t` is the order of summation of the matrix product of line 59, the
same for all entries. Filling the matrix (lines 56-58) and complex conjugation are exact. -/
def choleskyDecodeF (A : Arith) {n : ℕ} (t : RTree (Fin n)) (diag : Fin n → ℝ) (upper : List ℂ) :
    Except PyErr (Matrix (Fin n) (Fin n) ℂ) :=
  match setEntries (Matrix.diagonal fun i => (diag i : ℂ)) (triuIndices n) upper with
  | .error e => .error e
  | .ok mat => .ok (Matrix.of fun i j => t.eval A.add fun k => A.mul (mat i k) (starRingEnd ℂ (mat j k)))

end Cyjax.Ml
