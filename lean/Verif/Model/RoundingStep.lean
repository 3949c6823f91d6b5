import Verif.Model.RoundingAccuracy
import Verif.Model.DonaldsonStep

/-! # Model of `donaldson_step` in rounded arithmetic -/

namespace Cyjax.Donaldson

open Cyjax.Fl
open scoped ComplexConjugate

variable {N : ℕ}

/-- `h = (h + h.T.conj()) / 2` in the given arithmetic, `cyjax/donaldson.py:866`; conjugation is exact. -/
noncomputable def symmetriseF (A : Arith) (D : DivAbs) (h : Matrix (Fin N) (Fin N) ℂ) : Matrix (Fin N) (Fin N) ℂ :=
  Matrix.of fun a b => D.div (A.add (h a b) (conj (h b a))) 2

/-- `den` of `batch_step` at one point in the given arithmetic, `cyjax/donaldson.py:879`. `einsum` contracts in pairs: the sections
with the matrix, then the result with the conjugate sections; `ta` and `tb` are the orders of the two sums. -/
noncomputable def stepDenF (A : Arith) (ta tb : RTree (Fin N)) (h : Matrix (Fin N) (Fin N) ℂ) (mon : Fin N → ℂ) : ℝ :=
  (tb.eval A.add fun b => A.mul (ta.eval A.add fun a => A.mul (mon a) (h a b)) (conj (mon b))).re

/-- `delta_T` of `batch_step` in the given arithmetic, `cyjax/donaldson.py:875-880`; `t` is the order of summation of the mean. -/
noncomputable def deltaTF (A : Arith) (D : DivAbs) (ta tb : RTree (Fin N)) {size : ℕ} (t : RTree (Fin size))
    (h : Matrix (Fin N) (Fin N) ℂ) (mon : Fin size → Fin N → ℂ) (weights : Fin size → ℝ) : Matrix (Fin N) (Fin N) ℂ :=
  Matrix.of fun a b => meanF A D t fun i =>
    A.mul (A.mul (mon i a) (conj (mon i b))) (D.div (weights i) (stepDenF A ta tb h (mon i)))

/-- The loop of `donaldson_step` and the normalisation in the given arithmetic, `cyjax/donaldson.py:865-885`: the matrix `T`. -/
noncomputable def stepTF (A : Arith) (D : DivAbs) (ta tb : RTree (Fin N)) {batches size : ℕ} (t : RTree (Fin size))
    (h : Matrix (Fin N) (Fin N) ℂ) (volCy : ℝ) (mon : Fin batches → Fin size → Fin N → ℂ)
    (weights : Fin batches → Fin size → ℝ) : Matrix (Fin N) (Fin N) ℂ :=
  let hs := symmetriseF A D h
  let T := (List.finRange batches).foldl
    (fun T i => Matrix.of fun a b => A.add (T a b) (D.div (deltaTF A D ta tb t hs (mon i) (weights i) a b) batches)) 0
  Matrix.of fun a b => A.mul (T a b) (D.div N volCy)

/-- `donaldson_step` in the given arithmetic, `cyjax/donaldson.py:850-887`, for a complex array `h`; `inv` is the numerical
inverse of the library. -/
noncomputable def donaldsonStepF (A : Arith) (D : DivAbs) (inv : Matrix (Fin N) (Fin N) ℂ → Matrix (Fin N) (Fin N) ℂ)
    (ta tb : RTree (Fin N)) {batches size : ℕ} (t : RTree (Fin size)) (h : Matrix (Fin N) (Fin N) ℂ) (volCy : ℝ)
    (mon : Fin batches → Fin size → Fin N → ℂ) (weights : Fin batches → Fin size → ℝ) : Matrix (Fin N) (Fin N) ℂ :=
  (inv (stepTF A D ta tb t h volCy mon weights)).transpose

end Cyjax.Donaldson
