import Verif.Model.RoundingWeights
import Verif.Model.AlgebraicMetric

/-! # Model of the algebraic metric and of `eta` in rounded arithmetic -/

namespace Cyjax.Donaldson

open Cyjax.Fl Cyjax.Util
open scoped ComplexConjugate

variable {N n : ℕ}

/-- The way a contraction `einsum('i,ij,j', x, h, y)` of three arrays is computed: pairwise, beginning with `x` and `h` or with `h` and
`y`, and the orders of summation over `i` and over `j`. (`einsum` decides on it from the shapes; a first step with `x` and `y`, an outer
product, is not covered.) -/
structure Path (N : ℕ) where
  left : Bool
  ti : RTree (Fin N)
  tj : RTree (Fin N)

/-- The contractions of `cyjax/donaldson.py:428-430`, `:435-437`, `:447-449` and `:623` for fixed free indices in the given arithmetic. For
the array of diagonal entries the products are taken from the left. -/
def contractF (A : Arith) (P : Path N) (h : HArg N) (x y : Fin N → ℂ) : ℂ :=
  match h with
  | .diag h => P.ti.eval A.add fun i => A.mul (A.mul (x i) (h i)) (y i)
  | .full h =>
    if P.left then P.tj.eval A.add fun j => A.mul (P.ti.eval A.add fun i => A.mul (x i) (h i j)) (y j)
    else P.ti.eval A.add fun i => A.mul (x i) (P.tj.eval A.add fun j => A.mul (h i j) (y j))

/-- `g_proj` in the given arithmetic from computed sections and derivatives: `psi`, `psi_h`, `psi_a`, `psi_ha` and `g_proj`,
`cyjax/donaldson.py:426-449` and `:481-484`. `P`, `P1`, `P2` are the ways the three contractions are computed. Conjugation and the change
of sign are exact. -/
noncomputable def gProjF (A : Arith) (D : DivAbs) (P P1 P2 : Path N) (h : HArg N) (s : Fin N → ℂ) (s1 : Fin N → Fin n → ℂ) (degree : ℕ) :
    Matrix (Fin n) (Fin n) ℂ :=
  let psi := contractF A P h s (conjS s)
  let psiH : Fin n → ℂ := fun a => contractF A P1 h (fun i => s1 i a) (conjS s)
  let psiA : Fin n → ℂ := fun a => conj (psiH a)
  let psiHA : Fin n → Fin n → ℂ := fun a b => contractF A P2 h (fun i => s1 i a) (fun i => conjS1 s1 i b)
  let d := A.mul degree (A.const Real.pi)
  Matrix.of fun i j =>
    D.div (A.add (D.div (psiHA i j) psi) (-D.div (A.mul (psiH i) (psiA j)) (intPow A.mul psi 2))) d

/-- `jac`, `cyjax/donaldson.py:604-606` and `cyjax/differential.py:97-103`, in the given arithmetic. -/
noncomputable def jacEmbedF (D : DivAbs) (gradDef : Fin (n + 1) → ℂ) (dependent : ℤ) : Matrix (Fin n) (Fin (n + 1)) ℂ :=
  let jac : Fin n → Fin n → ℂ := fun i j => if i = j then 1 else 0
  let p := pop gradDef dependent
  insertCol1 jac (fun i => D.div (-p.2 i) p.1) dependent

/-- `g_loc`, `cyjax/donaldson.py:621-623`, in the given arithmetic; `PJ` is the way the contraction is computed. -/
noncomputable def gLocF (A : Arith) (D : DivAbs) (PJ : Path (n + 1)) (gProj : Matrix (Fin (n + 1)) (Fin (n + 1)) ℂ)
    (gradDef : Fin (n + 1) → ℂ) (dependent : ℤ) : Matrix (Fin n) (Fin n) ℂ :=
  Matrix.of fun r s => contractF A PJ (.full gProj) (jacEmbedF D gradDef dependent r) fun j => conj (jacEmbedF D gradDef dependent s j)

/-- `eta`, `cyjax/donaldson.py:683-685`, in the given arithmetic from computed sections, their derivatives and the gradient, with the
choice of the dependent coordinate of `cyjax/donaldson.py:379-388`. `detF` is the determinant of the library. -/
noncomputable def etaF (A : Arith) (D : DivAbs) (detF : Matrix (Fin n) (Fin n) ℂ → ℂ) (P P1 P2 : Path N) (PJ : Path (n + 1)) (h : HArg N)
    (degree : ℕ) (s : Fin N → ℂ) (s1 : Fin N → Fin (n + 1) → ℂ) (gradDef : Fin (n + 1) → ℂ) (dependent : Option ℤ) : ℂ :=
  let dep := Variety.chooseDepF D gradDef dependent
  A.mul (detF (gLocF A D PJ (gProjF A D P P1 P2 h s s1 degree) gradDef dep)) (intPow A.mul (D.abs (jget gradDef dep)) 2)

end Cyjax.Donaldson
