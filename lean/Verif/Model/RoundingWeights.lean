import Verif.Model.RoundingProjective
import Verif.Model.Variety

/-! # Model of the weights in rounded arithmetic -/

namespace Cyjax.Variety

open Cyjax.Polynomial Cyjax.Util Cyjax.Projective Cyjax.Differential Cyjax.Fl
open scoped ComplexConjugate

/-- `jnp.argmax(jnp.abs(grad_def))` with rounded absolute values, `cyjax/variety.py:212-213`. -/
noncomputable def chooseDepF (D : DivAbs) {n : ℕ} (grad : Fin (n + 1) → ℂ) : Option ℤ → ℤ
  | some d => d
  | none => ((argmax fun i => D.abs (grad i) : Fin (n + 1)) : ℕ)

/-- The product of two matrices in the given arithmetic (`@`); `t` is the order of the sums. -/
def matMulF (A : Arith) {l m n : ℕ} (t : RTree (Fin m)) (X : Matrix (Fin l) (Fin m) ℂ) (Y : Matrix (Fin m) (Fin n) ℂ) :
    Matrix (Fin l) (Fin n) ℂ := Matrix.of fun i j => t.eval A.add fun k => A.mul (X i k) (Y k j)

/-- `g_ind` of `sample_intersect_weights` in the given arithmetic, `cyjax/variety.py:215-221`; `t` is the order of the sum in the
metric, `ta` and `tb` are those of the two products. Conjugation and the change of sign are exact. -/
noncomputable def inducedF (A : Arith) (D : DivAbs) {n : ℕ} (t ta tb : RTree (Fin (n + 1))) (gradDef zs : Fin (n + 1) → ℂ) (dep : ℤ) :
    Matrix (Fin n) (Fin n) ℂ :=
  let p := pop gradDef dep
  let gFs := fsMetricAtF A D t zs
  let eye : Fin n → Fin n → ℂ := fun i j => if i = j then 1 else 0
  let jac : Matrix (Fin n) (Fin (n + 1)) ℂ := insertCol1 eye (fun i => D.div (-p.2 i) p.1) dep
  matMulF A tb (matMulF A ta jac gFs) jac.conjTranspose

/-- Body of `sample_intersect_weights` in the given arithmetic, `cyjax/variety.py:210-229`, for a computed gradient: `dvol`, `det` and
`jnp.abs(grad_dep) ** 2`. `detF` is the determinant of the library. Real arrays are complex ones of which the real part is taken. -/
noncomputable def weightPartsF (A : Arith) (D : DivAbs) {n : ℕ} (detF : Matrix (Fin n) (Fin n) ℂ → ℂ) (t ta tb : RTree (Fin (n + 1)))
    (gradDef zs : Fin (n + 1) → ℂ) (dependent : Option ℤ) (vol : Option ℝ) : ℂ × ℂ × ℂ :=
  let dep := chooseDepF D gradDef dependent
  let gradDep := (pop gradDef dep).1
  let gInd := inducedF A D t ta tb gradDef zs dep
  let det : ℂ := ((detF gInd).re : ℂ)
  let sq := intPow A.mul (D.abs gradDep) 2
  let dvol := D.div 1 sq
  match vol with
  | none => (dvol, det, sq)
  | some v => (A.mul dvol v, A.mul det (A.const (n.factorial / Real.pi ^ n)), sq)

/-- `sample_intersect_weights` with `separate=False` in the given arithmetic, `cyjax/variety.py:195-231`, for a computed gradient. -/
noncomputable def weightF (A : Arith) (D : DivAbs) {n : ℕ} (detF : Matrix (Fin n) (Fin n) ℂ → ℂ) (t ta tb : RTree (Fin (n + 1)))
    (gradDef zs : Fin (n + 1) → ℂ) (dependent : Option ℤ) (vol : Option ℝ) : ℝ :=
  let w := weightPartsF A D detF t ta tb gradDef zs dependent vol
  (D.div 1 (A.mul w.2.1 w.2.2)).re

/-- `sample_intersect_weights` with `separate=True` in the given arithmetic, `cyjax/variety.py:195-230`, for a computed gradient. -/
noncomputable def weightSeparateF (A : Arith) (D : DivAbs) {n : ℕ} (detF : Matrix (Fin n) (Fin n) ℂ → ℂ) (t ta tb : RTree (Fin (n + 1)))
    (gradDef zs : Fin (n + 1) → ℂ) (dependent : Option ℤ) (vol : Option ℝ) : ℝ × ℝ :=
  let w := weightPartsF A D detF t ta tb gradDef zs dependent vol
  (w.1.re, w.2.1.re)

end Cyjax.Variety
