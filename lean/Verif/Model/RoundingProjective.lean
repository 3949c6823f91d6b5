import Verif.Model.RoundingAccuracy
import Verif.Model.Projective

/-! # Model of the functions on projective space in rounded arithmetic -/

namespace Cyjax.Projective

open Cyjax.Util Cyjax.Fl

/-- `change_chart` in the given arithmetic, `cyjax/projective.py:57-69`. -/
def changeChartF (D : DivAbs) {n : ℕ} (affine : Fin (n + 1) → ℂ) (oldPatch newPatch : ℤ) : Fin (n + 1) → ℂ :=
  let p := pop affine (newPatch - if oldPatch < newPatch then 1 else 0)
  let z0 := p.1
  let z := p.2
  insert1d (fun i => D.div (z i) z0) (fun _ : Fin 1 => D.div 1 z0)
    (oldPatch - if newPatch < oldPatch then 1 else 0)

/-- `hom_to_affine` with a given patch in the given arithmetic, `cyjax/projective.py:94,99`. -/
def homToAffineF (D : DivAbs) {n : ℕ} (hom : Fin (n + 1) → ℂ) (patch : ℤ) : Fin n → ℂ :=
  let p := pop hom patch
  fun i => D.div (p.2 i) p.1

/-- `hom_to_affine` without a patch in the given arithmetic, `cyjax/projective.py:87-97`: the absolute values are rounded too. -/
noncomputable def homToAffineAutoF (D : DivAbs) {n : ℕ} (hom : Fin (n + 1) → ℂ) : (Fin n → ℂ) × Fin (n + 1) :=
  let patch := argmax fun i => D.abs (hom i)
  (homToAffineF D hom (patch : ℕ), patch)

/-- `1 + jnp.sum(z * z_c)` in the given arithmetic, `cyjax/projective.py:121`; `t` is the order of the sum. -/
def norm2p1F (A : Arith) {n : ℕ} (t : RTree (Fin n)) (z zc : Fin n → ℂ) : ℂ :=
  A.add 1 (t.eval A.add fun k => A.mul (z k) (zc k))

/-- `_fs_metric` in the given arithmetic, `cyjax/projective.py:119-123`. -/
def fsMetricF (A : Arith) (D : DivAbs) {n : ℕ} (t : RTree (Fin n)) (z zc : Fin n → ℂ) : Matrix (Fin n) (Fin n) ℂ :=
  let norm2p1 := norm2p1F A t z zc
  fun i j => D.div (A.add (A.mul (if i = j then 1 else 0) norm2p1) (-A.mul (zc i) (z j))) (intPow A.mul norm2p1 2)

/-- `fs_metric(zs)` at one point in the given arithmetic, `cyjax/projective.py:127-154`; conjugation is exact. -/
noncomputable def fsMetricAtF (A : Arith) (D : DivAbs) {n : ℕ} (t : RTree (Fin n)) (z : Fin n → ℂ) : Matrix (Fin n) (Fin n) ℂ :=
  fsMetricF A D t z (conjArr z)

/-- `fs_potential(zs, hom)` at one point in the given arithmetic, `cyjax/projective.py:157-197`. -/
noncomputable def fsPotentialAtF (A : Arith) (F : Funs) {n : ℕ} (t : RTree (Fin n)) (z : Fin n → ℂ) (hom : Bool) : ℂ :=
  if hom then F.log (t.eval A.add fun k => A.mul (z k) (conjArr z k)) else F.log (norm2p1F A t z (conjArr z))

end Cyjax.Projective
