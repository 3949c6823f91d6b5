import Verif.Model.Util
import Mathlib.Analysis.SpecialFunctions.Complex.Log
import Mathlib.LinearAlgebra.Matrix.Defs
import Mathlib.Data.List.FinRange

/-! # Model of `cyjax/projective.py` -/

namespace Cyjax.Projective

open Cyjax.Util
open scoped BigOperators

/-- `index_hom_to_affine`, `cyjax/projective.py:30-39`. -/
def indexHomToAffine (patch homIndex : ℤ) : ℤ :=
  if patch ≤ homIndex then homIndex - 1 else homIndex

/-- `index_affine_to_hom`, `cyjax/projective.py:43-52`. -/
def indexAffineToHom (patch index : ℤ) : ℤ :=
  if patch ≤ index then index + 1 else index

section Field

variable {K : Type*} [Field K]

/-- `change_chart`, `cyjax/projective.py:57-69`, for one point (`auto_vmap` is pointwise). The
comparisons are `0`/`1` valued integers. The static length `n + 1` excludes the empty coordinate
array, on which `pop` raises. -/
def changeChart {n : ℕ} (affine : Fin (n + 1) → K) (oldPatch newPatch : ℤ) : Fin (n + 1) → K :=
  let p := pop affine (newPatch - if oldPatch < newPatch then 1 else 0)
  let z0 := p.1
  let z := p.2
  insert1d (fun i => z i / z0) (fun _ : Fin 1 => 1 / z0)
    (oldPatch - if newPatch < oldPatch then 1 else 0)

/-- `hom_to_affine` with a given patch, `cyjax/projective.py:94,99`. -/
def homToAffine {n : ℕ} (hom : Fin (n + 1) → K) (patch : ℤ) : Fin n → K :=
  let p := pop hom patch
  fun i => p.2 i / p.1

/-- `affine_to_hom`, `cyjax/projective.py:104-116`, for a rank-1 array of coordinates. -/
def affineToHom {n : ℕ} (affine : Fin n → K) (patch : ℤ) : Fin (n + 1) → K :=
  insert1d affine (fun _ : Fin 1 => 1) patch

/-- `_fs_metric`, `cyjax/projective.py:119-123`, with independent conjugate coordinates. -/
def fsMetric {n : ℕ} (z zc : Fin n → K) : Matrix (Fin n) (Fin n) K :=
  let norm2p1 := 1 + ∑ k, z k * zc k
  fun i j => ((if i = j then 1 else 0) * norm2p1 - zc i * z j) / norm2p1 ^ 2

end Field

open Classical in
/-- `jnp.argmax` on a non-empty real vector: scan from the left, keep the first maximum. -/
noncomputable def argmax {n : ℕ} (v : Fin (n + 1) → ℝ) : Fin (n + 1) :=
  (List.finRange (n + 1)).foldl (fun best i => if v best < v i then i else best) 0

/-- `hom_to_affine` without a patch, `cyjax/projective.py:87-97`. -/
noncomputable def homToAffineAuto {n : ℕ} (hom : Fin (n + 1) → ℂ) : (Fin n → ℂ) × Fin (n + 1) :=
  let patch := argmax fun i => ‖hom i‖
  (homToAffine hom (patch : ℕ), patch)

/-- Complex conjugation of an array, `zs.conj()`. -/
noncomputable def conjArr {n : ℕ} (z : Fin n → ℂ) : Fin n → ℂ := fun i => (starRingEnd ℂ) (z i)

/-- `fs_metric(zs)` at one point with `zs_c` computed, `cyjax/projective.py:127-154`
(flattening and `vmap` are `Util.batchApply`, see C09). -/
noncomputable def fsMetricAt {n : ℕ} (z : Fin n → ℂ) : Matrix (Fin n) (Fin n) ℂ :=
  fsMetric z (conjArr z)

/-- `_fs_potential`, `cyjax/projective.py:157-159`. -/
noncomputable def fsPotential {n : ℕ} (z zc : Fin n → ℂ) : ℂ := Complex.log (1 + ∑ k, z k * zc k)

/-- `_fs_potential_hom`, `cyjax/projective.py:162-164`. -/
noncomputable def fsPotentialHom {n : ℕ} (z zc : Fin n → ℂ) : ℂ := Complex.log (∑ k, z k * zc k)

/-- `fs_potential(zs, hom)` at one point with `zs_c` computed, `cyjax/projective.py:168-197`. -/
noncomputable def fsPotentialAt {n : ℕ} (z : Fin n → ℂ) (hom : Bool) : ℂ :=
  if hom then fsPotentialHom z (conjArr z) else fsPotential z (conjArr z)

end Cyjax.Projective
