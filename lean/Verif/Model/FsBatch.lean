import Verif.Model.Projective
import Verif.Model.UtilMisc

/-! # Model of `flatten_coord` with conjugates (`cyjax/util.py`) and of `fs_metric`, `fs_potential` on arrays
(`cyjax/projective.py`) -/

namespace Cyjax

namespace Util

/-- `util.flatten_coord` with `need_c=True`, `cyjax/util.py:143-152`: the conjugates are computed (line 148) or given
(line 150), must have the shape of the coordinates (line 151; `none` is the `AssertionError`), and both arrays are
reshaped in the same way. -/
def flattenCoordC {α : Type*} (conj : α → α) (zs : Nd α) (zsC : Option (Nd α)) : Option ((Nd α × Nd α) × List ℕ) :=
  let zs := zs.atleast1d
  let oldShape := zs.shape.dropLast
  let dim := zs.shape.getLastD 0
  let zc : Nd α := match zsC with
    | none => ⟨zs.shape, fun i => conj (zs.data i)⟩
    | some c => c.atleast1d
  if zs.shape = zc.shape then do
    let a ← zs.reshapeInfer dim
    let b ← zc.reshapeInfer dim
    return ((a, b), oldShape)
  else none

/-- `jax.vmap(f)(a, b)` over the leading axes of two arrays of shape `(n, d)`. Used in
`cyjax/projective.py:153,194,196`. -/
def vmapRows2 {α β : Type*} {d : ℕ} (out : List ℕ) (f : (Fin d → α) → (Fin d → α) → Fin out.prod → β)
    (n : ℕ) (a b : Fin (n * d) → α) : Nd β :=
  vmapRows (d := d) out (fun p => f (fun i => (p i).1) fun i => (p i).2) n fun i => (a i, b i)

/-- The common structure of `fs_metric` and `fs_potential`, `cyjax/projective.py:152-154,192-197`: flatten coordinates
and conjugates, `vmap` a function of one point, unflatten. `d` is the static size of the last axis. -/
def batchApplyC {α β : Type*} (conj : α → α) (d : ℕ) (out : List ℕ)
    (f : (Fin d → α) → (Fin d → α) → Fin out.prod → β) (zs : Nd α) (zsC : Option (Nd α)) : Option (Nd β) :=
  match flattenCoordC conj zs zsC with
  | none => none
  | some ((a, b), old) =>
    if h : a.shape = [a.shape.headD 0, d] ∧ b.shape = [a.shape.headD 0, d] then
      unflattenCoord (vmapRows2 out f (a.shape.headD 0) (fun i => a.data (i.cast (by rw [h.1]; simp)))
        fun i => b.data (i.cast (by rw [h.2]; simp))) old
    else none

end Util

namespace Projective

open Cyjax.Util

/-- The row-major entries of a matrix. -/
def rowMajor {β : Type*} {r c : ℕ} (m : Matrix (Fin r) (Fin c) β) (q : Fin [r, c].prod) : β :=
  have hq : (q : ℕ) < r * c := by have := q.2; simpa using this
  m ⟨(q : ℕ) / c, Nat.div_lt_of_lt_mul (by rw [mul_comm]; exact hq)⟩
    ⟨(q : ℕ) % c, Nat.mod_lt _ (Nat.pos_of_ne_zero fun h => by simp [h] at hq)⟩

/-- `fs_metric(zs, zs_c)`, `cyjax/projective.py:127-154`, on an array of coordinates with last axis of size `d`. -/
noncomputable def fsMetricNd (d : ℕ) (zs : Nd ℂ) (zsC : Option (Nd ℂ)) : Option (Nd ℂ) :=
  batchApplyC (starRingEnd ℂ) d [d, d] (fun z zc => rowMajor (fsMetric z zc)) zs zsC

/-- `fs_potential(zs, zs_c, hom)`, `cyjax/projective.py:168-197`, on an array of coordinates with last axis of size
`d`. -/
noncomputable def fsPotentialNd (d : ℕ) (zs : Nd ℂ) (zsC : Option (Nd ℂ)) (hom : Bool) : Option (Nd ℂ) :=
  if hom then batchApplyC (starRingEnd ℂ) d [] (fun z zc _ => fsPotentialHom z zc) zs zsC
  else batchApplyC (starRingEnd ℂ) d [] (fun z zc _ => fsPotential z zc) zs zsC

end Projective

end Cyjax
