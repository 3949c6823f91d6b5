import Verif.Model.FsBatch
import Verif.Model.AlgebraicMetric

/-! # Model of batched calls: the decorator `auto_vmap`, and the methods of `VarietySingle` that are batched without it
(`cyjax/variety.py`) -/

namespace Cyjax

/-! ## `auto_vmap` (package `jax_autovmap`, used in `cyjax/projective.py`, `differential.py`, `polynomial.py`,
`variety.py`, `donaldson.py`)

`@auto_vmap(zs=1, params=1, patch=0)` declares the ranks that the function expects. Axes in front of these are batch axes;
those of the arguments are broadcast against each other as numpy does, and the function is applied to every entry. Arguments
that are `None` or not named in the decorator are passed on as they are. This is the documented behaviour of the package, whose
source is not part of the repository. -/

/-- An argument with batch axes. `dims` are the sizes of the batch axes, from the last to the first, and `get i` is the value at
the batch index `i`, where `i k` is the index in the axis `k` (also counted from the last). -/
structure Batch (α : Type*) where
  dims : List ℕ
  get : (ℕ → ℕ) → α

/-- Size of an axis; axes that an array does not have count as axes of size one. -/
def sizeAt (s : List ℕ) (k : ℕ) : ℕ := s.getD k 1

/-- `np.broadcast_shapes(s, t)`; `none` is the error for shapes that do not fit. -/
def bcast2 : List ℕ → List ℕ → Option (List ℕ)
  | [], t => some t
  | s, [] => some s
  | a :: s, b :: t =>
    if a = b ∨ b = 1 then (bcast2 s t).map (a :: ·)
    else if a = 1 then (bcast2 s t).map (b :: ·)
    else none

/-- `np.broadcast_shapes` of a list of shapes. -/
def bcast : List (List ℕ) → Option (List ℕ)
  | [] => some []
  | s :: l => match bcast l with
    | none => none
    | some t => bcast2 s t

/-- The index of an array that belongs to an index of the broadcast array. -/
def clip (s : List ℕ) (i : ℕ → ℕ) (k : ℕ) : ℕ := if sizeAt s k = 1 then 0 else i k

/-- The entry of an argument that is used for the entry `i` of the result. -/
def Batch.at {α : Type*} (a : Batch α) (i : ℕ → ℕ) : α := a.get (clip a.dims i)

/-- An optional argument that may be `None`. -/
def atOpt {α : Type*} (a : Option (Batch α)) (i : ℕ → ℕ) : Option α := a.map (·.at i)

/-- The shape of an optional argument; `None` takes no part in the broadcasting. -/
def dimsOpt {α : Type*} (a : Option (Batch α)) : List ℕ := match a with
  | none => []
  | some a => a.dims

/-- The function made by `auto_vmap`: `shapes` are the batch shapes of the arguments, `f i` is the value of the function at
their entries that belong to `i`. -/
def autoVmap {β : Type*} (shapes : List (List ℕ)) (f : (ℕ → ℕ) → β) : Option (Batch β) :=
  (bcast shapes).map fun r => ⟨r, f⟩

/-! ## Batches of points on a variety -/

open Cyjax.Polynomial Cyjax.Variety Cyjax.Differential Cyjax.Projective Cyjax.Util

/-- `grad_defining` on batches, `cyjax/variety.py:135-138`. An entry that is an error stands for the error that the call
raises. -/
noncomputable def gradDefiningB {m : ℕ} (V : HomKind) (zs : Batch (Fin m → ℂ)) (params : Batch Val)
    (patch : Option (Batch PatchArg)) : Option (Batch (Except PyErr (Fin m → ℂ))) :=
  autoVmap [zs.dims, params.dims, dimsOpt patch] fun i => gradDefining V (zs.at i) (params.at i) (atOpt patch i)

/-- `jnp.argmax(jnp.abs(grad_def), axis=-1)`, `cyjax/variety.py:176`. -/
noncomputable def argmaxB {n : ℕ} (g : Batch (Except PyErr (Fin (n + 1) → ℂ))) : Batch (Except PyErr ℤ) where
  dims := g.dims
  get i := match g.get i with
    | .error e => .error e
    | .ok g => .ok ((argmax fun j => ‖g j‖ : Fin (n + 1)) : ℕ)

/-- `differential.induced_metric` on batches, `cyjax/differential.py:106-154`. -/
noncomputable def inducedMetricDiffB {n : ℕ} (metric : Batch (Matrix (Fin (n + 1)) (Fin (n + 1)) ℂ))
    (g : Batch (Except PyErr (Fin (n + 1) → ℂ))) (dep : Batch (Except PyErr ℤ))
    (gc : Option (Batch (Except PyErr (Fin (n + 1) → ℂ)))) : Option (Batch (Except PyErr (Matrix (Fin n) (Fin n) ℂ))) :=
  autoVmap [metric.dims, g.dims, dep.dims, dimsOpt gc] fun i => do
    let grad ← g.at i
    let d ← dep.at i
    match atOpt gc i with
    | none => return inducedMetric (metric.at i) grad d none
    | some gradC => return inducedMetric (metric.at i) grad d (some (← gradC))

/-- `VarietySingle.induced_metric` on batches, `cyjax/variety.py:166-185`; not decorated with `auto_vmap`. The dependent
coordinates used are returned with the metric. -/
noncomputable def inducedMetricB {n : ℕ} (V : HomKind) (metric : Batch (Matrix (Fin (n + 1)) (Fin (n + 1)) ℂ))
    (zs : Batch (Fin (n + 1) → ℂ)) (params : Batch Val) (patch : Option (Batch PatchArg))
    (zsC : Option (Batch (Fin (n + 1) → ℂ))) (dependent : Option (Batch ℤ)) :
    Option (Batch (Except PyErr (Matrix (Fin n) (Fin n) ℂ)) × Batch (Except PyErr ℤ)) := do
  let g ← gradDefiningB V zs params patch
  let dep : Batch (Except PyErr ℤ) := match dependent with
    | none => argmaxB g
    | some d => ⟨d.dims, fun i => .ok (d.get i)⟩
  match zsC with
  | none => return (← inducedMetricDiffB metric g dep none, dep)
  | some zc =>
    let gc ← gradDefiningB V zc ⟨params.dims, fun i => conjVal (params.get i)⟩ patch
    return (← inducedMetricDiffB metric g dep (some gc), dep)

/-- `fs_metric` on batches, `cyjax/projective.py:127-154`: entry by entry; conjugate coordinates must have the same shape
(`flatten_coord`, `cyjax/util.py:151`). That this is what flattening and `vmap` do is property C09. -/
noncomputable def fsMetricB {d : ℕ} (zs : Batch (Fin d → ℂ)) (zsC : Option (Batch (Fin d → ℂ))) :
    Option (Batch (Matrix (Fin d) (Fin d) ℂ)) :=
  match zsC with
  | none => some ⟨zs.dims, fun i => fsMetricAt (zs.get i)⟩
  | some zc => if zs.dims = zc.dims then some ⟨zs.dims, fun i => fsMetric (zs.get i) (zc.get i)⟩ else none

/-- `VarietySingle.induced_fs` on batches, `cyjax/variety.py:187-193`; not decorated with `auto_vmap`. -/
noncomputable def inducedFsB {n : ℕ} (V : HomKind) (zs : Batch (Fin (n + 1) → ℂ)) (params : Batch Val)
    (patch : Option (Batch PatchArg)) (zsC : Option (Batch (Fin (n + 1) → ℂ))) (dependent : Option (Batch ℤ)) :
    Option (Batch (Except PyErr (Matrix (Fin n) (Fin n) ℂ)) × Batch (Except PyErr ℤ)) := do
  let metric ← fsMetricB zs zsC
  inducedMetricB V metric zs params patch zsC dependent

/-! ## `sigma_accuracy` as it is written, on arrays -/

namespace Donaldson

variable {n : ℕ}

/-- A single value, without batch axes. -/
def single {α : Type*} (a : α) : Batch α := ⟨[], fun _ => a⟩

/-- A list as array with one batch axis. -/
def column {α : Type*} [Inhabited α] (l : List α) : Batch α := ⟨[l.length], fun i => l.getD (i 0) default⟩

/-- The values of an array with one batch axis of size `count`, if none of them is an error. -/
noncomputable def values {α : Type*} (count : ℕ) (a : Batch (Except PyErr α)) : Except PyErr (List α) :=
  (List.range count).mapM fun k => a.get fun _ => k

/-- `sample_intersect_weights` on batches with the dependent coordinates given and `vol=1`, `cyjax/variety.py:195-231`. -/
noncomputable def weightB (V : HomKind) (zs : Batch (Fin (n + 1) → ℂ)) (params : Batch Val) (patch : Option (Batch PatchArg))
    (dependent : Batch (Except PyErr ℤ)) : Option (Batch (Except PyErr ℝ)) :=
  autoVmap [zs.dims, dimsOpt patch, params.dims, dependent.dims] fun i => do
    let d ← dependent.at i
    weight V (zs.at i) (params.at i) (atOpt patch i) (some d) (some 1)

/-- `AlgebraicMetric.eta` on batches with dependent coordinates and gradients given, `cyjax/donaldson.py:754-773`. -/
noncomputable def AlgebraicMetric.etaB (A : AlgebraicMetric (n + 1)) (h : Batch A.H) (zs : Batch (Fin (n + 1) → ℂ))
    (params : Batch Val) (patch : Batch ℕ) (dependent : Batch (Except PyErr ℤ))
    (gradDef : Batch (Except PyErr (Fin (n + 1) → ℂ))) : Option (Batch (Except PyErr ℂ)) :=
  autoVmap [zs.dims, patch.dims, params.dims, h.dims, dependent.dims, gradDef.dims] fun i => do
    let d ← dependent.at i
    let g ← gradDef.at i
    A.eta (h.at i) (List.ofFn (zs.at i)) (params.at i) (some (patch.at i)) (some d) (some g)

/-- `sigma_accuracy` for one `h` and one set of parameters, `cyjax/donaldson.py:836-848`, line by line with the arrays of the
code. Arrays that do not fit raise a `ValueError`. -/
noncomputable def AlgebraicMetric.sigmaAccuracyArrays (A : AlgebraicMetric (n + 1)) (h : A.H) (o : SymOrder)
    (roots : List ℂ → List ℂ) (params : List ℂ) (count : ℕ) (draws : List (List ℂ × List ℂ)) : Except PyErr ℝ := do
  let pts ← sampleIntersectAffine (n + 1) A.variety o roots params count draws
  let zs : Batch (Fin (n + 1) → ℂ) := column (pts.map (·.1))
  let patch : Batch ℕ := column (pts.map fun p => (p.2 : ℕ))
  let patchArg : Batch PatchArg := ⟨patch.dims, fun i => .index (patch.get i)⟩
  let par : Batch Val := single (.vec params)
  match gradDefiningB A.variety zs par (some patchArg) with
  | none => .error .valueError
  | some grad =>
    let dep := argmaxB grad
    match weightB A.variety zs par (some patchArg) dep with
    | none => .error .valueError
    | some weights =>
      match A.etaB (single h) zs par patch dep grad with
      | none => .error .valueError
      | some etas => do
        let _ ← values pts.length grad
        let w ← values pts.length weights
        let e ← values pts.length etas
        return Donaldson.sigmaAccuracy (count := pts.length) (fun i => e.getD i 0) (fun i => w.getD i 0)

/-- `sigma_accuracy` on batches of `params` and `h`, `cyjax/donaldson.py:819-848`: `key` is not one of the batched arguments, so
all entries use the same random numbers. -/
noncomputable def AlgebraicMetric.sigmaAccuracyB (A : AlgebraicMetric (n + 1)) (h : Batch A.H) (o : SymOrder)
    (roots : List ℂ → List ℂ) (params : Batch (List ℂ)) (count : ℕ) (draws : List (List ℂ × List ℂ)) :
    Option (Batch (Except PyErr ℝ)) :=
  autoVmap [params.dims, h.dims] fun i => A.sigmaAccuracyArrays (h.at i) o roots (params.at i) count draws

end Donaldson

end Cyjax
