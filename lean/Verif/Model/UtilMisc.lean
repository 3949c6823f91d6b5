import Verif.Model.Array
import Mathlib.Data.Nat.Factorial.Basic
import Mathlib.Algebra.BigOperators.Group.Finset.Basic
import Mathlib.Algebra.Field.Defs
import Mathlib.Algebra.BigOperators.Fin
import Mathlib.Logic.Function.Iterate
import Mathlib.Tactic.Ring

/-! # Model of `cyjax/util.py`: products, binomials, n-d coordinates, integration, keys -/

namespace Cyjax.Util

open scoped BigOperators

/-! ## `prod` -/

/-- The loop of `util.prod`, `cyjax/util.py:31-36`: `pr` starts as `None`, the first factor
initialises it, later factors multiply it. -/
def prodLoop {α : Type*} [Mul α] : Option α → List α → Option α
  | pr, [] => pr
  | none, f :: fs => prodLoop (some f) fs
  | some p, f :: fs => prodLoop (some (p * f)) fs

/-- `util.prod`, `cyjax/util.py:29-37`, on values (immutable factors). -/
def prod {α : Type*} [Mul α] [One α] (factors : List α) : α :=
  match prodLoop none factors with
  | none => 1
  | some pr => pr

/-- A python object holding a number: an immutable value (python scalar, numpy
scalar, jax array) or a reference to a mutable numpy array. -/
inductive Obj (α : Type*) where
  | imm (v : α)
  | ref (addr : ℕ)

/-- The mutable numpy arrays alive in the caller, by address. -/
abbrev Heap (α : Type*) := ℕ → α

/-- Current value of an object. -/
def Obj.read {α : Type*} (h : Heap α) : Obj α → α
  | .imm v => v
  | .ref a => h a

/-- `pr *= factor` (`cyjax/util.py:36`): for a numpy array this is an in-place update; for an
immutable value it rebinds `pr` to a fresh result (which no caller can observe, so it is
modelled as a value). -/
def imul {α : Type*} [Mul α] (h : Heap α) (pr f : Obj α) : Heap α × Obj α :=
  match pr with
  | .imm v => (h, .imm (v * f.read h))
  | .ref a => (Function.update h a (h a * f.read h), .ref a)

/-- The loop of `util.prod` with object identity, `cyjax/util.py:31-36`; `pr = factor`
(line 34) makes `pr` an alias of the first factor. -/
def prodHeapLoop {α : Type*} [Mul α] (h : Heap α) : Option (Obj α) → List (Obj α) →
    Heap α × Option (Obj α)
  | pr, [] => (h, pr)
  | none, f :: fs => prodHeapLoop h (some f) fs
  | some p, f :: fs => let (h', p') := imul h p f; prodHeapLoop h' (some p') fs

/-- `util.prod`, `cyjax/util.py:29-37`, with object identity: final heap and returned value. -/
def prodHeap {α : Type*} [Mul α] [One α] (h : Heap α) (factors : List (Obj α)) : Heap α × α :=
  match prodHeapLoop h none factors with
  | (h', none) => (h', 1)
  | (h', some pr) => (h', pr.read h')

/-! ## `binomial` -/

/-- `math.factorial`: raises `ValueError` on negative arguments. -/
def pyFactorial (n : ℤ) : Option ℕ := if n < 0 then none else some n.toNat.factorial

/-- `util.binomial`, `cyjax/util.py:121-127`:
`factorial(n) // (factorial(k) * factorial(n-k))`; `none` is the `ValueError`. -/
def binomial (n k : ℤ) : Option ℕ := do
  let a ← pyFactorial n
  let b ← pyFactorial k
  let c ← pyFactorial (n - k)
  return a / (b * c)

/-! ## n-dimensional arrays in row-major order -/

/-- An n-dimensional array: a shape and its entries in row-major order. -/
structure Nd (α : Type*) where
  /-- the shape tuple -/
  shape : List ℕ
  /-- row-major entries -/
  data : Fin shape.prod → α

/-- `a.reshape(s)` for an explicit shape: the row-major data is unchanged; `none` is the
error for incompatible sizes. -/
def Nd.reshape {α : Type*} (a : Nd α) (s : List ℕ) : Option (Nd α) :=
  if h : s.prod = a.shape.prod then some ⟨s, fun i => a.data (i.cast h)⟩ else none

/-- `a.reshape((-1, dim))`: the leading size is inferred; an error if `dim = 0` (the size
cannot be inferred) or the sizes are not divisible. -/
def Nd.reshapeInfer {α : Type*} (a : Nd α) (dim : ℕ) : Option (Nd α) :=
  if dim = 0 then none else a.reshape [a.shape.prod / dim, dim]

/-- `jnp.atleast_1d`. -/
def Nd.atleast1d {α : Type*} (a : Nd α) : Nd α :=
  if h : a.shape = [] then ⟨[1], fun _ => a.data ⟨0, by simp [h]⟩⟩ else a

/-- `util.flatten_coord` without conjugate, `cyjax/util.py:143-145,154` (the conjugate, lines
146-152, is reshaped the same way). Returns the flattened array and the old shape. -/
def flattenCoord {α : Type*} (zs : Nd α) : Option (Nd α × List ℕ) :=
  let zs := zs.atleast1d
  let oldShape := zs.shape.dropLast
  let dim := zs.shape.getLastD 0
  (zs.reshapeInfer dim).map fun a => (a, oldShape)

/-- `util.unflatten_coord`, `cyjax/util.py:157-164`, for one array. -/
def unflattenCoord {α : Type*} (arr : Nd α) (oldShape : List ℕ) : Option (Nd α) :=
  arr.reshape (oldShape ++ arr.shape.tail)

/-- `jax.vmap(f)` over the leading axis of a rank-2 array, for a per-row function with output
shape `out`: entry `q` of the row-major result is entry `q % size` of `f(row q / size)`.
Used in `cyjax/projective.py:153,194,196`. -/
def vmapRows {α β : Type*} {d : ℕ} (out : List ℕ) (f : (Fin d → α) → Fin out.prod → β)
    (n : ℕ) (a : Fin (n * d) → α) : Nd β where
  shape := n :: out
  data := fun q =>
    have hq : (q : ℕ) < n * out.prod := lt_of_lt_of_eq q.2 (by simp)
    have hpos : 0 < out.prod := Nat.pos_of_ne_zero fun h => by simp [h] at hq
    f (fun i => a ⟨(q / out.prod) * d + i, by
        have h1 : (q : ℕ) / out.prod < n := Nat.div_lt_of_lt_mul (by rw [mul_comm]; exact hq)
        calc (q : ℕ) / out.prod * d + i < (q : ℕ) / out.prod * d + d := by omega
          _ = ((q : ℕ) / out.prod + 1) * d := by ring
          _ ≤ n * d := Nat.mul_le_mul_right d h1⟩)
      ⟨q % out.prod, Nat.mod_lt _ hpos⟩

/-- The common structure of `fs_metric` / `fs_potential` (`cyjax/projective.py:152-154,192-197`):
flatten, `vmap` a per-point function, unflatten. `d` is the static coordinate dimension. -/
def batchApply {α β : Type*} (d : ℕ) (out : List ℕ) (f : (Fin d → α) → Fin out.prod → β)
    (zs : Nd α) : Option (Nd β) :=
  match flattenCoord zs with
  | none => none
  | some (flat, old) =>
    if h : flat.shape = [flat.shape.headD 0, d] then
      unflattenCoord (vmapRows out f (flat.shape.headD 0)
        fun i => flat.data (i.cast (by rw [h]; simp))) old
    else none

/-- `util.shuffle_axis`, `cyjax/util.py:104-118`. With `n = prod(shape[:axis])`,
`s = shape[axis]` and `r = prod(shape[axis+1:])`, the reshaped array has entry `(i, k, t)` at
row-major position `(i * s + k) * r + t`; `jax.random.permutation` under `vmap` replaces `k`
by `σ i k` for an arbitrary permutation `σ i` of the leading axis of slice `i`.
`axis` is non-negative and less than the rank (python's negative axis is the same slice). -/
def shuffleAxis {α : Type*} (x : Nd α) (axis : ℕ) (h : axis < x.shape.length)
    (σ : ℕ → Equiv.Perm (Fin x.shape[axis])) : Nd α where
  shape := x.shape
  data := fun q =>
    let s := x.shape[axis]
    let r := (x.shape.drop (axis + 1)).prod
    have hsplit : x.shape.prod = (x.shape.take axis).prod * (s * r) := by
      conv_lhs => rw [← List.take_append_drop axis x.shape, List.prod_append,
        List.drop_eq_getElem_cons h, List.prod_cons]
    have hq : (q : ℕ) < (x.shape.take axis).prod * (s * r) := lt_of_lt_of_eq q.2 hsplit
    have hsr : 0 < s * r := Nat.pos_of_ne_zero fun h => by rw [h] at hq; simp at hq
    have hs : 0 < s := Nat.pos_of_mul_pos_right hsr
    have hr : 0 < r := Nat.pos_of_mul_pos_left hsr
    let i := (q : ℕ) / (s * r)
    let k : Fin s := ⟨((q : ℕ) / r) % s, Nat.mod_lt _ hs⟩
    let t := (q : ℕ) % r
    x.data ⟨(i * s + σ i k) * r + t, by
      have hi : i < (x.shape.take axis).prod := Nat.div_lt_of_lt_mul (by rw [mul_comm]; exact hq)
      have ht : t < r := Nat.mod_lt _ hr
      have hk : ((σ i k : Fin s) : ℕ) < s := (σ i k).2
      rw [hsplit]
      calc (i * s + σ i k) * r + t < (i * s + σ i k) * r + r := by omega
        _ = (i * s + σ i k + 1) * r := by ring
        _ ≤ (i * s + s) * r := Nat.mul_le_mul_right r (by omega)
        _ = (i + 1) * (s * r) := by ring
        _ ≤ (x.shape.take axis).prod * (s * r) := Nat.mul_le_mul_right _ hi⟩

/-! ## Monte Carlo integration -/

/-- `jnp.mean` along the leading axis (empty mean is not defined in the code: NaN). -/
noncomputable def mean {K : Type*} [Field K] {n : ℕ} (v : Fin n → K) : K := (∑ i, v i) / (n : K)

/-- `util.mc_integrate`, `cyjax/util.py:167-203`. `sample` returns points and weights; `fn` is
applied to the array of points, modelled pointwise. Line 199 takes the mean of `w`, not of
`vals`. Returns `(val, var)`, where `var` is only returned by the code if requested (lines
200-203). -/
noncomputable def mcIntegrate {Key Z K : Type*} [Field K] (key : Key) (count : ℕ) (fn : Z → K)
    (sample : Key → (c : ℕ) → (Fin c → Z) × (Fin c → K)) : K × K :=
  let zs := (sample key count).1
  let w := (sample key count).2
  let vals := fun i => fn (zs i) * w i
  let val := mean w
  let var := (mean (fun i => vals i ^ 2) - val ^ 2) / count
  (val, var)

/-- The `step` closure and `jax.lax.scan` of `util.mc_integrate_batched`,
`cyjax/util.py:227-240`: the list of `(val, val2)` per batch. The sampling key is the carried
key itself (line 230), the next carry is the second half of its split (lines 228, 238). -/
noncomputable def mcBatches {Key Z K : Type*} [Field K] (split : Key → Key × Key)
    (batchSize : ℕ) (fn : Z → K) (sample : Key → (c : ℕ) → (Fin c → Z) × (Fin c → K)) :
    Key → ℕ → List (K × K)
  | _, 0 => []
  | key, b + 1 =>
    let k2 := (split key).2
    let zs := (sample key batchSize).1
    let w := (sample key batchSize).2
    let vals := fun i => fn (zs i) * w i
    let val := mean w
    let val2 := mean (fun i => vals i ^ 2) / batchSize
    (val, val2) :: mcBatches split batchSize fn sample k2 b

/-- `util.mc_integrate_batched`, `cyjax/util.py:206-245`: mean and variance (lines 241-244).
Both are scalars here (a scalar integrand). -/
noncomputable def mcIntegrateBatched {Key Z K : Type*} [Field K] (split : Key → Key × Key)
    (key : Key) (batches batchSize : ℕ) (fn : Z → K)
    (sample : Key → (c : ℕ) → (Fin c → Z) × (Fin c → K)) : K × K :=
  let out := mcBatches split batchSize fn sample key batches
  let m := (out.map Prod.fst).sum / (batches : K)
  let variance := (out.map Prod.snd).sum / (batches : K) / batches - m ^ 2 / (batches * batchSize)
  (m, variance)

/-! ## Key sequence -/

/-- `PRNGSequence.__init__` argument, `cyjax/util.py:251-261`: an integer seed or a key. -/
inductive Seed (Key : Type*) where
  | int (n : ℤ)
  | key (k : Key)

/-- `PRNGSequence.__init__`, `cyjax/util.py:258-261`; `prngKey` is `jax.random.PRNGKey`. The state
of the object is the stored key. -/
def prngInit {Key : Type*} (prngKey : ℤ → Key) : Seed Key → Key
  | .int n => prngKey n
  | .key k => k

/-- `PRNGSequence.__next__`, `cyjax/util.py:263-266`: `k, self._key = split(self._key)`.
Returns the new state and the key. -/
def prngNext {Key : Type*} (split : Key → Key × Key) (s : Key) : Key × Key :=
  ((split s).2, (split s).1)

/-- The first `n` keys obtained by calling `next` `n` times from state `s`, and the final state. -/
def prngTake {Key : Type*} (split : Key → Key × Key) : Key → ℕ → List Key × Key
  | s, 0 => ([], s)
  | s, n + 1 =>
    let (s', k) := prngNext split s
    let (ks, s'') := prngTake split s' n
    (k :: ks, s'')

end Cyjax.Util
