import Verif.Model.Array

/-! # Model of `cyjax/util.py`: array surgery -/

namespace Cyjax.Util

variable {α : Type*}

/-- `util.pop`, `cyjax/util.py:41-52`.
`rolled = jnp.roll(arr, -index, axis=0); return rolled[0], jnp.roll(rolled[1:], index, axis=0)`.
The index is an arbitrary integer (line 50 asserts its type only). The static
shape `n + 1` excludes the empty array, on which `rolled[0]` raises. -/
def pop {n : ℕ} (arr : Fin (n + 1) → α) (index : ℤ) : α × (Fin n → α) :=
  let rolled := roll arr (-index)
  (rolled 0, roll (tail1 rolled) index)

/-- `util.insert_1d`, `cyjax/util.py:56-77`. `val` is the array after
`jnp.atleast_1d` (line 70); a scalar value is the case `m = 1`. -/
def insert1d {n m : ℕ} (arr : Fin n → α) (val : Fin m → α) (index : ℤ) : Fin (n + m) → α :=
  let shift : ℤ := -(if index < 0 then index + 1 else index)
  let shiftBack : ℤ := if index < 0 then -shift else index + m
  let shifted := roll arr shift
  roll (Fin.append shifted val) shiftBack

/-- `util.insert_col`, `cyjax/util.py:81-101`, for a block of `m` columns (a 1d
column is reshaped to one column, line 94, i.e. `m = 1`). `jnp.roll(·, axis=1)`
and `jnp.concatenate(·, axis=1)` act on every row. -/
def insertCol {r n m : ℕ} (mat : Fin r → Fin n → α) (col : Fin r → Fin m → α) (index : ℤ) :
    Fin r → Fin (n + m) → α :=
  let shift : ℤ := -(if index < 0 then index + 1 else index)
  let shiftBack : ℤ := if index < 0 then -shift else index + m
  let mat1 := fun i => roll (mat i) shift
  let mat2 := fun i => Fin.append (mat1 i) (col i)
  fun i => roll (mat2 i) shiftBack

/-- A 1d column passed to `util.insert_col` (`cyjax/util.py:93-94`: `col.reshape(-1, 1)`). -/
def insertCol1 {r n : ℕ} (mat : Fin r → Fin n → α) (col : Fin r → α) (index : ℤ) :
    Fin r → Fin (n + 1) → α :=
  insertCol mat (fun i _ => col i) index

end Cyjax.Util
