import Mathlib.Data.Fin.Tuple.Basic
import Mathlib.Data.Int.Basic

/-!
# Array primitives used by the code

JAX shapes are static, so an array of length `n` is a function `Fin n → α`
(leading axis; entries may again be arrays).  These definitions model the
`jax.numpy` primitives which `/repo/cyjax` calls.  They are library functions, not
repository code; their behaviour is taken from the numpy documentation.
-/

namespace Cyjax

/-- `jnp.roll(a, s, axis=0)`: entry `i` of the result is `a[(i - s) mod n]`.
Used in `cyjax/util.py:51,52,75,77,99,101`, `cyjax/variety.py:317,319`,
`cyjax/donaldson.py:123,124`. The shift may be any (traced) integer. -/
def roll {α : Type*} {n : ℕ} (a : Fin n → α) (s : ℤ) : Fin n → α := fun i =>
  a ⟨(((i : ℕ) : ℤ) - s).emod n |>.toNat, by
    have hn : (0 : ℤ) < n := by have := i.2; omega
    have h1 := Int.emod_nonneg (((i : ℕ) : ℤ) - s) (ne_of_gt hn)
    have h2 := Int.emod_lt_of_pos (((i : ℕ) : ℤ) - s) hn
    have h3 : (((i : ℕ) : ℤ) - s).emod n = (((i : ℕ) : ℤ) - s) % (n : ℤ) := rfl
    omega⟩

/-- `a[1:]` along the leading axis. -/
def tail1 {α : Type*} {n : ℕ} (a : Fin (n + 1) → α) : Fin n → α := fun i => a i.succ

/-- Integer indexing `a[i]` with a traced index, along the leading axis of a
non-empty array: negative indices count from the end, and out-of-range indices
are clamped (the `jax.numpy` gather convention). -/
def jget {α : Type*} {n : ℕ} (a : Fin (n + 1) → α) (i : ℤ) : α :=
  let j := if i < 0 then i + (n + 1) else i
  a ⟨(max 0 (min j n)).toNat, by omega⟩

/-- `a.at[i].set(v)` with a traced index: negative indices count from the end,
out-of-range updates are dropped (the `jax.numpy` scatter convention). -/
def jset {α : Type*} {n : ℕ} (a : Fin n → α) (i : ℤ) (v : α) : Fin n → α := fun k =>
  let j := if i < 0 then i + n else i
  if ((k : ℕ) : ℤ) = j then v else a k

end Cyjax
