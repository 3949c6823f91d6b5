import Verif.Model.Rounding
import Verif.Model.DonaldsonBasis

/-! # Model of the evaluation of sections with rounded arithmetic -/

namespace Cyjax.Fl

/-- The order in which `jnp.sum`, `jnp.prod`, `jnp.mean` and `@` combine the entries of an array. XLA is free to choose it; the
models take it as a parameter. Simplification: the neutral element with which XLA starts is left out (it does not change the value). -/
inductive RTree (ι : Type*) where
  | leaf (i : ι)
  | node (l r : RTree ι)

/-- The entries that are combined. -/
def RTree.leaves {ι : Type*} : RTree ι → List ι
  | .leaf i => [i]
  | .node l r => l.leaves ++ r.leaves

/-- Combine the entries in this order. -/
def RTree.eval {ι α : Type*} (op : α → α → α) (x : ι → α) : RTree ι → α
  | .leaf i => x i
  | .node l r => op (l.eval op x) (r.eval op x)

/-- Exponential and logarithm of a numerical library. -/
structure Funs where
  exp : ℂ → ℂ
  log : ℂ → ℂ

/-- Exact functions. -/
noncomputable def exactFuns : Funs := ⟨Complex.exp, Complex.log⟩

end Cyjax.Fl

namespace Cyjax.Donaldson

open Cyjax.Fl

/-- The scan of `_getpows` in the given arithmetic, `cyjax/donaldson.py:93-94`. -/
def powScanF (A : Arith) (zi : ℂ) : ℂ → ℕ → List ℂ × ℂ
  | z, 0 => ([], z)
  | z, len + 1 => ((z :: (powScanF A zi (A.mul z zi) len).1), (powScanF A zi (A.mul z zi) len).2)

/-- `_getpows` in the given arithmetic, `cyjax/donaldson.py:91-95`. -/
def getPowsF (A : Arith) (zi : ℂ) (maxpow : ℕ) : List ℂ :=
  (powScanF A zi 1 maxpow).1 ++ [(powScanF A zi 1 maxpow).2]

/-- `_compute_monomials_index` with a patch in the given arithmetic, `cyjax/donaldson.py:98-111`; `t` is the order of `jnp.prod`. -/
def monomialsIndexF (A : Arith) {n N : ℕ} (t : RTree (Fin n)) (zs : Fin n → ℂ) (patch : ℤ)
    (pows : Fin N → Fin (n + 1) → ℕ) (maxdeg : ℕ) : Fin N → ℂ :=
  let zp := fun i => getPowsF A (zs i) maxdeg
  let powsT := (Util.pop (fun i a => pows a i) patch).2
  fun a => t.eval A.mul fun i => gather (zp i) (powsT i a)

/-- `_compute_monomials_log` with a patch in the given arithmetic, `cyjax/donaldson.py:114-126`; `t` is the order of the matrix
product. The integer powers are converted without error. -/
def monomialsLogF (A : Arith) (F : Funs) {n N : ℕ} (t : RTree (Fin n)) (zs : Fin n → ℂ) (patch : ℤ)
    (pows : Fin N → Fin (n + 1) → ℕ) : Fin N → ℂ :=
  let pows' := fun a (i : Fin n) => Cyjax.roll (pows a) (-patch) i.succ
  let zs' := Cyjax.roll zs (-patch)
  fun a => F.exp (t.eval A.add fun i => A.mul (pows' a i) (F.log (zs' i)))

end Cyjax.Donaldson
