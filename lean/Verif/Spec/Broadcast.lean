import Verif.Model.Batch
import Verif.Spec.Nd

/-! # Specification: numpy's rule for combining the shapes of several arrays -/

namespace Cyjax.Spec

/-- `r` is the common shape of arrays with shapes `l` (sizes listed from the last axis): it has as many axes as the longest of
them, in every axis each array has the size of `r` or size one, and a size other than one belongs to some array. -/
structure IsBroadcast (l : List (List ℕ)) (r : List ℕ) : Prop where
  axes_le : ∀ s ∈ l, s.length ≤ r.length
  axes : r = [] ∨ ∃ s ∈ l, s.length = r.length
  size : ∀ k, ∀ s ∈ l, sizeAt s k = 1 ∨ sizeAt s k = sizeAt r k
  attained : ∀ k, sizeAt r k = 1 ∨ ∃ s ∈ l, sizeAt s k = sizeAt r k

/-- Two arrays have different sizes, none of them one, in some axis. -/
def Clash (l : List (List ℕ)) : Prop :=
  ∃ k, ∃ s ∈ l, ∃ t ∈ l, sizeAt s k ≠ 1 ∧ sizeAt t k ≠ 1 ∧ sizeAt s k ≠ sizeAt t k

/-- `i` is an index of an array of the given shape. -/
def InRange (r : List ℕ) (i : ℕ → ℕ) : Prop := ∀ k, i k < sizeAt r k

/-- The batch `b` describes the array `a`, whose trailing axes have the sizes `core`: the entry of `a` at a batch index followed by
an index `c` of the trailing axes is the entry `c` of the value of `b`. -/
def Describes {α β : Type*} (core : List ℕ) (entry : β → List ℕ → α) (a : Util.Nd α) (b : Batch β) : Prop :=
  a.shape = b.dims.reverse ++ core ∧ ∀ i, InRange b.dims i → ∀ c, NdValid core c →
    a.get (((List.range b.dims.length).map i).reverse ++ c) = some (entry (b.get i) c)

end Cyjax.Spec
