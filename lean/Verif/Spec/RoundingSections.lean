import Verif.Model.RoundingSections
import Verif.Spec.Rounding

/-! # Specification of orders of summation and of accurate functions -/

namespace Cyjax.Fl

/-- Every entry is combined exactly once. -/
def RTree.Covers {n : ℕ} (t : RTree (Fin n)) : Prop := t.leaves.Perm (List.finRange n)

/-- Largest number of operations an entry takes part in: `n - 1` for a loop over `n` entries, about `log2 n` for a balanced order. -/
def RTree.depth {ι : Type*} : RTree ι → ℕ
  | .leaf _ => 0
  | .node l r => max l.depth r.depth + 1

/-- The exponential has relative error at most `ε`. The logarithm has the same relative error where it is large, and the same
absolute error where it is small. -/
structure Funs.Accurate (F : Funs) (ε : ℝ) : Prop where
  exp : ∀ z, ‖F.exp z - Complex.exp z‖ ≤ ε * ‖Complex.exp z‖
  log : ∀ z, z ≠ 0 → ‖F.log z - Complex.log z‖ ≤ ε * (1 + ‖Complex.log z‖)

end Cyjax.Fl
