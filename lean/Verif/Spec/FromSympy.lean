import Verif.Model.FromSympy
import Verif.Spec.Poly

/-! # Specification: symbols found by `from_sympy` -/

namespace Cyjax.Polynomial

/-- The symbol `v` is entry `i` of the array variable `n` (`z3` or `z_3`). -/
def Indexed (v : Sym) (n : List Char) (i : ℕ) : Prop := splitSubscript v = .ok (n, some (i : ℤ))

/-- The symbol `v` has no subscript. -/
def Unindexed (v : Sym) (n : List Char) : Prop := splitSubscript v = .ok (n, none)

/-- No name occurs both with and without subscript among the symbols that are not given as parameters
(only asked for if no indices are given). -/
def NoMix (a : FromSympyArgs) (free : List Sym) : Prop :=
  a.indices = none → ∀ v ∈ free, ∀ w ∈ free, v ∉ a.params.getD [] → w ∉ a.params.getD [] →
    ∀ n i, Unindexed v n → ¬ Indexed w n i

end Cyjax.Polynomial
