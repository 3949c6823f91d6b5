import Verif.Model.InputSizes
import Verif.Spec.Poly

/-! # Specification vocabulary for inputs of any size -/

namespace Cyjax.Polynomial

/-- One input per variable: a number for a scalar, an array of any size for an array variable. -/
def KindOK (v : List Char × Option (List ℕ)) (x : Val) : Prop :=
  match v.2, x with
  | none, .scalar _ => True
  | some _, .vec _ => True
  | _, _ => False

/-- The inputs `x` contain a value for the symbol `s` of the variables `m`. -/
def Meta.Provides (m : Meta) (x : List Char × Option (List ℕ) → Val) (s : Sym) : Prop :=
  ∀ v ∈ m.vars, ∀ inds, v.2 = some inds → ∀ l, x v = .vec l → ∀ k (hk : k < inds.length),
    s = mergeSubscript v.1 inds[k] → k < l.length

/-- The assignment `ρ` gives the symbols the values in the inputs `x`, as far as there are any. -/
def Meta.Reads (m : Meta) (x : List Char × Option (List ℕ) → Val) (ρ : Sym → ℂ) : Prop :=
  ∀ v ∈ m.vars, match v.2, x v with
    | none, .scalar a => ρ v.1 = a
    | some inds, .vec l => ∀ k (hk : k < inds.length) (hl : k < l.length), ρ (mergeSubscript v.1 inds[k]) = l[k]
    | _, _ => False

end Cyjax.Polynomial
