import Verif.Model.FromSympyForms
import Verif.Spec.FromSympy
import Verif.Spec.PolyExpr

/-! # Specification: the other inputs of `from_sympy` -/

namespace Cyjax.Polynomial

/-- The array of symbols `arr` is the variable `v` (a name, and indices unless it is a scalar): one symbol without subscript, or
symbols with that name and these indices, in this order. -/
def Describes (arr : List Sym) (v : List Char × Option (List ℕ)) : Prop :=
  match v.2 with
  | none => arr = [v.1]
  | some inds => inds ≠ [] ∧ List.Forall₂ (fun s i => Indexed s v.1 i) arr inds

/-- The symbol is a variable, or an entry of a variable (written `z3` or `z_3`). -/
def IsEntry (vars : List (List Char × Option (List ℕ))) (s : Sym) : Prop :=
  ∃ v ∈ vars, match v.2 with
    | none => s = v.1
    | some inds => ∃ i ∈ inds, Indexed s v.1 i

/-- The name of the symbol, without subscript, is none of the names. -/
def IsOther (names : List (List Char)) (s : Sym) : Prop :=
  ∃ n, n ∉ names ∧ (Unindexed s n ∨ ∃ i, Indexed s n i)

/-- The expression `p` with free symbols `free` is a polynomial in these variables and parameters (any other symbols, if the
parameters are not given). -/
structure FitsExpr (vars : List (List Char × Option (List ℕ))) (params : Option (List Sym)) (p : MvPolynomial Sym ℂ)
    (free : List Sym) : Prop where
  ne : vars ≠ []
  names : (vars.map Prod.fst).Nodup
  key : paramsKey ∉ vars.map Prod.fst
  good : ∀ v ∈ vars, GoodName v.1
  inds : ∀ v ∈ vars, ∀ l, v.2 = some l → l ≠ [] ∧ l.Nodup
  nodup : free.Nodup
  vars_free : ∀ s ∈ p.vars, s ∈ free
  symbols : ∀ s ∈ free, IsEntry vars s ∨ (IsOther (vars.map Prod.fst) s ∧ ∀ l, params = some l → s ∈ l)
  params_ok : ∀ l, params = some l → l.Nodup ∧ ∀ s ∈ l, IsOther (vars.map Prod.fst) s

end Cyjax.Polynomial
