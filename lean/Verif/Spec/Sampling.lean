import Verif.Spec.Variety

/-! # Specification for the sampling of points -/

namespace Cyjax.Variety

open Cyjax.Polynomial MvPolynomial

/-- What sympy and python guarantee: substitution visits every item once, the free symbols of an expression are
listed once each, occur in it, and contain all symbols of the expanded expression. -/
structure SymOrder.Valid (o : SymOrder) : Prop where
  subst : ∀ l, (o.subst l).Perm l
  nodup : ∀ e, (o.free e).Nodup
  mem : ∀ e, ∀ s ∈ o.free e, s ∈ e.symbols
  vars : ∀ e p, expand e = some p → ∀ s ∈ p.vars, s ∈ o.free e

/-- The parameter names are readable and their base names are not those of the line, `t`, `p` and `q`. -/
def LineNames (params : List Sym) : Prop :=
  params.Nodup ∧ ∀ s ∈ params, ∃ name ix, splitSubscript s = .ok (name, ix) ∧ name ∉ [tName, pName, qName]

/-- An exact root finder: for a non-zero leading coefficient (coefficients in order of descending powers) it
returns as many numbers as the degree, all of them roots. -/
def ExactRoots (roots : List ℂ → List ℂ) : Prop :=
  ∀ c cs, c ≠ 0 → (roots (c :: cs)).length = cs.length ∧ ∀ r ∈ roots (c :: cs), polyval (c :: cs) r = 0

/-- A root finder that finds all roots: for a non-zero leading coefficient (coefficients in order of descending powers) it
returns as many numbers as the degree, and the polynomial is the product of its linear factors. -/
def CompleteRoots (roots : List ℂ → List ℂ) : Prop :=
  ∀ c cs, c ≠ 0 → (roots (c :: cs)).length = cs.length ∧ ∀ x, polyval (c :: cs) x = c * ((roots (c :: cs)).map (x - ·)).prod

end Cyjax.Variety
