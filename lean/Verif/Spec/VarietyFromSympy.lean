import Verif.Spec.FromSympy
import Verif.Spec.Sampling

/-! # Specification: expressions for varieties -/

namespace Cyjax.Spec

open Cyjax.Polynomial MvPolynomial

/-- The symbol stands for a parameter, as opposed to the coordinates `name`. -/
def IsParam (name : List Char) (s : Sym) : Prop :=
  ∃ n ix, splitSubscript s = .ok (n, ix) ∧ n ≠ name ∧ ∀ i, ix = some i → 0 ≤ i

open Classical in
/-- An expression (its expansion `p` and its free symbols) for a hypersurface of degree `e` in the homogeneous coordinates
`name_0, ..., name_m`, written `z3` or `z_3`: real coefficients, homogeneous in the coordinates, and every other
symbol is one of the given parameters (any symbol, if no parameters are given). -/
structure HypersurfaceExpr (name : List Char) (m e : ℕ) (p : MvPolynomial Sym ℂ) (free : List Sym)
    (params : Option (List Sym)) : Prop where
  name_ok : GoodName name ∧ name ≠ paramsKey
  nodup : free.Nodup
  vars : ∀ s ∈ p.vars, s ∈ free
  real : RealCoeffs p
  symbols : ∀ s ∈ free, (∃ i ≤ m, Indexed s name i) ∨ (IsParam name s ∧ ∀ l, params = some l → s ∈ l)
  params_ok : ∀ l, params = some l → l.Nodup ∧ ∀ s ∈ l, IsParam name s
  homogeneous : ∀ mon ∈ p.support, ∑ s ∈ mon.support with ∃ i, Indexed s name i, mon s = e

end Cyjax.Spec
