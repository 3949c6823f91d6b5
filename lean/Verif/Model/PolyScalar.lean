import Verif.Model.FromSympy

/-! # Model of arithmetic of a `Poly` with numbers and symbols -/

namespace Cyjax.Polynomial

open MvPolynomial

/-- A second operand that is not a `Poly`: a number (an array with one entry is turned into one, `cyjax/polynomial.py:838-839`)
or a symbol. -/
inductive Operand where
  | number (c : ℂ)
  | symbol (s : Sym)

/-- The operand as a polynomial. -/
noncomputable def Operand.poly : Operand → MvPolynomial Sym ℂ
  | .number c => C c
  | .symbol s => X s

/-- `_combine_metadata` for a number or a symbol, `cyjax/polynomial.py:833-857,876`: the new metadata and the generators of the
operand (it is made a `sympy.Poly` if it belongs to a variable, line 855; otherwise it is part of the coefficients). The
`ValueError` of `split_subscript` is raised outside of the `try`. -/
def combineOperand (m : Meta) : Operand → Except PyErr (Meta × List Sym)
  | .number _ => .ok (m, [])
  | .symbol s =>
    if s ∈ m.params then .ok (m, [])
    else
      match splitNat s with
      | .error e => .error e
      | .ok (name, index) =>
        match m.vars.findIdx? (fun v => v.1 = name) with
        | none => .ok (⟨m.vars, m.params ++ [s]⟩, [])
        | some k =>
          match (m.vars[k]?).bind Prod.snd, index with
          | none, none => .ok (m, [s])
          | some indices, some i => .ok (⟨m.vars.set k (name, some (unionIndices indices [i])), m.params⟩, [s])
          | _, _ => .error .assertionError

/-- `Poly.__add__` with a number or a symbol, `cyjax/polynomial.py:896-905`. -/
noncomputable def PolyObj.addOperand (P : PolyObj) (o : Operand) : Except PyErr PolyObj :=
  match combineOperand P.md o with
  | .error e => .error e
  | .ok (md, gens) => .ok ⟨md, P.poly + o.poly, combineGens P.gens gens⟩

/-- `Poly.__sub__` with a number or a symbol, `cyjax/polynomial.py:907-916`. -/
noncomputable def PolyObj.subOperand (P : PolyObj) (o : Operand) : Except PyErr PolyObj :=
  match combineOperand P.md o with
  | .error e => .error e
  | .ok (md, gens) => .ok ⟨md, P.poly - o.poly, combineGens P.gens gens⟩

/-- `Poly.__mul__` with a number or a symbol, `cyjax/polynomial.py:885-894`. -/
noncomputable def PolyObj.mulOperand (P : PolyObj) (o : Operand) : Except PyErr PolyObj :=
  match combineOperand P.md o with
  | .error e => .error e
  | .ok (md, gens) => .ok ⟨md, P.poly * o.poly, combineGens P.gens gens⟩

end Cyjax.Polynomial
