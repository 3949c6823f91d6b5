import Verif.Model.Poly

/-! # Model of the small helpers around `Poly`: dictionaries of positions, `any_symbolic`, `_replace_float_ints` -/

namespace Cyjax.Polynomial

/-- `parameter_position`, `cyjax/polynomial.py:388-395`: the items of the dictionary in order. -/
def parameterPosition (m : Meta) : List (Sym × ℕ) := m.params.zipIdx

/-- `variable_position`, `cyjax/polynomial.py:397-404`. -/
def variablePosition (m : Meta) : List (List Char × ℕ) := m.names.zipIdx

/-- `variable_index_dict`, `cyjax/polynomial.py:406-419`. -/
def variableIndexDict (m : Meta) : List (List Char × Option (List (ℕ × ℕ))) :=
  m.vars.map fun v => (v.1, v.2.map List.zipIdx)

/-- An argument of `any_symbolic`: `None`, a sympy expression, a string, a numpy or jax array with the `kind` of its
`dtype`, a number, or a python list. -/
inductive PyArg where
  | none
  | expr (e : Expr)
  | str (s : List Char)
  | array (kind : Char)
  | number (x : ℂ)
  | list (l : List PyArg)

/-- `any_symbolic`, `cyjax/polynomial.py:129-136`. -/
def anySymbolic (args : List PyArg) : Bool :=
  args.any fun v =>
    match v with
    | .none => false
    | .expr _ => true
    | .str _ => true
    | .array kind => kind ∈ ['S', 'U', 'O']
    | .number _ => false
    | .list _ => false

open Classical in
mutual
/-- `_replace_float_ints`, `cyjax/polynomial.py:217-223`: every float equal to an integer becomes that integer. (The code
goes through auxiliary symbols, one for each integer.) -/
noncomputable def replaceFloatInts : Expr → Expr
  | .sym s => .sym s
  | .int n => .int n
  | .float r => if r = (⌊r⌋ : ℝ) then .int ⌊r⌋ else .float r
  | .imagUnit => .imagUnit
  | .add args => .add (replaceFloatIntsList args)
  | .mul args => .mul (replaceFloatIntsList args)
  | .pow b n => .pow (replaceFloatInts b) n
  | .other => .other

/-- The same for a list of arguments. -/
noncomputable def replaceFloatIntsList : List Expr → List Expr
  | [] => []
  | e :: es => replaceFloatInts e :: replaceFloatIntsList es
end

/-- `Poly.__call__` without arguments, `cyjax/polynomial.py:965-966`. -/
noncomputable def PolyObj.callEmpty (P : PolyObj) : Expr := replaceFloatInts (polyExpr P.poly)

end Cyjax.Polynomial
