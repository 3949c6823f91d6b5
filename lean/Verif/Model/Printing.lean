import Verif.Model.PolyBookkeeping
import Verif.Model.Variety

/-! # Model of printed polynomials and varieties (`__repr__`, `_repr_latex_`) -/

namespace Cyjax.Polynomial

/-- `sep.join(l)`. -/
def strJoin (sep : List Char) : List (List Char) → List Char
  | [] => []
  | [x] => x
  | x :: y :: l => x ++ sep ++ strJoin sep (y :: l)

/-- Decimal representation of an integer, as in an f-string. -/
def intStr (i : ℤ) : List Char := if i < 0 then '-' :: natStr i.natAbs else natStr i.natAbs

/-- One variable in the list of arguments, `cyjax/polynomial.py:923-924`. -/
def reprVar (v : List Char × Option (List ℕ)) : List Char :=
  match v.2 with
  | none => v.1
  | some ind => "[".toList ++ strJoin ", ".toList (ind.map fun i => v.1 ++ '_' :: natStr i) ++ "]".toList

/-- The string before the equality sign, `cyjax/polynomial.py:922-932`. -/
def reprHead (typeName : List Char) (m : Meta) : List Char :=
  let vars := strJoin ", ".toList (m.vars.map reprVar)
  if m.params = [] then typeName ++ "(".toList ++ vars ++ ")".toList
  else
    let parameters := "[".toList ++ strJoin ", ".toList m.params ++ "]".toList
    typeName ++ "(".toList ++ vars ++ ", params=".toList ++ parameters ++ ")".toList

/-- `Poly.__repr__`, `cyjax/polynomial.py:918-932`. `typeName` is the name of the class, and `str` prints expressions (sympy). -/
noncomputable def reprPoly (str : Expr → List Char) (typeName : List Char) (P : PolyObj) : List Char :=
  reprHead typeName P.md ++ " = ".toList ++ str (replaceFloatInts (polyExpr P.poly))

/-- `latex(obj)`, `cyjax/polynomial.py:55-59`: a string is made a symbol; `tex` is sympy's printer of expressions. -/
def latexStr (tex : Expr → List Char) (s : List Char) : List Char := tex (.sym s)

/-- One variable in `_repr_latex_`, `cyjax/polynomial.py:939-940`. -/
def latexVar (tex : Expr → List Char) (v : List Char × Option (List ℕ)) : List Char :=
  match v.2 with
  | none => latexStr tex v.1
  | some ind => "[".toList ++ strJoin ",".toList (ind.map fun i => latexStr tex (v.1 ++ '_' :: natStr i)) ++ "]".toList

/-- `Poly._repr_latex_`, `cyjax/polynomial.py:934-947`; the expression is an argument. -/
def reprLatex (tex : Expr → List Char) (typeName : List Char) (m : Meta) (e : Expr) : List Char :=
  let polyRepr := tex e
  let name := "\\operatorname{".toList ++ typeName ++ "}".toList
  let vars := strJoin ",".toList (m.vars.map (latexVar tex))
  if m.params = [] then
    "$\\displaystyle ".toList ++ name ++ "(".toList ++ vars ++ ") = ".toList ++ polyRepr ++ "$".toList
  else
    let parameters := "[".toList ++ strJoin ",".toList (m.params.map (latexStr tex)) ++ "]".toList
    "$\\displaystyle ".toList ++ name ++ "(".toList ++ vars ++ ", \\text{params}=".toList ++ parameters ++
      ") = ".toList ++ polyRepr ++ "$".toList

end Cyjax.Polynomial

namespace Cyjax.Variety

open Cyjax.Polynomial

/-- `VarietySingle.__repr__`, `cyjax/variety.py:323-325`; `polyRepr` is the `repr` of the defining polynomial. -/
def reprVariety (typeName polyRepr : List Char) (V : HomKind) : Except PyErr (List Char) := do
  let dim ← dimVariety V
  let proj ← dimProjective V
  return typeName ++ "(dim=".toList ++ intStr dim ++ ") ".toList ++ "in CP^".toList ++ intStr proj ++ ": ".toList ++ polyRepr

/-- `VarietySingle._repr_latex_`, `cyjax/variety.py:327-331`; `polyLatex` is the result for the defining polynomial. -/
def reprLatexVariety (typeName polyLatex : List Char) (V : HomKind) : Except PyErr (List Char) := do
  let name := "{".toList ++ typeName ++ "}".toList
  let dim ← dimVariety V
  let proj ← dimProjective V
  return "$\\operatorname".toList ++ name ++ "(dim=".toList ++ intStr dim ++ ") ".toList ++
    "\\subset \\mathbb{CP}^".toList ++ intStr proj ++ ": ".toList ++ polyLatex.drop 1

end Cyjax.Variety
