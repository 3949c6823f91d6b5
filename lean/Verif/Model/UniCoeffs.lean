import Verif.Model.PolyOps
import Verif.Model.FromSympyForms

/-! # Model of `univariate_coefficients` with its calls of `Poly.from_sympy`

`univariateCoefficients` (`Verif/Model/PolyOps.lean`) writes down the coefficient polynomials directly. Here they are
built the way the code does it. -/

namespace Cyjax.Polynomial

open MvPolynomial

/-- `consts`, `cyjax/polynomial.py:1038-1041`: the arrays of symbols without the chosen one; arrays with nothing left are
dropped. -/
def constArrays (m : Meta) (x : Sym) : List (List Sym) :=
  (m.vars.filter fun v => (varSymbols v).any (· ≠ x)).map fun v => (varSymbols v).filter (· ≠ x)

open Classical in
/-- The entry for the order `k`, `cyjax/polynomial.py:1043-1049`: a number, or a polynomial made by `Poly.from_sympy` from the
coefficient, the arrays and the parameters. `free` lists the free symbols of an expression. Orders that do not occur are
zero (line 1044), which here is the number zero. -/
noncomputable def uniEntry (free : MvPolynomial Sym ℂ → List Sym) (P : PolyObj) (x : Sym) (k : ℕ) : Except PyErr UCoeff :=
  let c := uniCoeff P.poly x k
  if c.vars = ∅ then .ok (.num (constantCoeff c))
  else (fromSympyArrays (constArrays P.md x) (some P.md.params) c (free c)).map .poly

/-- `univariate_coefficients`, `cyjax/polynomial.py:997-1052`. -/
noncomputable def univariateCoefficientsCode (free : MvPolynomial Sym ℂ → List Sym) (P : PolyObj) (x : Sym) :
    Except PyErr (List UCoeff) :=
  if x ∈ P.md.params then .error .assertionError
  else (List.range (degreeOf x P.poly + 1)).reverse.mapM (uniEntry free P x)

end Cyjax.Polynomial
