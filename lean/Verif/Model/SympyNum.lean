import Verif.Model.Rounding
import Mathlib.Analysis.SpecialFunctions.Pow.Complex

/-! # Model of the conversion of sympy numbers to python numbers -/

namespace Cyjax.Polynomial

/-- A number of sympy by its class. `constant` is a real constant as `pi`; `compound` is a sum, product or power of numbers
that sympy keeps as it is, as `2*I` or `sqrt(2)`. Infinities and `nan` are not modelled. -/
inductive SNum where
  | zero | one | negOne | half
  | integer (n : ℤ)
  | rational (q : ℚ)
  | float (x : ℝ)
  | constant (x : ℝ)
  | imaginaryUnit
  | compound (z : ℂ)

/-- `sympy.Integer(n)` (library code): the numbers 0, 1 and -1 have classes of their own. -/
def sympyInt (n : ℤ) : SNum :=
  if n = 0 then .zero else if n = 1 then .one else if n = -1 then .negOne else .integer n

/-- `sympy.Rational(q)` (library code): integers and one half have classes of their own. -/
def sympyRational (q : ℚ) : SNum :=
  if q.den = 1 then sympyInt q.num else if q = 1 / 2 then .half else .rational q

/-- A python number. -/
inductive PyNum where
  | int (n : ℤ)
  | float (x : ℝ)
  | complex (z : ℂ)

/-- Python's `float` of a sympy number; `fl` rounds to a double. A number that is not real raises a `TypeError`. -/
noncomputable def pyFloat (fl : ℝ → ℝ) : SNum → Except PyErr PyNum
  | .zero => .ok (.float (fl 0))
  | .one => .ok (.float (fl 1))
  | .negOne => .ok (.float (fl (-1)))
  | .half => .ok (.float (fl (1 / 2)))
  | .integer n => .ok (.float (fl n))
  | .rational q => .ok (.float (fl q))
  | .float x => .ok (.float (fl x))
  | .constant x => .ok (.float (fl x))
  | .imaginaryUnit => .error .typeError
  | .compound z => if z.im = 0 then .ok (.float (fl z.re)) else .error .typeError

/-- `_sympy_eval_num`, `cyjax/polynomial.py:167-178`. -/
noncomputable def sympyEvalNum (fl : ℝ → ℝ) (val : SNum) : Except PyErr PyNum :=
  match val with
  | .integer n => .ok (.int n)
  | .one => .ok (.int 1)
  | .zero => .ok (.int 0)
  | .imaginaryUnit => .ok (.complex Complex.I)
  | v => pyFloat fl v

/-- Python's `x ** k` for a complex number. -/
noncomputable def pyPow (x : ℂ) : PyNum → ℂ
  | .int n => x ^ n
  | .float r => x ^ (r : ℂ)
  | .complex w => x ^ w

/-- The power branch of `_eval_sympy_poly`, `cyjax/polynomial.py:208-211`, for an exponent that is a number: lines 196-198
convert it when the function is made. -/
noncomputable def powNode (fl : ℝ → ℝ) (f : Fn) (expo : SNum) : Except PyErr Fn :=
  match sympyEvalNum fl expo with
  | .error e => .error e
  | .ok k => .ok fun var par =>
    match f var par with
    | .error e => .error e
    | .ok x => .ok (pyPow x k)

/-- A factor of a coefficient: a parameter or a number. -/
inductive Factor where
  | sym (s : Sym)
  | num (v : SNum)

/-- The loop over the factors of a coefficient, `cyjax/polynomial.py:794-808`: `coeff` and `ps` are the last entries of
`coeffs` and `coeffs_params`. -/
noncomputable def addCoeffs (fl : ℝ → ℝ) (params : List Sym) (coeff : PyNum) (ps : List Sym) :
    List Factor → Except PyErr (PyNum × List Sym)
  | [] => .ok (coeff, ps)
  | .sym s :: fs => if s ∈ params then addCoeffs fl params coeff (ps ++ [s]) fs else .error .assertionError
  | .num v :: fs =>
    match sympyEvalNum fl v with
    | .error e => .error e
    | .ok c => addCoeffs fl params c ps fs

/-- The coefficient and the parameters of one term, `cyjax/polynomial.py:790-808`: the coefficient starts as `1`. -/
noncomputable def termCoeff (fl : ℝ → ℝ) (params : List Sym) (factors : List Factor) : Except PyErr (PyNum × List Sym) :=
  addCoeffs fl params (.int 1) [] factors

end Cyjax.Polynomial
