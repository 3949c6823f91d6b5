import Verif.Model.PolyEval
import Verif.Model.UnionIndices
import Mathlib.Algebra.MvPolynomial.Eval
import Mathlib.Algebra.MvPolynomial.PDeriv
import Mathlib.Algebra.MvPolynomial.Monad
import Mathlib.Algebra.MvPolynomial.Degrees
import Mathlib.Analysis.SpecialFunctions.Exp
import Mathlib.Analysis.SpecialFunctions.Complex.Log

/-! # Model of the `Poly` class

A `sympy.Poly` over the complex numbers (with parameters in the coefficient domain) is an
`MvPolynomial` in all its symbols together with its list of generators. -/

namespace Cyjax.Polynomial

open MvPolynomial

/-- `Poly`, `cyjax/polynomial.py:319-348`: metadata and the `sympy.Poly` object (polynomial and
generators). -/
structure PolyObj where
  md : Meta
  poly : MvPolynomial Sym ℂ
  gens : List Sym

/-! ## `sympy.Poly.expr` -/

open Classical in
/-- Expression of a complex coefficient: `re + im*I`, just `re` for a real one (sympy, domain `CC`). -/
noncomputable def numExpr (c : ℂ) : Expr :=
  if c.im = 0 then .float c.re else .add [.float c.re, .mul [.float c.im, .imagUnit]]

/-- One factor `s` or `s**k`. -/
def powExpr (s : Sym) (k : ℕ) : Expr := if k = 1 then .sym s else .pow (.sym s) k

/-- One term: coefficient times powers of symbols. -/
noncomputable def termExpr (c : ℂ) (m : Sym →₀ ℕ) : Expr :=
  .mul (numExpr c :: m.support.toList.map (fun s => powExpr s (m s)))

/-- `sympy.Poly.expr`. Simplification: sympy keeps the coefficient of a monomial in the generators
together as one factor, here everything is multiplied out; evaluation is modelled and proved for
every expression tree, so this choice does not matter there. -/
noncomputable def polyExpr (p : MvPolynomial Sym ℂ) : Expr :=
  .add (p.support.toList.map (fun m => termExpr (coeff m p) m))

/-- `Poly.__call__` with numerical inputs, `cyjax/polynomial.py:949-994`. -/
noncomputable def PolyObj.call (P : PolyObj) (args : List Val) (kwargs : List (List Char × Val)) :
    Except PyErr ℂ :=
  callNum P.md (polyExpr P.poly) args kwargs

/-! ## Symbolic evaluation -/

mutual
/-- `expr.subs(s, v)` for one symbol. -/
def Expr.subst (s : Sym) (v : Expr) : Expr → Expr
  | .sym t => if t = s then v else .sym t
  | .int n => .int n
  | .float r => .float r
  | .imagUnit => .imagUnit
  | .add args => .add (Expr.substList s v args)
  | .mul args => .mul (Expr.substList s v args)
  | .pow b n => .pow (Expr.subst s v b) n
  | .other => .other

def Expr.substList (s : Sym) (v : Expr) : List Expr → List Expr
  | [] => []
  | e :: es => Expr.subst s v e :: Expr.substList s v es
end

/-- `expr.subs(dict)` once sympy has put the items in an order: one substitution after the other
(sympy default, `simultaneous=False`). -/
def Expr.substSeq (items : List (Sym × Expr)) (e : Expr) : Expr :=
  items.foldl (fun e sv => Expr.subst sv.1 sv.2 e) e

/-- A symbolic input: a scalar expression or an array of expressions. -/
inductive SymVal where
  | scalar (e : Expr)
  | vec (l : List Expr)

/-- The collected list of values, `cyjax/polynomial.py:972-983`; `none` for the failing length check
(a scalar given for an array has no length either; an array given for a scalar is not modelled). -/
def collectValues : List (List Char × Option (List ℕ)) → List SymVal → Option (List Expr)
  | (_, none) :: vs, .scalar e :: xs => (collectValues vs xs).map (e :: ·)
  | (_, some inds) :: vs, .vec l :: xs =>
    if l.length = inds.length then (collectValues vs xs).map (l ++ ·) else none
  | [], [] => some []
  | _, _ => none

/-- The dictionary `subs` of `Poly.__call__` with symbolic inputs, `cyjax/polynomial.py:972-984`. -/
def symSubs (m : Meta) (vars : List SymVal) (params : Option (List Expr)) : Option (List (Sym × Expr)) :=
  (collectValues m.vars vars).map fun vs => m.allSymbols.zip (vs ++ params.getD [])

/-- `Poly.__call__` with symbolic inputs, `cyjax/polynomial.py:970-985`. `order` is the order in which
sympy visits the dictionary. -/
def callSym (m : Meta) (e : Expr) (vars : List SymVal) (params : Option (List Expr))
    (order : List (Sym × Expr) → List (Sym × Expr)) : Option Expr :=
  (symSubs m vars params).map fun items => Expr.substSeq (order items) e

/-! ## `compute_monomials` -/

section Monomials

/-- `values`: one array per variable (scalars are arrays of length one after `atleast_1d`) or `None`. -/
abbrev Values (R : Type*) := List (Option (List R))
/-- `powers`: per variable (or `None`), per monomial, the powers of the entries. -/
abbrev Powers (M : ℕ) := List (Option (Fin M → List ℕ))

variable {R : Type*}

/-- `np.prod(v ** np.array(p), axis=-1)` for one monomial. -/
def powProd [CommSemiring R] (v : List R) (p : List ℕ) : R := (List.zipWith (fun x n => x ^ n) v p).prod

/-- The loop over the variables shared by all modes (`cyjax/polynomial.py:281-286` and `:295-314`);
`none` is the failing assertion for a value `None` with powers. -/
def monLoop {M : ℕ} (step : List R → (Fin M → List ℕ) → (Fin M → R) → (Fin M → R)) :
    Values R → Powers M → (Fin M → R) → Option (Fin M → R)
  | none :: vs, some _ :: ps, acc => if M = 0 then monLoop step vs ps acc else none
  | _ :: vs, none :: ps, acc => monLoop step vs ps acc
  | some v :: vs, some p :: ps, acc => monLoop step vs ps (step v p acc)
  | _, _, acc => some acc

/-- The symbolic mode, `cyjax/polynomial.py:278-287`. -/
def monSymbolic [CommSemiring R] {M : ℕ} (values : Values R) (coeffs : Fin M → R) (powers : Powers M) :
    Option (Fin M → R) :=
  (monLoop (fun v p acc c => acc c * powProd v (p c)) values powers (fun _ => 1)).map
    fun prods c => coeffs c * prods c

/-- `log=False, opt=False`, `cyjax/polynomial.py:314,316`. -/
def monDirect [CommSemiring R] {M : ℕ} (values : Values R) (coeffs : Fin M → R) (powers : Powers M) :
    Option (Fin M → R) :=
  (monLoop (fun v p acc c => acc c * powProd v (p c)) values powers (fun _ => 1)).map
    fun prods c => coeffs c * prods c

/-- `_compute_mon_scalar` for `log=False`, `cyjax/polynomial.py:226-234`. -/
def monScalarOpt [CommSemiring R] (product : R) (ap : R × ℕ) : R :=
  if ap.2 = 0 then product else product * ap.1 ^ ap.2

/-- `_compute_mon_scalar` for `log=True`, `cyjax/polynomial.py:226-234`. -/
def monScalarLog (product : ℂ) (ap : ℂ × ℕ) : ℂ :=
  if ap.2 = 0 then product else product + ap.1 * ap.2

/-- `log=False, opt=True` (`_compute_mon` scans over the entries), `cyjax/polynomial.py:237-245,312,316`. -/
def monOpt [CommSemiring R] {M : ℕ} (values : Values R) (coeffs : Fin M → R) (powers : Powers M) :
    Option (Fin M → R) :=
  (monLoop (fun v p acc c => (v.zip (p c)).foldl monScalarOpt (acc c)) values powers (fun _ => 1)).map
    fun prods c => coeffs c * prods c

/-- `log=True`, `cyjax/polynomial.py:291-316`: sums of logarithms, exponential at the end. -/
noncomputable def monLog {M : ℕ} (values : Values ℂ) (coeffs : Fin M → ℂ) (powers : Powers M) :
    Option (Fin M → ℂ) :=
  (monLoop (fun v p acc c => ((v.map Complex.log).zip (p c)).foldl monScalarLog (acc c))
    values powers (fun _ => 0)).map fun sums c => coeffs c * Complex.exp (sums c)

end Monomials

/-! ## Coefficients and powers -/

/-- Numerical coefficient times its symbolic coefficients, `cyjax/polynomial.py:756-758`; `none` if a
symbol is not a parameter. -/
noncomputable def paramCoeff (params : List Sym) (c : ℂ) (ps : List Sym) : Option (MvPolynomial Sym ℂ) :=
  (ps.mapM (fun p => (dictIndex params p).bind fun k => params[k]?)).map
    fun l => C c * Util.prod (l.map X)

/-- Symbols of a variable as array (`all_symbols(True, False)`). -/
noncomputable def varPolys (v : List Char × Option (List ℕ)) : List (MvPolynomial Sym ℂ) :=
  (varSymbols v).map X

/-- `Poly.from_coeffs_and_powers` with explicit names, indices and parameters,
`cyjax/polynomial.py:753-764`. The generators are the non-parameter symbols of the sum; without any,
`sympy.Poly` raises. -/
noncomputable def fromCoeffs {M : ℕ} (coeffs : Fin M → ℂ) (powers : Powers M) (coeffsParams : Fin M → List Sym)
    (md : Meta) : Except PyErr PolyObj :=
  match (List.finRange M).mapM (fun c => paramCoeff md.params (coeffs c) (coeffsParams c)) with
  | none => .error .keyError
  | some cs =>
    match monSymbolic (md.vars.map fun v => some (varPolys v)) (fun c => cs.getD c 0) powers with
    | none => .error .assertionError
    | some mons =>
      let p := ∑ c, mons c
      let gens := p.vars.toList.filter (fun s => s ∉ md.params)
      if gens = [] then .error .polynomialError else .ok ⟨md, p, gens⟩

end Cyjax.Polynomial
