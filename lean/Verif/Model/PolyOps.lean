import Verif.Model.Poly

/-! # Model of operations on `Poly` objects: `to_coeffs_and_powers`, arithmetic, `diff`,
`univariate_coefficients` -/

namespace Cyjax.Polynomial

open MvPolynomial

/-! ## `to_coeffs_and_powers` -/

/-- One entry of the lists `coeffs`, `coeffs_params` and (per variable) `powers`. -/
structure Term where
  coeff : ℂ
  params : List Sym
  powers : List (List ℕ)

/-- The parameters of a term (`_add_coeff`, `cyjax/polynomial.py:794-808`): each parameter occurring
linearly is listed; a higher power is a `sympy.Pow`, for which `float` raises. -/
def termParams (m : Sym →₀ ℕ) : List Sym → Option (List Sym)
  | [] => some []
  | p :: ps =>
    if m p = 0 then termParams m ps
    else if m p = 1 then (termParams m ps).map (p :: ·)
    else none

/-- `power_entry` for one variable, `cyjax/polynomial.py:810-818`. -/
def powerEntry (gens : List Sym) (m : Sym →₀ ℕ) (v : List Char × Option (List ℕ)) : List ℕ :=
  (varSymbols v).map (fun s => if s ∈ gens then m s else 0)

open Classical in
/-- `_add_term`, `cyjax/polynomial.py:790-818`, for the part of the coefficient with one monomial in the
parameters. A complex number without parameters is the `Add` of its real part and of `im*I`, and the
latter is recorded as `1j` because the last numeric factor overwrites the first. With parameters, the factors
of an imaginary number are treated in the same way, while a number with both parts is one factor that `float`
rejects, as is a power of a parameter. (Numbers are exact here, so that a real part zero is not printed.) -/
noncomputable def addTerm (P : PolyObj) (c : ℂ) (m : Sym →₀ ℕ) : Except PyErr (List Term) :=
  let pows := P.md.vars.map (powerEntry P.gens m)
  match termParams m P.md.params with
  | none => .error .typeError
  | some ps =>
    if c.im = 0 then .ok [⟨c, ps, pows⟩]
    else if ps = [] then
      if c.re = 0 then .ok [⟨Complex.I, [], pows⟩]
      else .ok [⟨c.re, [], pows⟩, ⟨Complex.I, [], pows⟩]
    else if c.re = 0 then .ok [⟨Complex.I, ps, pows⟩]
    else .error .typeError

/-- All terms, `cyjax/polynomial.py:820-825`. The code groups the terms by their monomial in the
generators and then runs over the summands of the coefficient; here they are listed by their monomial
in all symbols. The zero polynomial has the single term `0`. -/
noncomputable def allTerms (P : PolyObj) : Except PyErr (List Term) :=
  if P.poly = 0 then addTerm P 0 0
  else
    (P.poly.support.toList.mapM (fun m => addTerm P (coeff m P.poly) m)).map List.flatten

/-- `Poly.to_coeffs_and_powers`, `cyjax/polynomial.py:766-831`: coefficients, symbolic coefficients,
powers (`None` for a variable that does not occur, lines 827-829). -/
noncomputable def toCoeffs (P : PolyObj) :
    Except PyErr (Σ M : ℕ, (Fin M → ℂ) × (Fin M → List Sym) × Powers M) :=
  (allTerms P).map fun T =>
    ⟨T.length, fun c => T[c].coeff, fun c => T[c].params,
      (List.range P.md.vars.length).map fun v =>
        if T.all (fun t => (t.powers.getD v []).all (· = 0)) then none
        else some (fun c => T[c].powers.getD v [])⟩

/-! ## Arithmetic -/

/-- One turn of the loop over the other polynomial's variables, `cyjax/polynomial.py:863-875`. -/
def mergeVar (vars : List (List Char × Option (List ℕ))) (v : List Char × Option (List ℕ)) :
    Except PyErr (List (List Char × Option (List ℕ))) :=
  match vars.findIdx? (fun w => w.1 = v.1) with
  | none => .ok (vars ++ [v])
  | some k =>
    match (vars[k]?).bind Prod.snd, v.2 with
    | none, none => .ok vars
    | some a, some b => .ok (vars.set k (v.1, some (unionIndices a b)))
    | _, _ => .error .assertionError

/-- The loop over the other polynomial's variables. -/
def mergeVars (vars : List (List Char × Option (List ℕ))) :
    List (List Char × Option (List ℕ)) → Except PyErr (List (List Char × Option (List ℕ)))
  | [] => .ok vars
  | v :: vs => match mergeVar vars v with | .error e => .error e | .ok vars' => mergeVars vars' vs

/-- `_combine_metadata` for another `Poly`, `cyjax/polynomial.py:833-876`. (The branches for numbers and
single symbols are in `PolyScalar`.) -/
def combineMeta (m m' : Meta) : Except PyErr Meta :=
  let params := m'.params.foldl (fun ps p => if p ∈ ps then ps else ps ++ [p]) m.params
  match mergeVars m.vars m'.vars with
  | .error e => .error e
  | .ok vars => .ok ⟨vars, params⟩

/-- Generators of the unified polynomials. -/
def combineGens (g g' : List Sym) : List Sym := g ++ g'.filter (fun s => s ∉ g)

/-- `Poly.__add__`, `cyjax/polynomial.py:896-905`. -/
noncomputable def PolyObj.add (P Q : PolyObj) : Except PyErr PolyObj :=
  match combineMeta P.md Q.md with
  | .error e => .error e
  | .ok md => .ok ⟨md, P.poly + Q.poly, combineGens P.gens Q.gens⟩

/-- `Poly.__sub__`, `cyjax/polynomial.py:907-916`. -/
noncomputable def PolyObj.sub (P Q : PolyObj) : Except PyErr PolyObj :=
  match combineMeta P.md Q.md with
  | .error e => .error e
  | .ok md => .ok ⟨md, P.poly - Q.poly, combineGens P.gens Q.gens⟩

/-- `Poly.__mul__`, `cyjax/polynomial.py:885-894`. -/
noncomputable def PolyObj.mul (P Q : PolyObj) : Except PyErr PolyObj :=
  match combineMeta P.md Q.md with
  | .error e => .error e
  | .ok md => .ok ⟨md, P.poly * Q.poly, combineGens P.gens Q.gens⟩

/-- `Poly.diff`, `cyjax/polynomial.py:878-883`. `sympy.Poly.diff` raises for a symbol that is not a
generator. -/
noncomputable def PolyObj.diff (P : PolyObj) (s : Sym) : Except PyErr PolyObj :=
  if s ∈ P.gens then .ok ⟨P.md, pderiv s P.poly, P.gens⟩ else .error .polynomialError

/-! ## `univariate_coefficients` -/

/-- Coefficient of `x ^ k` when the polynomial is read as a polynomial in `x` alone
(`sympy.Poly(poly.sympy_poly, var)`, `cyjax/polynomial.py:1043`). -/
noncomputable def uniCoeff (p : MvPolynomial Sym ℂ) (x : Sym) (k : ℕ) : MvPolynomial Sym ℂ :=
  ∑ m ∈ p.support.filter (fun m => m x = k), monomial (m.erase x) (coeff m p)

/-- An entry of the returned list: a number or a `Poly`. -/
inductive UCoeff where
  | num (c : ℂ)
  | poly (P : PolyObj)

/-- One variable without the symbol `x`, `cyjax/polynomial.py:1039-1041` together with the reading of
symbol arrays in `from_sympy`, `:539-548`; `none` if nothing is left. -/
def dropSym (x : Sym) (v : List Char × Option (List ℕ)) : Option (List Char × Option (List ℕ)) :=
  match v.2 with
  | none => if v.1 = x then none else some v
  | some inds =>
    let rest := inds.filter (fun i => mergeSubscript v.1 i ≠ x)
    if rest = [] then none else some (v.1, some rest)

/-- Metadata of the coefficient polynomials. -/
def constMeta (m : Meta) (x : Sym) : Meta := ⟨m.vars.filterMap (dropSym x), m.params⟩

open Classical in
/-- `univariate_coefficients`, `cyjax/polynomial.py:997-1052`, highest order first. If no other variable is
left, `from_sympy` gets an empty list of names for every coefficient that is not a number and raises
(`cyjax/polynomial.py:536`, `all_sym ^ all_str`). The coefficient polynomials are written down directly; that the calls of
`from_sympy` give the same is `C47_from_sympy`. -/
noncomputable def univariateCoefficients (P : PolyObj) (x : Sym) : Except PyErr (List UCoeff) :=
  if x ∈ P.md.params then .error .assertionError
  else if (constMeta P.md x).vars = [] ∧ ∃ k ≤ degreeOf x P.poly, (uniCoeff P.poly x k).vars ≠ ∅ then
    .error .assertionError
  else
    .ok ((List.range (degreeOf x P.poly + 1)).reverse.map fun k =>
      let c := uniCoeff P.poly x k
      if c.vars = ∅ then .num (constantCoeff c)
      else .poly ⟨constMeta P.md x, c, (constMeta P.md x).varSyms⟩)

end Cyjax.Polynomial
