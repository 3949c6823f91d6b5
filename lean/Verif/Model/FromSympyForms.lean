import Verif.Model.FromSympy

/-! # Model of the other inputs of `Poly.from_sympy`: arrays of symbols, and a `sympy.Poly` -/

namespace Cyjax.Polynomial

/-- The name of one variable given as an array of symbols, `cyjax/polynomial.py:542-544`. -/
def arrayName : List Sym → Except PyErr (List Char)
  | [] => .ok "dummy".toList
  | v :: _ => match splitNat v with | .error e => .error e | .ok (n, _) => .ok n

/-- The subscripts of the symbols of an array, `cyjax/polynomial.py:547`. Simplification: in the code a symbol without
subscript puts `None` in the list, which raises later (when the symbols are made from the name and the list, or when the list
is sorted or compared); here it raises at once. -/
def arraySubscripts : List Sym → Except PyErr (List ℕ)
  | [] => .ok []
  | v :: vs =>
    match splitNat v with
    | .error e => .error e
    | .ok (_, none) => .error .typeError
    | .ok (_, some i) => match arraySubscripts vs with | .error e => .error e | .ok l => .ok (i :: l)

/-- The indices of one variable given as an array of symbols, `cyjax/polynomial.py:545-548`. -/
def arrayIndices (var : List Sym) : Except PyErr (Option (List ℕ)) :=
  match var with
  | [v] =>
    match splitNat v with
    | .error e => .error e
    | .ok (_, none) => .ok none
    | .ok (_, some i) => .ok (some [i])
  | var => match arraySubscripts var with | .error e => .error e | .ok l => .ok (some l)

/-- The names and indices of all variables given as arrays, `cyjax/polynomial.py:541-548`. -/
def arrayVars : List (List Sym) → Except PyErr (List (List Char × Option (List ℕ)))
  | [] => .ok []
  | v :: vs =>
    match arrayName v, arrayIndices v, arrayVars vs with
    | .error e, _, _ => .error e
    | _, .error e, _ => .error e
    | _, _, .error e => .error e
    | .ok n, .ok i, .ok l => .ok ((n, i) :: l)

/-- `Poly.from_sympy` for an expression with `variable_names` a list of arrays of symbols (given flattened, in the order of
`flatten`), `cyjax/polynomial.py:534-548` and the rest as for strings. Without arrays both `all_str` and `all_sym` hold, which
raises (line 536). Arguments `variable_indices` or `variable_dim` are overwritten. -/
noncomputable def fromSympyArrays (arrays : List (List Sym)) (params : Option (List Sym)) (p : MvPolynomial Sym ℂ)
    (free : List Sym) : Except PyErr PolyObj :=
  if arrays = [] then .error .assertionError
  else
    match arrayVars arrays with
    | .error e => .error e
    | .ok vars => fromSympy ⟨some (vars.map Prod.fst), params, some (vars.map Prod.snd)⟩ p free

/-- The base names of the generators of a `sympy.Poly`, `cyjax/polynomial.py:555`, with repetitions. -/
def genNames : List Sym → Except PyErr (List (List Char))
  | [] => .ok []
  | g :: gs =>
    match splitNat g, genNames gs with
    | .error e, _ => .error e
    | _, .error e => .error e
    | .ok (n, _), .ok l => .ok (n :: l)

/-- `Poly.from_sympy` for a `sympy.Poly`, `cyjax/polynomial.py:551-558`: it is given by its generators `gens`, the symbols
of its domain if that has any, the polynomial `p` of its expression, and the free symbols of the expression. `setOrder`
is the order in which python lists a set of names. -/
noncomputable def fromSympyPoly (setOrder : List (List Char) → List (List Char)) (gens : List Sym)
    (domain : Option (List Sym)) (a : FromSympyArgs) (p : MvPolynomial Sym ℂ) (free : List Sym) : Except PyErr PolyObj :=
  if a.names = some [] ∨ (a.names = none ∧ a.indices.isSome) then .error .assertionError
  else
    let params := match a.params with | some l => some l | none => domain
    match a.names with
    | some ns => fromSympy ⟨some ns, params, a.indices⟩ p free
    | none =>
      match genNames gens with
      | .error e => .error e
      | .ok ns => fromSympy ⟨some (setOrder ns.dedup), params, a.indices⟩ p free

end Cyjax.Polynomial
