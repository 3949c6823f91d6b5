import Verif.Model.PolyOps
import Mathlib.Algebra.MvPolynomial.Rename

/-! # Model of `Poly.from_sympy` -/

namespace Cyjax.Polynomial

open MvPolynomial

/-- `split_subscript` (`cyjax/polynomial.py:62-90`) as used in `from_sympy`. Simplification: symbolic indices
are natural numbers, a negative subscript is an error here. -/
def splitNat (v : Sym) : Except PyErr (List Char × Option ℕ) :=
  match splitSubscript v with
  | .error e => .error e
  | .ok (name, none) => .ok (name, none)
  | .ok (name, some i) => if i < 0 then .error .valueError else .ok (name, some i.toNat)

/-- The arguments of `from_sympy`, `cyjax/polynomial.py:467-473`: `variable_names` (strings; for
arrays of symbols see `Model/FromSympyForms.lean`), `parameters`, and `variable_indices` (or the ranges made from
`variable_dim`, lines 523-525). -/
structure FromSympyArgs where
  names : Option (List (List Char))
  params : Option (List Sym)
  indices : Option (List (Option (List ℕ)))

/-- The lists updated by the loop, `cyjax/polynomial.py:566-575`. -/
structure ScanState where
  names : List (List Char)
  inds : List (Option (List ℕ))
  appeared : List Bool
  params : List Sym
  rename : List (Sym × Sym)

/-- State before the loop, `cyjax/polynomial.py:564-575`. -/
def FromSympyArgs.init (a : FromSympyArgs) : ScanState where
  names := a.names.getD []
  inds := a.indices.getD (List.replicate (a.names.getD []).length none)
  appeared := List.replicate (a.names.getD []).length false
  params := a.params.getD []
  rename := []

/-- One turn of the loop over `free_symbols`, `cyjax/polynomial.py:577-631`. `var_name_index` is made
from the names before the loop (line 575) and not updated. -/
def scanSymbol (a : FromSympyArgs) (s : ScanState) (v : Sym) : Except PyErr ScanState :=
  if v ∈ s.params then .ok s
  else
    match splitNat v with
    | .error e => .error e
    | .ok (name, index) =>
      if a.names.isSome ∧ name ∉ s.names then
        if a.params.isSome then .error .assertionError
        else .ok { s with params := s.params ++ [v] }
      else
        match dictIndex (a.names.getD []) name with
        | none =>
          if a.names.isSome then .error .valueError
          else .ok { s with names := s.names ++ [name], inds := s.inds ++ [index.map fun i => [i]],
                            appeared := s.appeared ++ [true] }
        | some k =>
          match index, s.inds[k]? with
          | _, none => .error .indexError
          | none, some none => .ok s
          | none, some (some _) => .error .assertionError
          | some i, some l? =>
            let rename := s.rename ++ [(v, mergeSubscript name i)]
            if a.indices.isSome then
              match l? with
              | none => .error .typeError
              | some l => if i ∈ l then .ok { s with rename := rename } else .error .assertionError
            else
              match l? with
              | none =>
                if s.appeared.getD k false then .error .assertionError
                else .ok { s with inds := s.inds.set k (some [i]), rename := rename }
              | some l =>
                .ok { s with inds := s.inds.set k (some (l ++ [i])), appeared := s.appeared.set k true,
                             rename := rename }

/-- The loop over `free_symbols` in the given order. -/
def scanSymbols (a : FromSympyArgs) : ScanState → List Sym → Except PyErr ScanState
  | s, [] => .ok s
  | s, v :: vs => match scanSymbol a s v with | .error e => .error e | .ok s' => scanSymbols a s' vs

/-- `sorted(ind)`. -/
def sortNat (l : List ℕ) : List ℕ := l.mergeSort (fun a b => decide (a ≤ b))

/-- `sorted(parameters, key=str)`. -/
def sortSyms (l : List Sym) : List Sym := l.mergeSort (fun a b => decide (a ≤ b))

/-- Metadata after the loop, `cyjax/polynomial.py:632-639`. -/
def finishMeta (a : FromSympyArgs) (s : ScanState) : Meta where
  vars := s.names.zip (if a.indices.isSome then s.inds else s.inds.map (Option.map sortNat))
  params := if a.params.isSome then s.params else sortSyms s.params

/-- `expr.subs(rename)`. The replaced symbols are replaced by symbols that are not replaced by something
else, so the order does not matter. -/
def renameSym (r : List (Sym × Sym)) (v : Sym) : Sym := (dictGet r v).getD v

open Classical in
/-- The end of `from_sympy`, `cyjax/polynomial.py:632-644`. The constructor of `Poly` makes a call signature
from the names (lines 345-363), which raises for repeated names (that a name is a python identifier is
checked there, too; not modelled). `sympy.Poly` raises if there are no generators (simplification:
without generators it would look for some itself), for repeated generators, if a generator
is a parameter, and if another symbol than these occurs in the expanded expression. -/
noncomputable def finish (a : FromSympyArgs) (p : MvPolynomial Sym ℂ) (s : ScanState) : Except PyErr PolyObj :=
  let md := finishMeta a s
  if ¬ (s.names ++ [paramsKey]).Nodup then .error .valueError
  else if s.names.length ≠ s.inds.length then .error .indexError
  else
    let q := rename (renameSym s.rename) p
    if md.varSyms = [] ∨ ¬ md.varSyms.Nodup ∨ (∃ g ∈ md.varSyms, g ∈ md.params) ∨
        (∃ g ∈ q.vars, g ∉ md.varSyms ∧ g ∉ md.params) then .error .polynomialError
    else .ok ⟨md, q, md.varSyms⟩

/-- `Poly.from_sympy` for an expression, `cyjax/polynomial.py:466-644`. The expression is given by the polynomial
`p` it expands to and its free symbols `free`, in the order in which python visits this set. -/
noncomputable def fromSympy (a : FromSympyArgs) (p : MvPolynomial Sym ℂ) (free : List Sym) :
    Except PyErr PolyObj :=
  if a.names = some [] ∨ (a.names = none ∧ a.indices.isSome) then .error .assertionError
  else
    match scanSymbols a a.init free with
    | .error e => .error e
    | .ok s => finish a p s

end Cyjax.Polynomial
