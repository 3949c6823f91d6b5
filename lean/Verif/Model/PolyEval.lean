import Verif.Model.Subscript
import Verif.Model.UtilMisc
import Mathlib.Data.Complex.Basic

/-! # Model of polynomial evaluation: argument binding and `_eval_sympy_poly` -/

namespace Cyjax.Polynomial

/-! ## Python dictionaries -/

/-- Lookup in a python dictionary built from key-value pairs in this order (later pairs win). -/
def dictGet {κ β : Type*} [DecidableEq κ] (l : List (κ × β)) (k : κ) : Option β :=
  (l.reverse.find? (fun p => p.1 = k)).map Prod.snd

/-- `{x: i for i, x in enumerate(l)}` applied to a key. -/
def dictIndex {κ : Type*} [DecidableEq κ] (l : List κ) (k : κ) : Option ℕ :=
  dictGet l.zipIdx k

/-! ## Argument binding -/

/-- The keyword under which parameters are passed. -/
def paramsKey : List Char := "params".toList

/-- The variables of `_sort_var_args` that are taken from the keywords, `cyjax/polynomial.py:158-159`. -/
def kwVariables {α : Type*} (kwargs : List (List Char × α)) : List (List Char) → Except PyErr (List α)
  | [] => .ok []
  | n :: ns =>
    match dictGet kwargs n with
    | none => .error .keyError
    | some v =>
      match kwVariables kwargs ns with
      | .error e => .error e
      | .ok vs => .ok (v :: vs)

/-- `_sort_var_args`, `cyjax/polynomial.py:139-164`. `len` is python's `len` on argument values (`none`
raises a `TypeError`); `nParams` is the number of parameters of the polynomial. -/
def sortVarArgs {α : Type*} (len : α → Option ℕ) (names : List (List Char)) (nParams : ℕ)
    (args : List α) (kwargs : List (List Char × α)) : Except PyErr (List α × Option α) :=
  let bound : Except PyErr (List α × Option α × List (List Char × α)) :=
    match dictGet kwargs paramsKey with
    | some p => .ok (args, some p, kwargs.filter (fun kv => kv.1 ≠ paramsKey))
    | none =>
      if args.length = names.length + 1 then
        .ok (args.dropLast, args.getLast?, kwargs)
      else if args.length > names.length + 1 then .error .runtimeError
      else .ok (args, none, kwargs)
  match bound with
  | .error e => .error e
  | .ok (varArgs, params, kwargs) =>
    let positional := varArgs.take names.length
    match kwVariables kwargs (names.drop positional.length) with
    | .error e => .error e
    | .ok rest =>
      match params with
      | none => .ok (positional ++ rest, none)
      | some p =>
        match len p with
        | none => .error .typeError
        | some k => if k = nParams then .ok (positional ++ rest, some p) else .error .assertionError

/-! ## Expressions -/

/-- A sympy expression as it is stored in a `sympy.Poly`. Exponents are literal non-negative integers,
which is the only form occurring in `sympy.Poly.expr`. `other` is any other node. -/
inductive Expr where
  | sym (s : Sym)
  | int (n : ℤ)
  | float (r : ℝ)
  | imagUnit
  | add (args : List Expr)
  | mul (args : List Expr)
  | pow (base : Expr) (n : ℕ)
  | other

/-- A numerical input: a scalar or a one-dimensional array. -/
inductive Val where
  | scalar (x : ℂ)
  | vec (l : List ℂ)

/-- `len` of an input; scalars have none. -/
def Val.len : Val → Option ℕ
  | .scalar _ => none
  | .vec l => some l.length

/-- Names, indices (`none` for scalars) and parameters of a polynomial
(`cyjax/polynomial.py:320-327`). Simplifications: `variable_names` and `variable_indices` are one list
(the code always zips them); indices are natural numbers. -/
structure Meta where
  vars : List (List Char × Option (List ℕ))
  params : List Sym

def Meta.names (m : Meta) : List (List Char) := m.vars.map Prod.fst

/-- Symbols of one variable, `cyjax/polynomial.py:664-673`. -/
def varSymbols (v : List Char × Option (List ℕ)) : List Sym :=
  match v.2 with
  | none => [v.1]
  | some inds => inds.map (mergeSubscript v.1)

/-- `all_symbols(False, False)`, `cyjax/polynomial.py:646-679`. -/
def Meta.varSyms (m : Meta) : List Sym := m.vars.flatMap varSymbols

/-- `all_symbols(False)`, `cyjax/polynomial.py:646-679`. -/
def Meta.allSymbols (m : Meta) : List Sym := m.varSyms ++ m.params

/-- A compiled evaluation function: variables by name, parameters; errors are raised when called. -/
abbrev Fn := List (List Char × Val) → Option (List ℂ) → Except PyErr ℂ

/-- `var[name]` for a scalar variable. (For an array the code would go on with the whole array; this
shape mismatch is an error here.) -/
def readScalar (name : List Char) : Fn := fun var _ =>
  match dictGet var name with
  | none => .error .keyError
  | some (.scalar x) => .ok x
  | some (.vec _) => .error .typeError

/-- `var[name][i]`. (Out of range: an error as for numpy and python arrays; jax would clamp.) -/
def readVec (name : List Char) (i : ℕ) : Fn := fun var _ =>
  match dictGet var name with
  | none => .error .keyError
  | some (.scalar _) => .error .typeError
  | some (.vec l) => match l[i]? with | some x => .ok x | none => .error .indexError

/-- `par[index]`. -/
def readParam (i : ℕ) : Fn := fun _ par =>
  match par with
  | none => .error .typeError
  | some l => match l[i]? with | some x => .ok x | none => .error .indexError

/-- Run all functions of a generator. -/
def runAll (var : List (List Char × Val)) (par : Option (List ℂ)) : List Fn → Except PyErr (List ℂ)
  | [] => .ok []
  | f :: fs =>
    match f var par with
    | .error e => .error e
    | .ok x => match runAll var par fs with | .error e => .error e | .ok xs => .ok (x :: xs)

/-- `op(f(z, var) for f in fns)` (`cyjax/polynomial.py:206`). -/
def applyOp (op : List ℂ → ℂ) (fns : List Fn) : Fn := fun var par =>
  match runAll var par fns with
  | .error e => .error e
  | .ok xs => .ok (op xs)

/-- `fn1(z, var) ** fn2(z, var)` for a literal exponent (`cyjax/polynomial.py:211`). -/
def powFn (f : Fn) (n : ℕ) : Fn := fun var par =>
  match f var par with
  | .error e => .error e
  | .ok x => .ok (x ^ n)

/-- Python `sum`: start from `0` and add from the left. -/
def pySum (xs : List ℂ) : ℂ := xs.foldl (· + ·) 0

/-- The symbol branch of `_eval_sympy_poly`, `cyjax/polynomial.py:183-194`. -/
def compileSym (m : Meta) (s : Sym) : Except PyErr Fn :=
  match splitSubscript s with
  | .error e => .error e
  | .ok (name, index) =>
    if name ∈ m.names then
      match dictGet m.vars name with
      | none => .error .keyError
      | some none => .ok (readScalar name)
      | some (some inds) =>
        match index with
        | none => .error .keyError
        | some i =>
          match dictIndex (inds.map (fun (n : ℕ) => (n : ℤ))) i with
          | none => .error .keyError
          | some k => .ok (readVec name k)
    else
      match dictIndex m.params s with
      | none => .error .keyError
      | some k => .ok (readParam k)

mutual
/-- `_eval_sympy_poly`, `cyjax/polynomial.py:181-214`: compile an expression to a function. The
imaginary unit is not a `sympy.Number`, so it ends in the last branch. -/
def compileExpr (m : Meta) : Expr → Except PyErr Fn
  | .sym s => compileSym m s
  | .int n => .ok (fun _ _ => .ok (n : ℂ))
  | .float r => .ok (fun _ _ => .ok (r : ℂ))
  | .add args =>
    match compileList m args with
    | .error e => .error e
    | .ok fns => .ok (applyOp pySum fns)
  | .mul args =>
    match compileList m args with
    | .error e => .error e
    | .ok fns => .ok (applyOp Util.prod fns)
  | .pow b n =>
    match compileExpr m b with
    | .error e => .error e
    | .ok f => .ok (powFn f n)
  | .imagUnit => .error .runtimeError
  | .other => .error .runtimeError

/-- The loop over `p.args`, `cyjax/polynomial.py:201-204`. -/
def compileList (m : Meta) : List Expr → Except PyErr (List Fn)
  | [] => .ok []
  | e :: es =>
    match compileExpr m e with
    | .error e => .error e
    | .ok f => match compileList m es with | .error e => .error e | .ok fs => .ok (f :: fs)
end

/-- The numerical branch of `Poly.__call__` after argument binding, `cyjax/polynomial.py:988-994`. -/
def evalNum (m : Meta) (e : Expr) (vals : List Val) (params : Option (List ℂ)) : Except PyErr ℂ :=
  match compileExpr m e with
  | .error e => .error e
  | .ok fn => fn (m.names.zip vals) params

/-- Entries of a `params` input. -/
def Val.entries : Val → List ℂ
  | .scalar x => [x]
  | .vec l => l

/-- `Poly.__call__` with numerical inputs, `cyjax/polynomial.py:949-994`. -/
def callNum (m : Meta) (e : Expr) (args : List Val) (kwargs : List (List Char × Val)) :
    Except PyErr ℂ :=
  match sortVarArgs Val.len m.names m.params.length args kwargs with
  | .error e => .error e
  | .ok (vals, params) => evalNum m e vals (params.map Val.entries)

end Cyjax.Polynomial
