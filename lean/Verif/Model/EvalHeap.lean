import Verif.Model.Poly

/-! # Model of polynomial evaluation with object identity

`Poly.__call__` on numbers passes the objects it is given on to the compiled function (`cyjax/polynomial.py:993-994`), and
products are formed by `util.prod`, which multiplies in place (`cyjax/util.py:36`). This is the same code as in
`Verif.Model.PolyEval`, with the mutable numpy arrays of the caller as a heap (`Util.Heap`). -/

namespace Cyjax.Polynomial

open Cyjax.Util

/-- A numerical input: a scalar object, or a sequence whose entries are objects. (The entries of a one-dimensional numpy
array are immutable numpy scalars; the entries of a python list may be arrays.) -/
inductive HVal where
  | scalar (o : Obj ℂ)
  | vec (l : List (Obj ℂ))

/-- `len` of an input. -/
def HVal.len : HVal → Option ℕ
  | .scalar _ => none
  | .vec l => some l.length

/-- A compiled function: variables, parameters and heap to new heap and result. -/
abbrev HFn := List (List Char × HVal) → Option (List (Obj ℂ)) → Heap ℂ → Heap ℂ × Except PyErr (Obj ℂ)

/-- `var[name]` (`cyjax/polynomial.py:188`): the object of the caller itself. -/
def readScalarH (name : List Char) : HFn := fun var _ h =>
  match dictGet var name with
  | none => (h, .error .keyError)
  | some (.scalar o) => (h, .ok o)
  | some (.vec _) => (h, .error .typeError)

/-- `var[name][i]` (`cyjax/polynomial.py:191`). -/
def readVecH (name : List Char) (i : ℕ) : HFn := fun var _ h =>
  match dictGet var name with
  | none => (h, .error .keyError)
  | some (.scalar _) => (h, .error .typeError)
  | some (.vec l) => match l[i]? with | some o => (h, .ok o) | none => (h, .error .indexError)

/-- `par[index]` (`cyjax/polynomial.py:194`). -/
def readParamH (i : ℕ) : HFn := fun _ par h =>
  match par with
  | none => (h, .error .typeError)
  | some l => match l[i]? with | some o => (h, .ok o) | none => (h, .error .indexError)

/-- `sum(f(z, var) for f in fns)` (`cyjax/polynomial.py:206`): one after the other, `acc + x` is a new object. -/
def sumH : List HFn → ℂ → HFn
  | [], acc, _, _, h => (h, .ok (.imm acc))
  | f :: fs, acc, var, par, h =>
    match f var par h with
    | (h', .error e) => (h', .error e)
    | (h', .ok o) => sumH fs (acc + o.read h') var par h'

/-- `prod(f(z, var) for f in fns)` (`cyjax/polynomial.py:206`, `cyjax/util.py:31-37`): the generator is run by the loop of
`prod`, so that factors are evaluated between the in-place multiplications. -/
def prodH : List HFn → Option (Obj ℂ) → HFn
  | [], none, _, _, h => (h, .ok (.imm 1))
  | [], some pr, _, _, h => (h, .ok pr)
  | f :: fs, pr, var, par, h =>
    match f var par h with
    | (h', .error e) => (h', .error e)
    | (h', .ok o) =>
      match pr with
      | none => prodH fs (some o) var par h'
      | some p => let (h'', p') := imul h' p o; prodH fs (some p') var par h''

/-- `fn1(z, var) ** fn2(z, var)` (`cyjax/polynomial.py:211`): a new object. -/
def powH (f : HFn) (n : ℕ) : HFn := fun var par h =>
  match f var par h with
  | (h', .error e) => (h', .error e)
  | (h', .ok o) => (h', .ok (.imm (o.read h' ^ n)))

/-- The symbol branch of `_eval_sympy_poly`, `cyjax/polynomial.py:183-194`. -/
def compileSymH (m : Meta) (s : Sym) : Except PyErr HFn :=
  match splitSubscript s with
  | .error e => .error e
  | .ok (name, index) =>
    if name ∈ m.names then
      match dictGet m.vars name with
      | none => .error .keyError
      | some none => .ok (readScalarH name)
      | some (some inds) =>
        match index with
        | none => .error .keyError
        | some i =>
          match dictIndex (inds.map (fun (n : ℕ) => (n : ℤ))) i with
          | none => .error .keyError
          | some k => .ok (readVecH name k)
    else
      match dictIndex m.params s with
      | none => .error .keyError
      | some k => .ok (readParamH k)

mutual
/-- `_eval_sympy_poly`, `cyjax/polynomial.py:181-214`. -/
def compileExprH (m : Meta) : Expr → Except PyErr HFn
  | .sym s => compileSymH m s
  | .int n => .ok (fun _ _ h => (h, .ok (.imm (n : ℂ))))
  | .float r => .ok (fun _ _ h => (h, .ok (.imm (r : ℂ))))
  | .add args =>
    match compileListH m args with
    | .error e => .error e
    | .ok fns => .ok (sumH fns 0)
  | .mul args =>
    match compileListH m args with
    | .error e => .error e
    | .ok fns => .ok (prodH fns none)
  | .pow b n =>
    match compileExprH m b with
    | .error e => .error e
    | .ok f => .ok (powH f n)
  | .imagUnit => .error .runtimeError
  | .other => .error .runtimeError

/-- The loop over `p.args`, `cyjax/polynomial.py:201-204`. -/
def compileListH (m : Meta) : List Expr → Except PyErr (List HFn)
  | [] => .ok []
  | e :: es =>
    match compileExprH m e with
    | .error e => .error e
    | .ok f => match compileListH m es with | .error e => .error e | .ok fs => .ok (f :: fs)
end

/-- Entries of a `params` input. -/
def HVal.entries : HVal → List (Obj ℂ)
  | .scalar o => [o]
  | .vec l => l

/-- `Poly.__call__` with numerical inputs, `cyjax/polynomial.py:949-994`, for a polynomial whose `sympy_poly.expr` is `e`:
the heap afterwards and the result. -/
def callHeap (m : Meta) (e : Expr) (args : List HVal) (kwargs : List (List Char × HVal)) (h : Heap ℂ) :
    Heap ℂ × Except PyErr (Obj ℂ) :=
  match sortVarArgs HVal.len m.names m.params.length args kwargs with
  | .error e => (h, .error e)
  | .ok (vals, params) =>
    match compileExprH m e with
    | .error e => (h, .error e)
    | .ok fn => fn (m.names.zip vals) (params.map HVal.entries) h

end Cyjax.Polynomial
