import Verif.Model.Poly
import Mathlib.Data.Int.Log
import Mathlib.Algebra.Order.Round

/-! # Model of evaluation with rounded arithmetic

The other models compute with exact real and complex numbers. Here the arithmetic is a parameter. -/

namespace Cyjax.Fl

/-- The arithmetic of a numerical type: sum, product and the number made from a literal. -/
structure Arith where
  add : ℂ → ℂ → ℂ
  mul : ℂ → ℂ → ℂ
  const : ℝ → ℂ

/-- Exact arithmetic. -/
noncomputable def exact : Arith := ⟨(· + ·), (· * ·), fun r => r⟩

/-- Rounding to `p` binary digits (nearest, unbounded exponent, so no overflow or underflow). -/
noncomputable def rnd (p : ℕ) (x : ℝ) : ℝ :=
  if x = 0 then 0
  else (round (x * 2 ^ ((p : ℤ) - 1 - Int.log 2 |x|)) : ℤ) * 2 ^ (Int.log 2 |x| - ((p : ℤ) - 1))

/-- Complex arithmetic on pairs of rounded real numbers: every real operation is rounded. -/
noncomputable def ofRounding (fl : ℝ → ℝ) : Arith where
  add a b := ⟨fl (a.re + b.re), fl (a.im + b.im)⟩
  mul a b := ⟨fl (fl (a.re * b.re) - fl (a.im * b.im)), fl (fl (a.re * b.im) + fl (a.im * b.re))⟩
  const r := fl r

/-- `acc = x if acc is None else mul(acc, x)` of `jax.lax.integer_pow`. -/
def accMul (mul : ℂ → ℂ → ℂ) : Option ℂ → ℂ → ℂ
  | none, x => x
  | some a, x => mul a x

/-- The loop of `jax.lax.integer_pow` (library code behind `**` in `cyjax/polynomial.py:211` and `:233`): repeated squaring. -/
def intPowLoop (mul : ℂ → ℂ → ℂ) (acc : Option ℂ) (x : ℂ) (y : ℕ) : Option ℂ :=
  if y = 0 then acc
  else
    let acc' := if y % 2 = 1 then some (accMul mul acc x) else acc
    if y / 2 = 0 then acc' else intPowLoop mul acc' (mul x x) (y / 2)
termination_by y
decreasing_by omega

/-- `x ** n` for a literal exponent. -/
def intPow (mul : ℂ → ℂ → ℂ) (x : ℂ) (n : ℕ) : ℂ :=
  match intPowLoop mul none x n with
  | none => 1
  | some a => a

end Cyjax.Fl

namespace Cyjax.Polynomial

open Cyjax.Fl

/-- Python `sum` in the given arithmetic (`cyjax/polynomial.py:205-206`). -/
def pySumF (A : Arith) (xs : List ℂ) : ℂ := xs.foldl A.add 0

/-- The loop of `util.prod` in the given arithmetic, `cyjax/util.py:31-36`. -/
def prodLoopF (A : Arith) : Option ℂ → List ℂ → Option ℂ
  | pr, [] => pr
  | none, f :: fs => prodLoopF A (some f) fs
  | some p, f :: fs => prodLoopF A (some (A.mul p f)) fs

/-- `util.prod` in the given arithmetic, `cyjax/util.py:29-37`. -/
def prodF (A : Arith) (factors : List ℂ) : ℂ :=
  match prodLoopF A none factors with
  | none => 1
  | some pr => pr

/-- `fn1(z, var) ** fn2(z, var)` in the given arithmetic (`cyjax/polynomial.py:211`). -/
def powFnF (A : Arith) (f : Fn) (n : ℕ) : Fn := fun var par =>
  match f var par with
  | .error e => .error e
  | .ok x => .ok (intPow A.mul x n)

mutual
/-- `_eval_sympy_poly` in the given arithmetic, `cyjax/polynomial.py:181-214`. -/
def compileExprF (A : Arith) (m : Meta) : Expr → Except PyErr Fn
  | .sym s => compileSym m s
  | .int n => .ok (fun _ _ => .ok (A.const n))
  | .float r => .ok (fun _ _ => .ok (A.const r))
  | .add args =>
    match compileListF A m args with
    | .error e => .error e
    | .ok fns => .ok (applyOp (pySumF A) fns)
  | .mul args =>
    match compileListF A m args with
    | .error e => .error e
    | .ok fns => .ok (applyOp (prodF A) fns)
  | .pow b n =>
    match compileExprF A m b with
    | .error e => .error e
    | .ok f => .ok (powFnF A f n)
  | .imagUnit => .error .runtimeError
  | .other => .error .runtimeError

/-- The loop over `p.args`, `cyjax/polynomial.py:201-204`. -/
def compileListF (A : Arith) (m : Meta) : List Expr → Except PyErr (List Fn)
  | [] => .ok []
  | e :: es =>
    match compileExprF A m e with
    | .error e => .error e
    | .ok f => match compileListF A m es with | .error e => .error e | .ok fs => .ok (f :: fs)
end

/-- The numerical branch of `Poly.__call__` in the given arithmetic, `cyjax/polynomial.py:988-994`. -/
def evalNumF (A : Arith) (m : Meta) (e : Expr) (vals : List Val) (params : Option (List ℂ)) : Except PyErr ℂ :=
  match compileExprF A m e with
  | .error e => .error e
  | .ok fn => fn (m.names.zip vals) params

/-- `Poly.__call__` with numerical inputs in the given arithmetic, `cyjax/polynomial.py:949-994`. -/
def callNumF (A : Arith) (m : Meta) (e : Expr) (args : List Val) (kwargs : List (List Char × Val)) : Except PyErr ℂ :=
  match sortVarArgs Val.len m.names m.params.length args kwargs with
  | .error e => .error e
  | .ok (vals, params) => evalNumF A m e vals (params.map Val.entries)

/-- `Poly.__call__` of a polynomial object in the given arithmetic, `cyjax/polynomial.py:949-994`. -/
noncomputable def PolyObj.callF (A : Arith) (P : PolyObj) (args : List Val) (kwargs : List (List Char × Val)) :
    Except PyErr ℂ :=
  callNumF A P.md (polyExpr P.poly) args kwargs

end Cyjax.Polynomial
