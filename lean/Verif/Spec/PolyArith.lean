import Verif.Spec.Poly
import Verif.Model.PolyScalar
import Mathlib.Analysis.Calculus.Deriv.Basic
import Mathlib.Analysis.Complex.Basic

/-! # Expressions built from polynomial objects with operators and derivatives -/

namespace Cyjax.Polynomial

/-- The operators `+`, `-` and `*`. -/
inductive PolyOp where
  | add | sub | mul

/-- What an operator means for numbers. -/
def PolyOp.apply : PolyOp → ℂ → ℂ → ℂ
  | .add, x, y => x + y
  | .sub, x, y => x - y
  | .mul, x, y => x * y

/-- An expression a user writes with polynomial objects `P`: `a + b`, `a * 3`, `a.diff(s)`, nested at will. -/
inductive PolyTree where
  | leaf (P : PolyObj)
  | op (o : PolyOp) (a b : PolyTree)
  | num (o : PolyOp) (a : PolyTree) (c : ℂ)
  | diff (a : PolyTree) (s : Sym)

/-- The code's operator for two objects. -/
noncomputable def PolyOp.run : PolyOp → PolyObj → PolyObj → Except PyErr PolyObj
  | .add, P, Q => P.add Q
  | .sub, P, Q => P.sub Q
  | .mul, P, Q => P.mul Q

/-- The code's operator for an object and a number. -/
noncomputable def PolyOp.runNum : PolyOp → PolyObj → ℂ → Except PyErr PolyObj
  | .add, P, c => P.addOperand (.number c)
  | .sub, P, c => P.subOperand (.number c)
  | .mul, P, c => P.mulOperand (.number c)

/-- Evaluating the expression with the operations of the code, from the inside outwards. -/
noncomputable def PolyTree.run : PolyTree → Except PyErr PolyObj
  | .leaf P => .ok P
  | .op o a b => do o.run (← a.run) (← b.run)
  | .num o a c => do o.runNum (← a.run) c
  | .diff a s => do (← a.run).diff s

/-- The polynomial objects in an expression. -/
def PolyTree.leaves : PolyTree → List PolyObj
  | .leaf P => [P]
  | .op _ a b => a.leaves ++ b.leaves
  | .num _ a _ => a.leaves
  | .diff a _ => a.leaves

open Classical in
/-- The number the expression stands for, if the symbols have the values `ρ`: the objects are called, and the operators and
derivatives are those of numbers and functions. -/
noncomputable def PolyTree.value : PolyTree → (Sym → ℂ) → ℂ
  | .leaf P, ρ => match P.callAt ρ with | .ok x => x | .error _ => 0
  | .op o a b, ρ => o.apply (a.value ρ) (b.value ρ)
  | .num o a c, ρ => o.apply (a.value ρ) c
  | .diff a s, ρ => deriv (fun t => a.value (Function.update ρ s t)) (ρ s)

/-- Numbers are real, and every derivative is with respect to a generator of one of the objects. -/
def PolyTree.Fits : PolyTree → Prop
  | .leaf _ => True
  | .op _ a b => a.Fits ∧ b.Fits
  | .num _ a c => a.Fits ∧ c.im = 0
  | .diff a s => a.Fits ∧ ∃ P ∈ a.leaves, s ∈ P.gens

end Cyjax.Polynomial
