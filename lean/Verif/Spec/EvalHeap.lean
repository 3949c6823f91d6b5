import Verif.Model.EvalHeap

/-! # Vocabulary for the statements about evaluation and the inputs of the caller -/

namespace Cyjax.Polynomial

open Cyjax.Util

/-- The current value of an input. -/
def HVal.read (h : Heap ℂ) : HVal → Val
  | .scalar o => .scalar (o.read h)
  | .vec l => .vec (l.map (Obj.read h))

/-- An object that is not a mutable array. -/
def IsImm (o : Obj ℂ) : Prop := ∃ c, o = .imm c

def HVal.Imm : HVal → Prop
  | .scalar o => IsImm o
  | .vec l => ∀ o ∈ l, IsImm o

/-- Evaluating the expression gives an object that no input refers to (`I`: no input is a mutable array). -/
def Expr.fresh (I : Prop) : Expr → Prop
  | .sym _ => I
  | .mul (e :: _) => Expr.fresh I e
  | _ => True

mutual
/-- In every product with at least two factors the first factor is a new object. -/
def Expr.safe (I : Prop) : Expr → Prop
  | .add args => Expr.safeList I args
  | .mul args => Expr.safeList I args ∧ ∀ e e' es, args = e :: e' :: es → Expr.fresh I e
  | .pow b _ => Expr.safe I b
  | _ => True

def Expr.safeList (I : Prop) : List Expr → Prop
  | [] => True
  | e :: es => Expr.safe I e ∧ Expr.safeList I es
end

end Cyjax.Polynomial
