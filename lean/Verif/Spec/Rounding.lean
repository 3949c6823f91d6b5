import Verif.Model.Rounding
import Verif.Spec.PolyExpr
import Mathlib.Analysis.Complex.Norm

/-! # Specification of rounding errors -/

namespace Cyjax.Fl

/-- The standard model of floating-point arithmetic: every operation has relative error at most `ε`. -/
structure Arith.Accurate (A : Arith) (ε : ℝ) : Prop where
  nonneg : 0 ≤ ε
  add : ∀ a b, ‖A.add a b - (a + b)‖ ≤ ε * ‖a + b‖
  mul : ∀ a b, ‖A.mul a b - a * b‖ ≤ ε * ‖a * b‖
  const : ∀ r : ℝ, ‖A.const r - r‖ ≤ ε * |r|

/-- A rounding of real numbers with unit roundoff `u`. -/
def IsRounding (fl : ℝ → ℝ) (u : ℝ) : Prop := ∀ x, |fl x - x| ≤ u * |x|

/-- Numbers with `p` significant binary digits. -/
def IsFloat (p : ℕ) (x : ℝ) : Prop := ∃ m e : ℤ, x = m * 2 ^ e ∧ |m| ≤ 2 ^ p

end Cyjax.Fl

namespace Cyjax.Polynomial

mutual
/-- Value of the expression with every number and symbol replaced by its absolute value. -/
noncomputable def Expr.absValue (ρ : Sym → ℂ) : Expr → ℝ
  | .sym s => ‖ρ s‖
  | .int n => |(n : ℝ)|
  | .float r => |r|
  | .imagUnit => 1
  | .add args => (Expr.absValues ρ args).sum
  | .mul args => (Expr.absValues ρ args).prod
  | .pow b n => b.absValue ρ ^ n
  | .other => 0

noncomputable def Expr.absValues (ρ : Sym → ℂ) : List Expr → List ℝ
  | [] => []
  | e :: es => e.absValue ρ :: Expr.absValues ρ es
end

mutual
/-- Number of roundings that enter the result: one per literal, the maximum over the terms and one per term of a sum, all
factors and one less than their number for a product, powers as products. -/
def Expr.roundings : Expr → ℕ
  | .sym _ | .imagUnit | .other => 0
  | .int _ | .float _ => 1
  | .add args => Expr.maxRoundings args + args.length
  | .mul args => Expr.sumRoundings args + (args.length - 1)
  | .pow b n => n * b.roundings + (n - 1)

def Expr.maxRoundings : List Expr → ℕ
  | [] => 0
  | e :: es => max e.roundings (Expr.maxRoundings es)

def Expr.sumRoundings : List Expr → ℕ
  | [] => 0
  | e :: es => e.roundings + Expr.sumRoundings es
end

end Cyjax.Polynomial
