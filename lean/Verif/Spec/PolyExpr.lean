import Verif.Model.PolyEval
import Mathlib.Algebra.BigOperators.Group.List.Basic

/-! # Meaning of polynomial expressions -/

namespace Cyjax.Polynomial

mutual
/-- Value of an expression when the symbols have the values `ρ`. -/
noncomputable def Expr.value (ρ : Sym → ℂ) : Expr → ℂ
  | .sym s => ρ s
  | .int n => n
  | .float r => r
  | .imagUnit => Complex.I
  | .add args => (Expr.values ρ args).sum
  | .mul args => (Expr.values ρ args).prod
  | .pow b n => b.value ρ ^ n
  | .other => 0

noncomputable def Expr.values (ρ : Sym → ℂ) : List Expr → List ℂ
  | [] => []
  | e :: es => e.value ρ :: Expr.values ρ es
end

mutual
/-- Symbols occurring in an expression. -/
def Expr.symbols : Expr → List Sym
  | .sym s => [s]
  | .int _ | .float _ | .imagUnit | .other => []
  | .add args => Expr.symbolsList args
  | .mul args => Expr.symbolsList args
  | .pow b _ => b.symbols

def Expr.symbolsList : List Expr → List Sym
  | [] => []
  | e :: es => e.symbols ++ Expr.symbolsList es
end

mutual
/-- The expression is built from symbols, real numbers, sums, products and powers only. -/
def Expr.Real : Expr → Prop
  | .sym _ | .int _ | .float _ => True
  | .imagUnit | .other => False
  | .add args => Expr.RealList args
  | .mul args => Expr.RealList args
  | .pow b _ => b.Real

def Expr.RealList : List Expr → Prop
  | [] => True
  | e :: es => e.Real ∧ Expr.RealList es
end

/-- A variable name: a non-empty word of letters. -/
def GoodName (n : List Char) : Prop := n ≠ [] ∧ ∀ c ∈ n, isLetter c = true

instance (n : List Char) : Decidable (GoodName n) := by unfold GoodName; infer_instance

/-- Sensible names: variables are distinct words of letters with distinct indices, parameters
are distinct and do not share the base name of a variable. -/
structure Meta.WF (m : Meta) : Prop where
  namesNodup : m.names.Nodup
  good : ∀ v ∈ m.vars, GoodName v.1
  indsNodup : ∀ v ∈ m.vars, ∀ inds, v.2 = some inds → inds.Nodup
  paramsNodup : m.params.Nodup
  params : ∀ s ∈ m.params, ∃ name ix, splitSubscript s = .ok (name, ix) ∧ name ∉ m.names

/-- Value of one input variable (scalar or array in the order of the indices) under `ρ`. -/
def varInput (ρ : Sym → ℂ) (v : List Char × Option (List ℕ)) : Val :=
  match v.2 with
  | none => .scalar (ρ v.1)
  | some inds => .vec (inds.map fun i => ρ (mergeSubscript v.1 i))

/-- The inputs of a polynomial, in order, under the assignment `ρ` of values to symbols. -/
def Meta.inputs (m : Meta) (ρ : Sym → ℂ) : List Val := m.vars.map (varInput ρ)

/-- The parameter input under the assignment `ρ`. -/
def Meta.paramInput (m : Meta) (ρ : Sym → ℂ) : List ℂ := m.params.map ρ

/-- An input has the shape of the variable. -/
def ShapeOK (v : List Char × Option (List ℕ)) (x : Val) : Prop :=
  match v.2, x with
  | none, .scalar _ => True
  | some inds, .vec l => l.length = inds.length
  | _, _ => False

end Cyjax.Polynomial
