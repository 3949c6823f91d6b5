import Verif.Model.PolyScalar
import Verif.Spec.Poly

/-! # Specification vocabulary for operands that are not `Poly` objects -/

namespace Cyjax.Polynomial

/-- The operand is written as the polynomial writes its symbols: a scalar variable by its name, an entry of an array by name and
index, and anything else with a base name that is no variable. -/
def Operand.Fits (m : Meta) : Operand → Prop
  | .number c => c.im = 0
  | .symbol s => (∃ v ∈ m.vars, v.2 = none ∧ s = v.1) ∨
    (∃ v ∈ m.vars, ∃ inds i, v.2 = some inds ∧ s = mergeSubscript v.1 i) ∨
    ∃ name ix, splitNat s = .ok (name, ix) ∧ name ∉ m.names

/-- The number an operand stands for. -/
def Operand.value (ρ : Sym → ℂ) : Operand → ℂ
  | .number c => c
  | .symbol s => ρ s

end Cyjax.Polynomial
