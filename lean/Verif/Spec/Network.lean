import Mathlib.Analysis.SpecialFunctions.Sigmoid
import Mathlib.Data.Matrix.Mul

/-! # Specification: a network of dense layers -/

namespace Cyjax.Spec

open scoped BigOperators

/-- The factor by which dropout multiplies an entry: one if it is switched off or the rate is absent, zero if the entry is
dropped, and one over the probability to keep it otherwise. -/
noncomputable def dropFactor (off : Bool) (rate : Option ℚ) (kept : Bool) : ℝ :=
  match rate with
  | none => 1
  | some r => if off ∨ r = 0 then 1 else if r = 1 then 0 else if kept then 1 / (1 - r) else 0

/-- Layers of the sizes `sizes`, starting with layer `l`. Entry `j` of layer `l` is the activation function of
`∑ i, x i * W l i j + b l j`, times `c l j`. -/
def denseLayers (act : ℝ → ℝ) (W : ℕ → ℕ → ℕ → ℝ) (b c : ℕ → ℕ → ℝ) : List ℕ → ℕ → (Σ m : ℕ, Fin m → ℝ) → Σ m : ℕ, Fin m → ℝ
  | [], _, x => x
  | s :: sizes, l, x =>
    denseLayers act W b c sizes (l + 1) ⟨s, fun j => c l j * act (∑ i, x.2 i * W l i j + b l j)⟩

/-- Last layer: `count` linear functions, each multiplied by the sigmoid of another one if `gate` is set. Functions number
`0, …, count - 1` are the gates, functions number `count, …, 2 * count - 1` the values. -/
noncomputable def gatedLayer (gate : Bool) (count : ℕ) (W : ℕ → ℕ → ℝ) (b : ℕ → ℝ) (x : Σ m : ℕ, Fin m → ℝ) : Fin count → ℝ :=
  let u : ℕ → ℝ := fun j => ∑ i, x.2 i * W i j + b j
  fun j => if gate then Real.sigmoid (u j) * u (count + j) else u j

/-- As `gatedLayer`, with the order of the docstring of `HNetMLP`, `cyjax/ml.py:206-209`: values first, gates second. -/
noncomputable def documentedLayer (gate : Bool) (count : ℕ) (W : ℕ → ℕ → ℝ) (b : ℕ → ℝ) (x : Σ m : ℕ, Fin m → ℝ) :
    Fin count → ℝ :=
  let u : ℕ → ℝ := fun j => ∑ i, x.2 i * W i j + b j
  fun j => if gate then u j * Real.sigmoid (u (count + j)) else u j

end Cyjax.Spec
