import Verif.Spec.RoundingUniform
import Verif.Spec.RoundingIteration

/-! # Specification of a numerical run: Donaldson's algorithm with computed weights (C170) -/

namespace Cyjax.Spec

open Cyjax.Fl Cyjax.Donaldson Cyjax.Variety

/-- What a numerical step at the points of `B` batches of size `M` depends on besides the arithmetic and the matrix: the computed sections
and gradients at the points, the volume, the determinant of the library and the orders of all operations. The weights are computed from
the gradients. -/
structure RunStep (N n B M : ℕ) where
  mon : Fin B → Fin M → Fin N → ℂ
  grad : Fin B → Fin M → Fin (n + 1) → ℂ
  vol : ℝ
  det : Matrix (Fin n) (Fin n) ℂ → ℂ
  ta : RTree (Fin N)
  tb : RTree (Fin N)
  t : RTree (Fin M)
  tz : RTree (Fin (n + 1))
  tja : RTree (Fin (n + 1))
  tjb : RTree (Fin (n + 1))

/-- The computed weights at the points `z`. -/
noncomputable def RunStep.weights {N n B M : ℕ} (c : RunStep N n B M) (A : Arith) (D : DivAbs) (z : Fin B → Fin M → Fin (n + 1) → ℂ)
    (i : Fin B) (k : Fin M) : ℝ :=
  weightF A D c.det c.tz c.tja c.tjb (c.grad i k) (z i k) none (some 1)

/-- The result of a step in the given arithmetic, from the matrix `g`. -/
noncomputable def RunStep.step {N n B M : ℕ} (c : RunStep N n B M) (A : Arith) (D : DivAbs)
    (inv : Matrix (Fin N) (Fin N) ℂ → Matrix (Fin N) (Fin N) ℂ) (z : Fin B → Fin M → Fin (n + 1) → ℂ) (g : Matrix (Fin N) (Fin N) ℂ) :
    Matrix (Fin N) (Fin N) ℂ :=
  donaldsonStepF A D inv c.ta c.tb c.t g c.vol c.mon (c.weights A D z)

/-- Relative errors of at most `τ` of the sections and the volume, absolute errors of at most `τ` of the gradient, a backward error of at
most `τ` of the determinant; the sums have at most `d` operations in sequence. -/
structure RunStep.Accurate {N n B M : ℕ} (c : RunStep N n B M) (d : ℕ) (τ : ℝ) (mon : Fin B → Fin M → Fin N → ℂ)
    (grad : Fin B → Fin M → Fin (n + 1) → ℂ) (vol : ℝ) : Prop where
  mon : ∀ i k a, RelErr τ (c.mon i k a) (mon i k a)
  grad : ∀ i k a, ‖c.grad i k a - grad i k a‖ ≤ τ
  vol : RelErr τ c.vol vol
  det : DetStable c.det τ
  ta : c.ta.Covers ∧ c.ta.depth ≤ d
  tb : c.tb.Covers ∧ c.tb.depth ≤ d
  t : c.t.Covers ∧ c.t.depth ≤ d
  tz : c.tz.Covers ∧ c.tz.depth ≤ d
  tja : c.tja.Covers
  tjb : c.tjb.Covers
  tj : c.tja.depth + c.tjb.depth + 2 ≤ d

end Cyjax.Spec
