import Verif.Model.RoundingStep
import Verif.Spec.RoundingAccuracy
import Mathlib.LinearAlgebra.Matrix.NonsingularInverse

/-! # Specification of Donaldson's algorithm in rounded arithmetic (C169) -/

namespace Cyjax.Spec

open Cyjax.Fl Cyjax.Donaldson

/-- Backward stability of a library function for inverses that solves a system of linear equations for every column: column `j` of the
result is the exact solution of `(T + E) x = e_j`, where the entries of `E`, which may depend on `j`, are at most `ρ` times the bound `b`
of the entries of `T`. Nothing is assumed about singular matrices. -/
def InvStable {N : ℕ} (inv : Matrix (Fin N) (Fin N) ℂ → Matrix (Fin N) (Fin N) ℂ) (ρ : ℝ) : Prop :=
  ∀ (T : Matrix (Fin N) (Fin N) ℂ) (b : ℝ), IsUnit T → (∀ i j, ‖T i j‖ ≤ b) → ∀ j, ∃ E : Matrix (Fin N) (Fin N) ℂ,
    (∀ i k, ‖E i k‖ ≤ ρ * b) ∧ ∀ i, ∑ k, (T i k + E i k) * inv T k j = if i = j then 1 else 0

/-- What one step depends on besides the arithmetic and the matrix: the computed sections at the points of all batches, the computed
weights and volume, and the orders of the summations. -/
structure StepInputs (N B M : ℕ) where
  mon : Fin B → Fin M → Fin N → ℂ
  w : Fin B → Fin M → ℝ
  vol : ℝ
  ta : RTree (Fin N)
  tb : RTree (Fin N)
  t : RTree (Fin M)

/-- The result of a step in the given arithmetic, from the matrix `g`. -/
noncomputable def StepInputs.step {N B M : ℕ} (c : StepInputs N B M) (A : Arith) (D : DivAbs)
    (inv : Matrix (Fin N) (Fin N) ℂ → Matrix (Fin N) (Fin N) ℂ) (g : Matrix (Fin N) (Fin N) ℂ) : Matrix (Fin N) (Fin N) ℂ :=
  donaldsonStepF A D inv c.ta c.tb c.t g c.vol c.mon c.w

/-- The sections, weights and volume have relative errors of at most `τ`, and the sums have at most `d` operations in sequence. -/
structure StepInputs.Accurate {N B M : ℕ} (c : StepInputs N B M) (d : ℕ) (τ : ℝ) (mon : Fin B → Fin M → Fin N → ℂ)
    (w : Fin B → Fin M → ℝ) (vol : ℝ) : Prop where
  mon : ∀ i k a, RelErr τ (c.mon i k a) (mon i k a)
  w : ∀ i k, RelErr τ (c.w i k) (w i k)
  vol : RelErr τ c.vol vol
  ta : c.ta.Covers ∧ c.ta.depth ≤ d
  tb : c.tb.Covers ∧ c.tb.depth ≤ d
  t : c.t.Covers ∧ c.t.depth ≤ d

end Cyjax.Spec
