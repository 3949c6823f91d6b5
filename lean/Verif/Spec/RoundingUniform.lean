import Verif.Model.RoundingEta
import Verif.Model.RoundingWeights
import Verif.Spec.RoundingEta
import Verif.Spec.RoundingWeights
import Verif.Spec.RoundingAccuracy

/-! # Specification of the accuracy of a numerical evaluation at one point (C168) -/

namespace Cyjax.Spec

open Cyjax.Fl Cyjax.Donaldson Cyjax.Variety

/-- What a numerical evaluation of `eta` and of the weight at one point depends on besides the arithmetic: the matrix, the computed sections, their
derivatives and the gradient, the determinant of the library and the orders of all operations. -/
structure Evaluation (N n : ℕ) where
  h : Matrix (Fin N) (Fin N) ℂ
  s : Fin N → ℂ
  s1 : Fin N → Fin (n + 1) → ℂ
  grad : Fin (n + 1) → ℂ
  det : Matrix (Fin n) (Fin n) ℂ → ℂ
  P : Path N
  P1 : Path N
  P2 : Path N
  PJ : Path (n + 1)
  t : RTree (Fin (n + 1))
  ta : RTree (Fin (n + 1))
  tb : RTree (Fin (n + 1))

/-- The computed value of `eta`. -/
noncomputable def Evaluation.eta {N n : ℕ} (c : Evaluation N n) (A : Arith) (D : DivAbs) (degree : ℕ) : ℂ :=
  etaF A D c.det c.P c.P1 c.P2 c.PJ (.full c.h) degree c.s c.s1 c.grad none

/-- The computed weight at the point `z`. -/
noncomputable def Evaluation.weight {N n : ℕ} (c : Evaluation N n) (A : Arith) (D : DivAbs) (z : Fin (n + 1) → ℂ) (vol : Option ℝ) : ℝ :=
  weightF A D c.det c.t c.ta c.tb c.grad z none vol

/-- The evaluation is accurate to `τ` for the matrix `h`, the sections with derivatives `S` and the gradient `g`: relative errors of at most
`τ` of the sections and their derivatives, absolute errors of at most `τ` of the entries of the matrix and of the gradient, a backward error of at most `τ` of the determinant; and
the sums have at most `k` operations in sequence. -/
structure Evaluation.Accurate {N n : ℕ} (c : Evaluation N n) (k : ℕ) (τ : ℝ) (h : Matrix (Fin N) (Fin N) ℂ) (S : Jet N (n + 1)) (g : Fin (n + 1) → ℂ) : Prop where
  h : ∀ i j, ‖c.h i j - h i j‖ ≤ τ
  s : ∀ i, RelErr τ (c.s i) (S.s i)
  s1 : ∀ i a, RelErr τ (c.s1 i a) (S.s1 i a)
  grad : ∀ i, ‖c.grad i - g i‖ ≤ τ
  det : DetStable c.det τ
  P : c.P.Within k
  P1 : c.P1.Within k
  P2 : c.P2.Within k
  PJ : c.PJ.Within k
  t : c.t.Covers ∧ c.t.depth ≤ k
  ta : c.ta.Covers
  tb : c.tb.Covers
  tab : c.ta.depth + c.tb.depth + 2 ≤ k

end Cyjax.Spec
