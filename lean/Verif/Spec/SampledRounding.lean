import Verif.Spec.RoundingUniform
import Verif.Spec.RoundingLoss
import Verif.Model.RoundingAccuracy
import Verif.Model.RoundingLoss
import Verif.Model.Training

/-! # Specification: numbers computed from sampled points in rounded arithmetic (C175) -/

namespace Cyjax.Spec

open Cyjax.Fl Cyjax.Donaldson Cyjax.Variety Cyjax.Ml

variable {n : ℕ}

/-- Evaluations at a list of affine points, accurate to `τ` at each of them. -/
def AccurateAt (M : AlgebraicMetric (n + 1)) (h : M.H) (ps : List ℂ) (k : ℕ) (τ : ℝ) (pts : List ((Fin (n + 1) → ℂ) × Fin (n + 2)))
    (c : Fin pts.length → Evaluation M.sections.size n) : Prop :=
  ∀ j, ∃ g, gradDefining M.variety (pts.get j).1 (.vec ps) (some (.index (pts.get j).2)) = .ok g ∧
    (c j).Accurate k τ h (sectionsJet M.sections ((pts.get j).2 : ℕ) (pts.get j).1) g

/-- `s` can be the accuracy computed from the points `pts`, in some arithmetic of accuracy `τ` and with some accurate evaluations of `eta` and of
the weights, whatever the order of summation (with at most `k` operations in sequence). -/
def ComputedAccuracy (M : AlgebraicMetric (n + 1)) (h : M.H) (ps : List ℂ) (k : ℕ) (τ : ℝ) (pts : List ((Fin (n + 1) → ℂ) × Fin (n + 2)))
    (s : ℝ) : Prop :=
  ∃ (A : Arith) (D : DivAbs) (c : Fin pts.length → Evaluation M.sections.size n) (t : RTree (Fin pts.length)),
    A.Accurate τ ∧ D.Accurate τ ∧ AccurateAt M h ps k τ pts c ∧ t.Covers ∧ t.depth ≤ k ∧
    s = sigmaAccuracyF A D t (fun j => (c j).eta A D M.sections.degree) fun j => (c j).weight A D (pts.get j).1 (some 1)

/-- The same for the training loss; the arithmetic adds zero without error and the logarithm is accurate to `τ`. -/
def ComputedLoss (M : AlgebraicMetric (n + 1)) (h : M.H) (ps : List ℂ) (k : ℕ) (τ : ℝ) (pts : List ((Fin (n + 1) → ℂ) × Fin (n + 2)))
    (s : ℝ) : Prop :=
  ∃ (A : Arith) (D : DivAbs) (lg : ℝ → ℝ) (c : Fin pts.length → Evaluation M.sections.size n) (t : RTree (Fin pts.length)),
    A.Accurate τ ∧ D.Accurate τ ∧ A.add 0 1 = 1 ∧ LogAccurate lg τ ∧ AccurateAt M h ps k τ pts c ∧ t.Covers ∧ t.depth ≤ k ∧
    s = varianceEtaLossF A D lg t (fun j => ((c j).eta A D M.sections.degree).re) fun j => (c j).weight A D (pts.get j).1 (some 1)

end Cyjax.Spec
