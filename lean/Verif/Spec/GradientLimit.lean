import Verif.Spec.UniformLoss
import Verif.Model.LossGrad
import Mathlib.Analysis.Calculus.Deriv.Basic

/-! # Specification: the gradients of the loss on a sample (C192) -/

namespace Cyjax.Spec

open MeasureTheory MvPolynomial Cyjax.Polynomial Cyjax.Variety Cyjax.Donaldson Cyjax.Ml

variable {n : ℕ} (A : AlgebraicMetric (n + 1)) (o : SymOrder) (roots : List ℂ → List ℂ) (ps : List ℂ) (count : ℕ)
  (x : Fin 2 → Fin (sampleCount count (n + 2)) → Fin (2 * (n + 2)) → ℝ) (h : ℝ → A.H)

/-- The loss on `count` sampled points for the matrix `h t`, with the average eta for the matrix `h 0` (`stop_gradient`). -/
noncomputable def sampledStopped (t : ℝ) : ℝ :=
  resultOrZero (sampleRow n A.variety o roots (fun _ : Unit => asLists (lineDraws x)) count () ps >>= lossRowStopped A (h t) (h 0))

/-- The derivative that training uses, along the curve `h` of matrices. -/
noncomputable def trainingSlope : ℝ := deriv (sampledStopped A o roots ps count x h) 0

/-- The derivative of the loss on the same points. -/
noncomputable def lossSlope : ℝ := deriv (fun t => sampledLoss A o roots ps count x (h t)) 0

end Cyjax.Spec
