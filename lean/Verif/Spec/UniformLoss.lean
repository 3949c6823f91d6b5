import Verif.Model.Training
import Verif.Spec.LossLimit
import Verif.Spec.Samplable
import Verif.Spec.HolomorphicVolume

/-! # Specification: the training loss on a sample, and its limit (C179) -/

namespace Cyjax.Spec

open MeasureTheory MvPolynomial Cyjax.Polynomial Cyjax.Variety Cyjax.Donaldson Cyjax.Ml

/-- The value of `variance_eta_loss` for the matrix `h` on `count` points sampled with the draws `x` (and `0` for an exception). -/
noncomputable def sampledLoss {n : ℕ} (A : AlgebraicMetric (n + 1)) (o : SymOrder) (roots : List ℂ → List ℂ) (ps : List ℂ)
    (count : ℕ) (x : Fin 2 → Fin (sampleCount count (n + 2)) → Fin (2 * (n + 2)) → ℝ) (h : A.H) : ℝ :=
  resultOrZero (sampleRow n A.variety o roots (fun _ : Unit => asLists (lineDraws x)) count () ps >>= varianceEtaLossRow A h)

/-- Its limit for infinitely many points: `∫ (1 - η V/K)² |Ω|² / (n + 2)`. -/
noncomputable def limitLoss {n : ℕ} (p : Fin (n + 2)) (d : Fin (n + 1)) (F : MvPolynomial (Fin (n + 2)) ℂ)
    (A : AlgebraicMetric (n + 1)) (ps : List ℂ) (h : A.H) : ℝ :=
  etaVariance (cyMeasure p d F) (etaAt A h ps) / (n + 2)

end Cyjax.Spec
