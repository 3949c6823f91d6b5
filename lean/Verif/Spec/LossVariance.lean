import Verif.Spec.Samplable
import Mathlib.Probability.Moments.Variance
import Verif.Spec.AccuracyLimit
import Verif.Spec.HolomorphicVolume
import Verif.Spec.LineLaw
import Verif.Spec.MonteCarlo

/-! # The variance of the training loss (C191) -/

namespace Cyjax.Spec

open MeasureTheory ProbabilityTheory Cyjax.Variety Cyjax.Donaldson Set

variable {n : ℕ}

/-- The variance of the normal limit of the loss of one set of moduli, as in C188: `n + 2` times the variance of the weighted mean of
`2 ρ σ (1 - ρ η) + (ρ η)² - 1` over the points of one line, with `ρ = V/K` and `σ = S/K` from the integrals of `1`, `η`, `η²`. -/
noncomputable def lossVariance (p : Fin (n + 2)) (d : Fin (n + 1)) (A : AlgebraicMetric (n + 1)) (o : SymOrder)
    (roots : List ℂ → List ℂ) (ps : List ℂ) (F : MvPolynomial (Fin (n + 2)) ℂ) (h : A.H) : ℝ :=
  let V := (cyMeasure p d F univ).toReal
  let K := ∫ Z, etaAt A h ps Z ∂cyMeasure p d F
  let S := ∫ Z, etaAt A h ps Z ^ 2 ∂cyMeasure p d F
  (n + 2) * Var[fun x => weightedMean
      (fun Z => 2 * (V / K) * (S / K) * (1 - V / K * etaAt A h ps Z) + (V / K * etaAt A h ps Z) ^ 2 - 1)
      (sampleIntersectOpt n A.variety o roots ps (n + 2) (asLists (lineDraws x)) false true);
    normalsLaw (n + 2) (sampleCount (n + 2) (n + 2))]

end Cyjax.Spec
