import Verif.Lemmas.LossCounts
import Verif.Props.LossNormal

/-! # C188 for any number of points -/

namespace Cyjax

open MeasureTheory ProbabilityTheory MvPolynomial Cyjax.Spec Cyjax.Polynomial Cyjax.Variety Cyjax.Donaldson Cyjax.Projective Cyjax.Ml Set
  Filter Topology
open scoped ENNReal NNReal ComplexOrder

variable {n : ℕ} {F : MvPolynomial (Fin (n + 2)) ℂ} {A : AlgebraicMetric (n + 1)} {ps : List ℂ} {o : SymOrder}
  (ho : o.Valid) {roots : List ℂ → List ℂ} (hr : CompleteRoots roots) (hsm : SmoothHypersurface F) (hn : n ≠ 0)
  (p : Fin (n + 2)) (d : Fin (n + 1)) (hS : Samplable A.variety (n + 1) (n + 2) ps)
  (hF : Hypersurface A.variety (.vec ps) (n + 1) (n + 2) F) (hB : SpansModulo F A.sections.degree A.sections.rows)
  (hk : A.sections.degree ≠ 0) (h : A.H) (hh : h.PosDef)

include ho hr hsm hn hS hF hB hk hh

/-- **C188.** For any number of points, the probability that the loss is within `t / √count` of its limit converges to the
probability that a normal variable with the variance of `C188_normal` is at most `t` in absolute value. -/
theorem C188_counts {t : ℝ} (ht : 0 < t) :
    let V := (cyMeasure p d F univ).toReal
    let K := ∫ Z, etaAt A h ps Z ∂cyMeasure p d F
    let S := ∫ Z, etaAt A h ps Z ^ 2 ∂cyMeasure p d F
    Tendsto (fun count : ℕ => normalsLaw (n + 2) (sampleCount count (n + 2)) {x |
        |resultOrZero (sampleRow n A.variety o roots (fun _ : Unit => asLists (lineDraws x)) count () ps >>=
          varianceEtaLossRow A h) - etaVariance (cyMeasure p d F) (etaAt A h ps) / (n + 2)| ≤ t / √(count : ℝ)}) atTop
      (𝓝 (gaussianReal 0 ((n + 2) * Var[fun x => weightedMean
          (fun Z => 2 * (V / K) * (S / K) * (1 - V / K * etaAt A h ps Z) + (V / K * etaAt A h ps Z) ^ 2 - 1)
          (sampleIntersectOpt n A.variety o roots ps (n + 2) (asLists (lineDraws x)) false true);
        normalsLaw (n + 2) (sampleCount (n + 2) (n + 2))]).toNNReal (Icc (-t) t))) := by
  intro V K S
  obtain ⟨C, hC⟩ := loss_counts_close ho hr hsm hn hS hF hB hk h hh
  have he0 : n + 2 ≠ 0 := by omega
  have hLb : ∀ b : ℕ, sampleCount ((b + 1) * (n + 2)) (n + 2) = b + 1 := fun b => by
    have := sampleCount_dvd (count := (b + 1) * (n + 2)) he0 (Dvd.intro_left _ rfl)
    exact Nat.eq_of_mul_eq_mul_right (Nat.pos_of_ne_zero he0) this
  have key := C188_normal ho hr hsm hn p d hS hF hB hk h hh
  refine interval_counts (P := fun count => normalsLaw (n + 2) (sampleCount count (n + 2))) (N := fun count =>
    sampleCount count (n + 2) * (n + 2)) hC (fun c hc => (sampleCount_near n hc).2) (fun t ht => ?_) ht
  refine ((normal_interval key ht).comp (sampleCount_tendsto n)).congr' ?_
  filter_upwards [eventually_ne_atTop 0] with count hc
  have hL : sampleCount count (n + 2) - 1 + 1 = sampleCount count (n + 2) :=
    Nat.sub_add_cancel (Nat.pos_of_ne_zero (sampleCount_near n hc).1)
  have gen : ∀ L : ℕ, L = sampleCount count (n + 2) - 1 + 1 →
      normalsLaw (n + 2) (sampleCount ((sampleCount count (n + 2) - 1 + 1) * (n + 2)) (n + 2))
        {x | |√((sampleCount count (n + 2) - 1 + 1) * (n + 2) : ℕ) *
          (lossOf A o roots ps h ((sampleCount count (n + 2) - 1 + 1) * (n + 2)) x -
            etaVariance (cyMeasure p d F) (etaAt A h ps) / (n + 2))| ≤ t} =
      normalsLaw (n + 2) L {x | |√(L * (n + 2) : ℕ) * (lossOf A o roots ps h (L * (n + 2)) x -
        etaVariance (cyMeasure p d F) (etaAt A h ps) / (n + 2))| ≤ t} := by
    rintro L rfl
    rw [hLb]
  exact gen _ hL.symm

omit hsm hn hS hF hB hk hh ho hr in
/-- The hypotheses of C188 hold for the Dwork quintic with `psi = 2`, all sections of degree 2 and `h = 1`. -/
example : ∃ (A : AlgebraicMetric 4) (F : MvPolynomial (Fin 5) ℂ) (h : A.H) (v : ℝ≥0),
    A = ⟨.dwork 5 (.flag true), monomialBasisFull 4 2⟩ ∧
      Tendsto (fun count : ℕ => normalsLaw 5 (sampleCount count 5) {x |
        |resultOrZero (sampleRow 3 A.variety someOrder someRoots (fun _ : Unit => asLists (lineDraws x)) count () [2] >>=
          varianceEtaLossRow A h) - etaVariance (cyMeasure (n := 3) 0 0 F) (etaAt (n := 3) A h [2]) / ((3 : ℕ) + 2)| ≤
            1 / √(count : ℝ)}) atTop (𝓝 (gaussianReal 0 v (Icc (-1) 1))) := by
  obtain ⟨F, hF, hsm⟩ := C114_quintic 2 []
  have key := C188_counts (n := 3) (A := ⟨.dwork 5 (.flag true), monomialBasisFull 4 2⟩) someOrder_valid someRoots_complete
      (hsm.2 (by norm_num)) (by norm_num) 0 0 (.dwork 4 (.flag true) (by simp [DworkFactor.value]) 2) hF
      (C105_sections F 2).1 two_ne_zero 1 Matrix.PosDef.one one_pos
  exact ⟨⟨.dwork 5 (.flag true), monomialBasisFull 4 2⟩, F, 1, _, rfl, key⟩

end Cyjax
