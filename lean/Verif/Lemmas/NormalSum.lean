import Mathlib.MeasureTheory.Measure.LevyConvergence
import Mathlib.Probability.Independence.CharacteristicFunction
import Mathlib.Probability.Distributions.Gaussian.Real
import Mathlib.MeasureTheory.Function.ConvergenceInDistribution
import Mathlib.Probability.HasLaw

/-! # Sums of independent variables with normal limits -/

namespace Cyjax

open MeasureTheory ProbabilityTheory Filter Topology
open scoped NNReal

/-- If the terms are independent and converge in distribution to centred normal laws, then so does a multiple of their sum. -/
theorem normal_sum {N : ℕ} {Ω : ℕ → Type*} [∀ b, MeasurableSpace (Ω b)] {P : (b : ℕ) → Measure (Ω b)}
    [∀ b, IsProbabilityMeasure (P b)] {Y : (b : ℕ) → Fin N → Ω b → ℝ} {v : Fin N → ℝ≥0} (hind : ∀ b, iIndepFun (Y b) (P b))
    (hY : ∀ i, TendstoInDistribution (fun b => Y b i) atTop id P (gaussianReal 0 (v i))) (c : ℝ≥0) :
    TendstoInDistribution (fun b ω => c * ∑ i, Y b i ω) atTop id P (gaussianReal 0 (c ^ 2 * ∑ i, v i)) := by
  have hm : ∀ b i, AEMeasurable (Y b i) (P b) := fun b i => (hY i).forall_aemeasurable b
  have hs : ∀ b, AEMeasurable (fun ω => ∑ i, Y b i ω) (P b) := fun b => Finset.aemeasurable_fun_sum _ fun i _ => hm b i
  refine ⟨fun b => (hs b).const_mul _, aemeasurable_id, ?_⟩
  refine ProbabilityMeasure.tendsto_of_tendsto_charFun fun t => ?_
  have h1 : ∀ b, charFun ((P b).map fun ω => c * ∑ i, Y b i ω) t = ∏ i, charFun ((P b).map (Y b i)) (c * t) := by
    intro b
    rw [charFun_map_mul_comp (hs b), (hind b).charFun_map_fun_sum_eq_prod (hm b), Finset.prod_apply]
  have h2 : charFun ((gaussianReal 0 (c ^ 2 * ∑ i, v i)).map id) t = ∏ i, charFun ((gaussianReal 0 (v i)).map id) (c * t) := by
    simp only [Measure.map_id, charFun_gaussianReal]
    rw [← Complex.exp_sum]
    congr 1
    push_cast
    simp only [mul_zero, zero_mul, zero_sub, Finset.sum_neg_distrib]
    rw [← Finset.sum_div, ← Finset.sum_mul]
    ring
  simp only [ProbabilityMeasure.coe_mk]
  rw [h2]
  refine (tendsto_finsetProd _ fun i _ => ?_).congr fun b => (h1 b).symm
  exact (ProbabilityMeasure.tendsto_iff_tendsto_charFun.1 (hY i).tendsto) (c * t)

/-- Convergence in distribution depends on the laws only. -/
theorem tendsto_of_law {Ω Ω' : ℕ → Type*} [∀ b, MeasurableSpace (Ω b)] [∀ b, MeasurableSpace (Ω' b)] {P : (b : ℕ) → Measure (Ω b)}
    {Q : (b : ℕ) → Measure (Ω' b)} [∀ b, IsProbabilityMeasure (P b)] [∀ b, IsProbabilityMeasure (Q b)]
    {U : (b : ℕ) → Ω' b → ℝ} {X : (b : ℕ) → Ω b → Ω' b} (hX : ∀ b, HasLaw (X b) (Q b) (P b)) {v : ℝ≥0}
    (hU : TendstoInDistribution U atTop id Q (gaussianReal 0 v)) :
    TendstoInDistribution (fun b ω => U b (X b ω)) atTop id P (gaussianReal 0 v) := by
  have hm : ∀ b, AEMeasurable (fun ω => U b (X b ω)) (P b) := fun b => by
    have := hU.forall_aemeasurable b
    rw [← (hX b).map_eq] at this
    exact this.comp_aemeasurable (hX b).aemeasurable
  refine ⟨hm, aemeasurable_id, hU.tendsto.congr fun b => ?_⟩
  apply Subtype.ext
  change (Q b).map (U b) = (P b).map fun ω => U b (X b ω)
  have := hU.forall_aemeasurable b
  rw [← (hX b).map_eq] at this ⊢
  exact AEMeasurable.map_map_of_aemeasurable this (hX b).aemeasurable

end Cyjax
