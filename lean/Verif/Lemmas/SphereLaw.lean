import Verif.Lemmas.NormalDensity
import Mathlib.Analysis.SpecialFunctions.ImproperIntegrals
import Mathlib.MeasureTheory.Measure.Lebesgue.EqHaar

/-! # Normal draws and cones -/

namespace Cyjax

open MeasureTheory ProbabilityTheory Cyjax.Spec Set
open scoped ENNReal Pointwise

theorem lintegral_normalRow {n : ℕ} {φ : (Fin n → ℝ) → ℝ≥0∞} (hφ : Measurable φ) :
    ∫⁻ x, φ x ∂normalRow n = ∫⁻ x, ENNReal.ofReal (((Real.sqrt (2 * Real.pi))⁻¹) ^ n) *
      ENNReal.ofReal (Real.exp (-((∑ i, x i ^ 2) / 2))) * φ x := by
  have hgm : Measurable (gaussianPDF 0 1) := measurable_gaussianPDF 0 1
  have hg : gaussianReal 0 1 = volume.withDensity (gaussianPDF 0 1) := gaussianReal_of_var_ne_zero 0 one_ne_zero
  have : SigmaFinite (volume.withDensity (gaussianPDF 0 1)) := by
    rw [← hg]
    infer_instance
  unfold normalRow
  simp_rw [hg]
  rw [lintegral_pi_withDensity volume _ hgm _ φ hφ]
  refine lintegral_congr fun x => ?_
  congr 1
  simp only [gaussianPDF, gaussianPDFReal]
  rw [← ENNReal.ofReal_prod_of_nonneg (fun i _ => by positivity), Finset.prod_mul_distrib, Finset.prod_const, ← Real.exp_sum,
    Finset.card_univ, Fintype.card_fin, ← ENNReal.ofReal_mul (by positivity)]
  congr 2
  · simp
  · rw [Finset.sum_div, ← Finset.sum_neg_distrib]
    congr 1
    refine Finset.sum_congr rfl fun i _ => ?_
    simp
    ring

/-- `exp (-a)` as an integral over the levels above `a`. -/
theorem exp_neg_levels {a : ℝ} (ha : 0 ≤ a) : ENNReal.ofReal (Real.exp (-a)) =
    ∫⁻ s in Ioi (0 : ℝ), ENNReal.ofReal (Real.exp (-s)) * (Iio s).indicator 1 a := by
  have h1 : ∫⁻ s in Ioi a, ENNReal.ofReal (Real.exp (-s)) = ENNReal.ofReal (Real.exp (-a)) := by
    rw [← ofReal_integral_eq_lintegral_ofReal (integrableOn_exp_neg_Ioi a)
      (Filter.Eventually.of_forall fun s => (Real.exp_pos _).le), integral_exp_neg_Ioi]
  rw [← h1, ← lintegral_indicator measurableSet_Ioi, ← lintegral_indicator measurableSet_Ioi]
  refine lintegral_congr fun s => ?_
  by_cases hs : a < s
  · have h0 : (0 : ℝ) < s := lt_of_le_of_lt ha hs
    simp [indicator, hs, h0]
  · by_cases h0 : (0 : ℝ) < s <;> simp [indicator, hs, h0]

/-- A set is a cone: it contains with a vector all its positive multiples. -/
def IsConeSet {n : ℕ} (A : Set (Fin n → ℝ)) : Prop := ∀ r : ℝ, 0 < r → ∀ x, r • x ∈ A ↔ x ∈ A

theorem volume_cone {n : ℕ} {A : Set (Fin n → ℝ)} (hA : IsConeSet A) {s : ℝ} (hs : 0 < s) :
    volume (A ∩ {x | (∑ i, x i ^ 2) / 2 < s}) =
      ENNReal.ofReal (Real.sqrt (2 * s) ^ n) * volume (A ∩ {x | ∑ i, x i ^ 2 < 1}) := by
  have hr : 0 < Real.sqrt (2 * s) := Real.sqrt_pos.2 (by positivity)
  have hset : A ∩ {x | (∑ i, x i ^ 2) / 2 < s} = Real.sqrt (2 * s) • (A ∩ {x | ∑ i, x i ^ 2 < 1}) := by
    ext x
    rw [mem_smul_set_iff_inv_smul_mem₀ hr.ne', mem_inter_iff, mem_inter_iff, hA _ (inv_pos.2 hr)]
    refine and_congr_right fun _ => ?_
    simp only [Set.mem_ofPred_eq, Pi.smul_apply, smul_eq_mul, mul_pow, ← Finset.mul_sum]
    rw [inv_pow, Real.sq_sqrt (by positivity), inv_mul_lt_iff₀ (by positivity), mul_one,
      div_lt_iff₀ two_pos, mul_comm s]
  rw [hset, Measure.addHaar_smul_of_nonneg _ hr.le]
  simp

theorem normalRow_cone (n : ℕ) : ∃ K : ℝ≥0∞, ∀ A : Set (Fin n → ℝ), MeasurableSet A → IsConeSet A →
    normalRow n A = K * volume (A ∩ {x | ∑ i, x i ^ 2 < 1}) := by
  refine ⟨ENNReal.ofReal (((Real.sqrt (2 * Real.pi))⁻¹) ^ n) *
    ∫⁻ s in Ioi (0 : ℝ), ENNReal.ofReal (Real.exp (-s)) * ENNReal.ofReal (Real.sqrt (2 * s) ^ n), fun A hm hA => ?_⟩
  rw [← lintegral_indicator_one hm, lintegral_normalRow (measurable_one.indicator hm)]
  have hq : Measurable fun x : Fin n → ℝ => (∑ i, x i ^ 2) / 2 := by fun_prop
  have hmeas : Measurable fun p : (Fin n → ℝ) × ℝ =>
      ENNReal.ofReal (Real.exp (-p.2)) * (Iio p.2).indicator (1 : ℝ → ℝ≥0∞) ((∑ i, p.1 i ^ 2) / 2) *
        A.indicator 1 p.1 := by
    have h1 : Measurable fun p : (Fin n → ℝ) × ℝ =>
        (Iio p.2).indicator (1 : ℝ → ℝ≥0∞) ((∑ i, p.1 i ^ 2) / 2) := by
      have : (fun p : (Fin n → ℝ) × ℝ => (Iio p.2).indicator (1 : ℝ → ℝ≥0∞) ((∑ i, p.1 i ^ 2) / 2)) =
          ({p : (Fin n → ℝ) × ℝ | (∑ i, p.1 i ^ 2) / 2 < p.2}).indicator 1 := by
        funext p
        simp [indicator]
      rw [this]
      exact measurable_one.indicator (measurableSet_lt (hq.comp measurable_fst) measurable_snd)
    have h2 : Measurable fun p : (Fin n → ℝ) × ℝ => A.indicator (1 : (Fin n → ℝ) → ℝ≥0∞) p.1 :=
      (measurable_one.indicator hm).comp measurable_fst
    have h3 : Measurable fun p : (Fin n → ℝ) × ℝ => ENNReal.ofReal (Real.exp (-p.2)) := by fun_prop
    exact (h3.mul h1).mul h2
  have h1 : ∀ x : Fin n → ℝ, ENNReal.ofReal (((Real.sqrt (2 * Real.pi))⁻¹) ^ n) *
      ENNReal.ofReal (Real.exp (-((∑ i, x i ^ 2) / 2))) * A.indicator 1 x =
      ENNReal.ofReal (((Real.sqrt (2 * Real.pi))⁻¹) ^ n) * ∫⁻ s in Ioi (0 : ℝ),
        ENNReal.ofReal (Real.exp (-s)) * (Iio s).indicator (1 : ℝ → ℝ≥0∞) ((∑ i, x i ^ 2) / 2) * A.indicator 1 x := by
    intro x
    rw [exp_neg_levels (a := (∑ i, x i ^ 2) / 2) (by positivity), mul_assoc, lintegral_mul_const]
    have : Measurable fun p : ℝ => ENNReal.ofReal (Real.exp (-p)) *
        (Iio p).indicator (1 : ℝ → ℝ≥0∞) ((∑ i, x i ^ 2) / 2) := by
      have h : (fun p : ℝ => (Iio p).indicator (1 : ℝ → ℝ≥0∞) ((∑ i, x i ^ 2) / 2)) =
          (Ioi ((∑ i, x i ^ 2) / 2)).indicator 1 := by
        funext p; simp [indicator]
      have h' : Measurable fun p : ℝ => (Iio p).indicator (1 : ℝ → ℝ≥0∞) ((∑ i, x i ^ 2) / 2) := by
        rw [h]; exact measurable_one.indicator measurableSet_Ioi
      exact Measurable.mul (by fun_prop) h'
    exact this
  simp_rw [h1]
  rw [lintegral_const_mul _ (Measurable.lintegral_prod_right' (ν := volume.restrict (Ioi (0 : ℝ))) hmeas),
    lintegral_lintegral_swap (μ := volume) (ν := volume.restrict (Ioi (0 : ℝ))) hmeas.aemeasurable, mul_assoc, ← lintegral_mul_const]
  · congr 1
    refine setLIntegral_congr_fun measurableSet_Ioi fun s hs => ?_
    have h2 : ∀ x : Fin n → ℝ, ENNReal.ofReal (Real.exp (-s)) *
        (Iio s).indicator (1 : ℝ → ℝ≥0∞) ((∑ i, x i ^ 2) / 2) * A.indicator 1 x =
        ENNReal.ofReal (Real.exp (-s)) * (A ∩ {x | (∑ i, x i ^ 2) / 2 < s}).indicator 1 x := by
      intro x
      by_cases hx : x ∈ A <;> simp [indicator, hx]
    have hms : MeasurableSet (A ∩ {x : Fin n → ℝ | (∑ i, x i ^ 2) / 2 < s}) :=
      hm.inter (measurableSet_lt hq measurable_const)
    simp_rw [h2]
    rw [lintegral_const_mul _ (measurable_one.indicator hms), lintegral_indicator_one hms, volume_cone hA hs, mul_assoc]
  · fun_prop

theorem volume_ball_pos (n : ℕ) : 0 < volume {x : Fin n → ℝ | ∑ i, x i ^ 2 < 1} := by
  have ho : IsOpen {x : Fin n → ℝ | ∑ i, x i ^ 2 < 1} := isOpen_lt (by fun_prop) continuous_const
  exact ho.measure_pos _ ⟨0, by simp⟩

theorem volume_ball_lt_top (n : ℕ) : volume {x : Fin n → ℝ | ∑ i, x i ^ 2 < 1} < ∞ := by
  refine (measure_mono (t := Metric.closedBall 0 1) fun x hx => ?_).trans_lt measure_closedBall_lt_top
  rw [mem_closedBall_zero_iff, pi_norm_le_iff_of_nonneg zero_le_one]
  intro i
  have h1 : x i ^ 2 ≤ ∑ i, x i ^ 2 := Finset.single_le_sum (f := fun i => x i ^ 2) (fun i _ => sq_nonneg _) (Finset.mem_univ i)
  rw [Real.norm_eq_abs, ← sq_le_one_iff_abs_le_one]
  exact h1.trans (le_of_lt hx)

/-- The probability of a cone is the share of its volume in the ball. -/
theorem normalRow_cone_ratio {n : ℕ} {A : Set (Fin n → ℝ)} (hm : MeasurableSet A) (hA : IsConeSet A) :
    normalRow n A = volume (A ∩ {x | ∑ i, x i ^ 2 < 1}) / volume {x : Fin n → ℝ | ∑ i, x i ^ 2 < 1} := by
  obtain ⟨K, hK⟩ := normalRow_cone n
  have h1 := hK univ MeasurableSet.univ (fun r _ x => by simp)
  have hp : normalRow n univ = 1 := by
    unfold normalRow
    exact measure_univ
  rw [hp, univ_inter] at h1
  rw [hK A hm hA, ENNReal.eq_div_iff (volume_ball_pos n).ne' (volume_ball_lt_top n).ne, mul_comm K, ← mul_assoc,
    mul_comm _ (volume (A ∩ _)), mul_assoc, mul_comm _ K, ← h1, mul_one]

end Cyjax
