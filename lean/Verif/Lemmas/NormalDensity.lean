import Verif.Lemmas.GenericPoints
import Mathlib.MeasureTheory.Measure.Lebesgue.Complex
import Mathlib.Probability.Distributions.Gaussian.Real

/-! # The density of complex normal vectors -/

namespace Cyjax

open MeasureTheory ProbabilityTheory Cyjax.Spec
open scoped ENNReal

theorem lintegral_pi_withDensity (ν : Measure ℝ) [SigmaFinite ν] (f : ℝ → ℝ≥0∞) (hf : Measurable f)
    [SigmaFinite (ν.withDensity f)] : (n : ℕ) → (φ : (Fin n → ℝ) → ℝ≥0∞) → Measurable φ →
      ∫⁻ x, φ x ∂Measure.pi (fun _ : Fin n => ν.withDensity f) = ∫⁻ x, (∏ i, f (x i)) * φ x ∂Measure.pi (fun _ : Fin n => ν)
  | 0, φ, hφ => by
    rw [Measure.pi_of_empty _ (fun i => i.elim0), Measure.pi_of_empty _ (fun i => i.elim0)]
    simp
  | n + 1, φ, hφ => by
    have h1 := (measurePreserving_piFinSuccAbove (fun _ : Fin (n + 1) => ν.withDensity f) 0).symm
    have h2 := (measurePreserving_piFinSuccAbove (fun _ : Fin (n + 1) => ν) 0).symm
    rw [← h1.lintegral_comp hφ, ← h2.lintegral_comp (f := fun x => (∏ i, f (x i)) * φ x) (by fun_prop)]
    have hs : ∀ a : ℝ × (Fin n → ℝ), (MeasurableEquiv.piFinSuccAbove (fun _ : Fin (n + 1) => ℝ) 0).symm a = Fin.cons a.1 a.2 := by
      intro a
      exact Fin.insertNth_zero' _ _
    have hm : Measurable fun a : ℝ × (Fin n → ℝ) => φ ((MeasurableEquiv.piFinSuccAbove (fun _ : Fin (n + 1) => ℝ) 0).symm a) :=
      hφ.comp (MeasurableEquiv.measurable _)
    have hm2 : Measurable fun a : ℝ × (Fin n → ℝ) => (∏ i, f (Fin.cons (α := fun _ => ℝ) a.1 a.2 i)) *
        φ ((MeasurableEquiv.piFinSuccAbove (fun _ : Fin (n + 1) => ℝ) 0).symm a) := by
      simp_rw [Fin.prod_univ_succ, Fin.cons_zero, Fin.cons_succ]
      fun_prop
    rw [lintegral_prod _ hm.aemeasurable]
    simp_rw [hs] at hm2 hm ⊢
    rw [lintegral_prod _ hm2.aemeasurable, lintegral_withDensity_eq_lintegral_mul _ hf]
    · refine lintegral_congr fun a => ?_
      rw [Pi.mul_apply, lintegral_pi_withDensity ν f hf n (fun y => φ (Fin.cons a y)) (hm.comp measurable_prodMk_left),
        ← lintegral_const_mul]
      · refine lintegral_congr fun y => ?_
        simp_rw [Fin.prod_univ_succ, Fin.cons_zero, Fin.cons_succ]
        rw [mul_assoc]
      · have : Measurable fun y : Fin n → ℝ => φ (Fin.cons a y) := hm.comp measurable_prodMk_left
        fun_prop
    · exact hm.lintegral_prod_right'

theorem volume_preserving_cvec (m : ℕ) : MeasurePreserving (cvec (m := m)) volume volume := by
  let σ : Fin (2 * m) ≃ Fin m ⊕ Fin m := (finCongr (two_mul m)).trans finSumFinEquiv.symm
  have h1 := volume_measurePreserving_piCongrLeft (fun _ : Fin m ⊕ Fin m => ℝ) σ
  have h2 := volume_measurePreserving_sumPiEquivProdPi (fun _ : Fin m ⊕ Fin m => ℝ)
  have h3 := (volume_measurePreserving_arrowProdEquivProdArrow ℝ ℝ (Fin m)).symm
  have h4 := volume_preserving_pi fun _ : Fin m => Complex.volume_preserving_equiv_real_prod.symm
  have := h4.comp (h3.comp (h2.comp h1))
  have hfun : cvec (m := m) = (fun (a : Fin m → ℝ × ℝ) i => Complex.measurableEquivRealProd.symm (a i)) ∘
      (MeasurableEquiv.arrowProdEquivProdArrow ℝ ℝ (Fin m)).symm ∘
        (MeasurableEquiv.sumPiEquivProdPi fun _ : Fin m ⊕ Fin m => ℝ) ∘ MeasurableEquiv.piCongrLeft (fun _ => ℝ) σ := by
    funext x i
    have hl : ∀ k, MeasurableEquiv.piCongrLeft (fun _ => ℝ) σ x k = x (σ.symm k) := by
      intro k
      obtain ⟨j, rfl⟩ := σ.surjective k
      rw [MeasurableEquiv.coe_piCongrLeft, Equiv.piCongrLeft_apply_apply, Equiv.symm_apply_apply]
    apply Complex.ext
    · change (cvec x i).re = MeasurableEquiv.piCongrLeft (fun _ => ℝ) σ x (Sum.inl i)
      rw [hl]
      simp [cvec, σ]
      rfl
    · change (cvec x i).im = MeasurableEquiv.piCongrLeft (fun _ => ℝ) σ x (Sum.inr i)
      rw [hl]
      simp [cvec, σ]
      exact congrArg x (Fin.ext (add_comm _ _))
  rw [hfun]
  exact this

/-- The density of a complex normal vector. -/
noncomputable def cdensity {m : ℕ} (z : Fin m → ℂ) : ℝ≥0∞ :=
  ENNReal.ofReal (1 / (2 * Real.pi) ^ m * Real.exp (-(1 / 2) * ∑ i, ‖z i‖ ^ 2))

theorem measurable_cdensity {m : ℕ} : Measurable (cdensity (m := m)) := by
  unfold cdensity
  fun_prop

theorem sum_cvec {m : ℕ} (x : Fin (2 * m) → ℝ) : ∑ i, ‖cvec x i‖ ^ 2 = ∑ j, x j ^ 2 := by
  have h1 : ∀ i, ‖cvec x i‖ ^ 2 = x ⟨i, by omega⟩ ^ 2 + x ⟨m + i, by omega⟩ ^ 2 := by
    intro i
    rw [← Complex.normSq_eq_norm_sq, Complex.normSq_apply]
    simp [cvec]
    ring
  simp_rw [h1]
  rw [← (finCongr (two_mul m)).symm.sum_comp, Fin.sum_univ_add, Finset.sum_add_distrib]
  rfl

theorem lintegral_cnormal {m : ℕ} {φ : (Fin m → ℂ) → ℝ≥0∞} (hφ : Measurable φ) :
    ∫⁻ z, φ z ∂cnormal m = ∫⁻ z, cdensity z * φ z := by
  have hgm : Measurable (gaussianPDF 0 1) := measurable_gaussianPDF 0 1
  rw [cnormal, lintegral_map hφ (continuous_cvec m).measurable, normalRow]
  have hg : gaussianReal 0 1 = volume.withDensity (gaussianPDF 0 1) := gaussianReal_of_var_ne_zero 0 one_ne_zero
  have : SigmaFinite (volume.withDensity (gaussianPDF 0 1)) := by
    rw [← hg]
    infer_instance
  simp_rw [hg]
  rw [lintegral_pi_withDensity volume _ hgm _ (fun x => φ (cvec x)) (hφ.comp (continuous_cvec m).measurable),
    ← (volume_preserving_cvec m).lintegral_comp (f := fun z => cdensity z * φ z) (measurable_cdensity.mul hφ)]
  refine lintegral_congr fun x => ?_
  congr 1
  simp only [gaussianPDF, gaussianPDFReal, cdensity]
  rw [← ENNReal.ofReal_prod_of_nonneg (fun i _ => by positivity), Finset.prod_mul_distrib, Finset.prod_const, ← Real.exp_sum,
    Finset.card_univ, Fintype.card_fin, sum_cvec]
  congr 2
  · rw [pow_mul, inv_pow, NNReal.coe_one, mul_one, Real.sq_sqrt (by positivity), one_div, inv_pow]
  · rw [Finset.mul_sum]
    congr 1
    refine Finset.sum_congr rfl fun i _ => ?_
    simp
    ring

end Cyjax
