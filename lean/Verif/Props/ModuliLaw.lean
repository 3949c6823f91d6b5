import Verif.Spec.Family
import Verif.Model.TrainScript
import Mathlib.Probability.ConditionalProbability
import Mathlib.MeasureTheory.Measure.Lebesgue.Complex

/-! # C186: the law of `uniform_components` and of the sampled moduli -/

namespace Cyjax

open Cyjax.Spec Cyjax.Random Cyjax.TrainScript MeasureTheory ProbabilityTheory Set
open scoped ENNReal

/-- The square of complex numbers with real and imaginary part between `a` and `b`. -/
def complexSquare (a b : ℝ) : Set ℂ := {z | z.re ∈ Ico a b ∧ z.im ∈ Ico a b}

private theorem cond_prod (a b : ℝ) :
    (cond (volume : Measure ℝ) (Ico a b)).prod (cond volume (Ico a b)) = cond (volume : Measure (ℝ × ℝ)) (Ico a b ×ˢ Ico a b) := by
  refine Measure.prod_eq fun s t hs ht => ?_
  rw [cond_apply (measurableSet_Ico.prod measurableSet_Ico), cond_apply measurableSet_Ico, cond_apply measurableSet_Ico,
    prod_inter_prod, Measure.volume_eq_prod, Measure.prod_prod, Measure.prod_prod]
  rw [ENNReal.mul_inv (Or.inr (by simp [Real.volume_Ico])) (Or.inl (by simp [Real.volume_Ico]))]
  ring

private theorem cond_map {A B : Type*} [MeasurableSpace A] [MeasurableSpace B] {μ : Measure A} {ν : Measure B} (e : A ≃ᵐ B)
    (he : MeasurePreserving e μ ν) {s : Set B} (hs : MeasurableSet s) : (cond μ (e ⁻¹' s)).map e = cond ν s := by
  ext t ht
  rw [e.map_apply, cond_apply (e.measurable hs), cond_apply hs, ← preimage_inter, he.measure_preimage hs.nullMeasurableSet,
    he.measure_preimage (hs.inter ht).nullMeasurableSet]

private theorem unifSym_scale {b : ℝ} (hb : 0 < b) : unifSym.map (fun x => x * b) = cond volume (Ico (-b) b) := by
  have h1 : Measurable fun x : ℝ => x * b := by fun_prop
  have e : (fun x : ℝ => x * b) ⁻¹' Ico (-b) b = Ico (-1) 1 := by
    ext x
    simp only [mem_preimage, mem_Ico]
    constructor
    · rintro ⟨h, h'⟩
      exact ⟨le_of_mul_le_mul_right (by linarith) hb, lt_of_mul_lt_mul_right (by linarith) hb.le⟩
    · rintro ⟨h, h'⟩
      have := mul_le_mul_of_nonneg_right h hb.le
      have := mul_lt_mul_of_pos_right h' hb
      exact ⟨by linarith, by linarith⟩
  unfold unifSym
  rw [Measure.map_smul, ← e, ← Measure.restrict_map h1 measurableSet_Ico, Real.map_volume_mul_right hb.ne', ProbabilityTheory.cond,
    Measure.restrict_smul, smul_smul, Real.volume_Ico, abs_of_pos (inv_pos.2 hb)]
  congr 1
  rw [show b - -b = 2 * b by ring, ENNReal.ofReal_mul (by norm_num), ENNReal.mul_inv (by simp) (by simp),
    ENNReal.ofReal_inv_of_pos hb]
  simp

/-- One draw. -/
private theorem square_law {b : ℝ} (hb : 0 < b) :
    MeasurePreserving (fun x : ℝ × ℝ => uniformComponents x.1 x.2 * (b : ℂ)) (unifSym.prod unifSym)
      (cond volume (complexSquare (-b) b)) := by
  have hc : ∀ x : ℝ × ℝ, uniformComponents x.1 x.2 * (b : ℂ) = Complex.measurableEquivRealProd.symm (x.1 * b, x.2 * b) := fun x => by
    apply Complex.ext <;> simp [uniformComponents]
  refine ⟨?_, ?_⟩
  · simp only [hc]
    exact Complex.measurableEquivRealProd.symm.measurable.comp (by fun_prop)
  · have h2 : (fun x : ℝ × ℝ => uniformComponents x.1 x.2 * (b : ℂ)) =
        Complex.measurableEquivRealProd.symm ∘ Prod.map (fun x => x * b) (fun x => x * b) := funext hc
    have hm : Measurable fun x : ℝ => x * b := by fun_prop
    have hs : MeasurableSet (complexSquare (-b) b) :=
      (measurableSet_Ico.preimage Complex.continuous_re.measurable).inter (measurableSet_Ico.preimage Complex.continuous_im.measurable)
    rw [h2, ← Measure.map_map Complex.measurableEquivRealProd.symm.measurable (hm.prodMap hm),
      ← Measure.map_prod_map _ _ hm hm, unifSym_scale hb, cond_prod,
      ← cond_map Complex.measurableEquivRealProd.symm Complex.volume_preserving_equiv_real_prod.symm hs]
    rfl

private theorem square_law_isProb {b : ℝ} (hb : 0 < b) : IsProbabilityMeasure (cond volume (complexSquare (-b) b)) := by
  rw [← (square_law hb).map_eq]
  exact Measure.isProbabilityMeasure_map (square_law hb).measurable.aemeasurable

/-- **C186.** `cube_param_sampler(key, rows, max_abs=bound)` draws independent moduli, the modulus `j` uniform in the square of
side `2 * bound j` around zero. -/
theorem C186_moduli (rows k : ℕ) (bound : Fin k → ℝ) (hb : ∀ j, 0 < bound j) :
    (cubeLaw rows k).map (fun d i => cubeParamSampler bound (d 0 i) (d 1 i)) =
      Measure.pi fun _ : Fin rows => Measure.pi fun j => cond volume (complexSquare (-bound j) (bound j)) := by
  have hp := fun j => square_law_isProb (hb j)
  have h1 : MeasurePreserving (fun (d : Fin 2 → Fin rows → Fin k → ℝ) => (d 0, d 1)) (cubeLaw rows k)
      ((Measure.pi fun _ : Fin rows => Measure.pi fun _ : Fin k => unifSym).prod
        (Measure.pi fun _ : Fin rows => Measure.pi fun _ : Fin k => unifSym)) := measurePreserving_finTwoArrow _
  have h2 := (measurePreserving_arrowProdEquivProdArrow (Fin k → ℝ) (Fin k → ℝ) (Fin rows)
    (fun _ => Measure.pi fun _ : Fin k => unifSym) (fun _ => Measure.pi fun _ : Fin k => unifSym)).symm
  have h3 := (measurePreserving_arrowProdEquivProdArrow ℝ ℝ (Fin k) (fun _ => unifSym) (fun _ => unifSym)).symm
  have h4 : MeasurePreserving (fun (x : Fin k → ℝ × ℝ) j => uniformComponents (x j).1 (x j).2 * (bound j : ℂ))
      (Measure.pi fun _ => unifSym.prod unifSym) (Measure.pi fun j => cond volume (complexSquare (-bound j) (bound j))) :=
    measurePreserving_pi _ _ fun j => square_law (hb j)
  have h5 := measurePreserving_pi (fun _ : Fin rows => (Measure.pi fun _ : Fin k => unifSym).prod (Measure.pi fun _ : Fin k => unifSym))
    (fun _ => Measure.pi fun j => cond volume (complexSquare (-bound j) (bound j))) fun _ => h4.comp h3
  exact ((h5.comp h2).comp h1).map_eq

/-- **C186.** `uniform_components` draws independent complex values which are uniform in the square between `-1 - i` and `1 + i`. -/
theorem C186_components_partial (rows k : ℕ) :
    (cubeLaw rows k).map (fun d i j => uniformComponents (d 0 i j) (d 1 i j)) =
      Measure.pi fun _ : Fin rows => Measure.pi fun _ : Fin k => cond volume (complexSquare (-1) 1) := by
  have h := C186_moduli rows k (fun _ => 1) fun _ => one_pos
  have e : (fun (d : Fin 2 → Fin rows → Fin k → ℝ) i => cubeParamSampler (fun _ => 1) (d 0 i) (d 1 i)) =
      fun d i j => uniformComponents (d 0 i j) (d 1 i j) := by
    funext d i j
    simp [cubeParamSampler]
  rw [← e]
  exact h

/-- **C186 is violated.** The documentation of `uniform_components` says that the parts are uniform between zero and one. This is
not the law: three quarters of the values lie outside of this square. -/
theorem C186_documented_violated :
    (unifSym.prod unifSym).map (fun x => uniformComponents x.1 x.2) ≠ cond volume (complexSquare 0 1) ∧
    (unifSym.prod unifSym).map (fun x => uniformComponents x.1 x.2) (complexSquare 0 1) = 1 / 4 := by
  have hm : Measurable fun x : ℝ × ℝ => uniformComponents x.1 x.2 := by
    have := (square_law one_pos).measurable
    simpa using this
  have hs : MeasurableSet (complexSquare 0 1) :=
    (measurableSet_Ico.preimage Complex.continuous_re.measurable).inter (measurableSet_Ico.preimage Complex.continuous_im.measurable)
  have hq : (unifSym.prod unifSym).map (fun x => uniformComponents x.1 x.2) (complexSquare 0 1) = 1 / 4 := by
    rw [Measure.map_apply hm hs]
    have e : (fun x : ℝ × ℝ => uniformComponents x.1 x.2) ⁻¹' complexSquare 0 1 = Ico 0 1 ×ˢ Ico 0 1 := by
      ext x
      simp [uniformComponents, complexSquare]
    have h1 : unifSym (Ico 0 1) = 1 / 2 := by
      unfold unifSym
      rw [Measure.smul_apply, Measure.restrict_apply measurableSet_Ico,
        inter_eq_left.2 (Ico_subset_Ico_left (by norm_num)), Real.volume_Ico]
      simp
    rw [e, Measure.prod_prod, h1]
    rw [one_div, one_div, ← ENNReal.mul_inv (by simp) (by simp)]
    norm_num
  refine ⟨fun h => ?_, hq⟩
  have hv : (volume (complexSquare 0 1) : ℝ≥0∞) = 1 := by
    have := Complex.volume_preserving_equiv_real_prod.measure_preimage
      (measurableSet_Ico.prod measurableSet_Ico : MeasurableSet (Ico (0 : ℝ) 1 ×ˢ Ico (0 : ℝ) 1)).nullMeasurableSet
    rw [Measure.volume_eq_prod, Measure.prod_prod, Real.volume_Ico] at this
    simp only [sub_zero, ENNReal.ofReal_one, mul_one] at this
    rw [← this]
    rfl
  rw [h, cond_apply hs, inter_self, hv, inv_one, one_mul, one_div, eq_comm, ENNReal.inv_eq_one] at hq
  norm_num at hq

/-- A case for `C186_moduli`: the bounds of two moduli. -/
example : ∀ j : Fin 2, 0 < ![(10 : ℝ), 5 / 2] j := by
  intro j
  fin_cases j <;> norm_num

end Cyjax
