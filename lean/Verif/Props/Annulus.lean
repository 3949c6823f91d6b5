import Verif.Lemmas.RandomLaw
import Mathlib.Analysis.SpecialFunctions.PolarCoord
import Mathlib.MeasureTheory.Function.JacobianOneDim
import Mathlib.Probability.ConditionalProbability

/-! # Uniform distribution on an annulus (C95) -/

namespace Cyjax

open MeasureTheory Cyjax.Random Cyjax.Spec
open scoped BigOperators ENNReal

/-- The annulus. -/
def annulus (minrad maxrad : ℝ) : Set ℂ := {z | minrad ≤ ‖z‖ ∧ ‖z‖ < maxrad}

private theorem measurable_annulus (m M : ℝ) : MeasurableSet (annulus m M) :=
  MeasurableSet.inter (measurableSet_le measurable_const measurable_norm)
    (measurableSet_lt measurable_norm measurable_const)

/-- Average over the angle. -/
private noncomputable def ring (f : ℂ → ℝ≥0∞) (rho : ℝ) : ℝ≥0∞ :=
  ∫⁻ a, f ((rho : ℂ) * Complex.exp (2 * Complex.I * Real.pi * a)) ∂unifDraw

private theorem angle_integral (g : UnitAddCircle → ℝ≥0∞) :
    ∫⁻ t in Set.Ioo (-Real.pi) Real.pi, g ((t / (2 * Real.pi) : ℝ) : UnitAddCircle) =
      ENNReal.ofReal (2 * Real.pi) * ∫⁻ a, g (a : UnitAddCircle) ∂unifDraw := by
  have hpi : 0 < 2 * Real.pi := by positivity
  have himg : (fun a : ℝ => 2 * Real.pi * a) '' Set.Ioo (-(1 / 2)) (1 / 2) = Set.Ioo (-Real.pi) Real.pi := by
    ext x
    simp only [Set.mem_image, Set.mem_Ioo]
    constructor
    · rintro ⟨a, ⟨h1, h2⟩, rfl⟩
      constructor <;> nlinarith
    · rintro ⟨h1, h2⟩
      refine ⟨x / (2 * Real.pi), ⟨?_, ?_⟩, mul_div_cancel₀ x hpi.ne'⟩
      · rw [lt_div_iff₀ hpi]; linarith
      · rw [div_lt_iff₀ hpi]; linarith
  rw [← himg, lintegral_image_eq_lintegral_abs_deriv_mul (f' := fun _ => 2 * Real.pi) measurableSet_Ioo
    (fun x _ => by simpa using ((hasDerivAt_id x).const_mul (2 * Real.pi)).hasDerivWithinAt)
    (fun x _ y _ h => mul_left_cancel₀ hpi.ne' h)]
  simp only [mul_div_cancel_left₀ _ hpi.ne', abs_of_pos hpi]
  rw [lintegral_const_mul' _ _ ENNReal.ofReal_ne_top]
  congr 1
  unfold unifDraw
  rw [Measure.restrict_congr_set (Ico_ae_eq_Ioc (μ := volume) (a := (0 : ℝ)) (b := 1)),
    Measure.restrict_congr_set (Ioo_ae_eq_Ioc (μ := volume) (a := (-(1 / 2) : ℝ)) (b := 1 / 2))]
  have h1 := UnitAddCircle.lintegral_preimage (-(1 / 2)) g
  have h2 := UnitAddCircle.lintegral_preimage 0 g
  rw [show (-(1 / 2) + 1 : ℝ) = 1 / 2 by norm_num] at h1
  rw [zero_add] at h2
  rw [h1, h2]

private theorem polar_annulus (m M : ℝ) (h0 : 0 ≤ m) (f : ℂ → ℝ≥0∞) (hf : Measurable f) :
    ∫⁻ z in annulus m M, f z =
      ∫⁻ rho in Set.Ioo m M, ENNReal.ofReal rho * (ENNReal.ofReal (2 * Real.pi) * ring f rho) := by
  have hind : Measurable ((annulus m M).indicator f) := hf.indicator (measurable_annulus m M)
  rw [← lintegral_indicator (measurable_annulus m M), ← Complex.lintegral_comp_polarCoord_symm]
  have ht : polarCoord.target = Set.Ioi (0 : ℝ) ×ˢ Set.Ioo (-Real.pi) Real.pi := rfl
  have hms : Measurable fun p : ℝ × ℝ =>
      ENNReal.ofReal p.1 • (annulus m M).indicator f (Complex.polarCoord.symm p) := by
    have hc : Measurable fun p : ℝ × ℝ => Complex.polarCoord.symm p := by
      simp only [Complex.polarCoord_symm_apply]
      fun_prop
    exact (ENNReal.measurable_ofReal.comp measurable_fst).mul (hind.comp hc)
  rw [ht, show (volume : Measure (ℝ × ℝ)) = (volume : Measure ℝ).prod volume from rfl, ← Measure.prod_restrict,
    lintegral_prod _ hms.aemeasurable]
  have hinner : ∀ rho ∈ Set.Ioi (0 : ℝ),
      ∫⁻ t in Set.Ioo (-Real.pi) Real.pi,
        ENNReal.ofReal rho • (annulus m M).indicator f (Complex.polarCoord.symm (rho, t)) =
      (Set.Ico m M).indicator (fun rho => ENNReal.ofReal rho * (ENNReal.ofReal (2 * Real.pi) * ring f rho)) rho := by
    intro rho hrho
    have hrho' : 0 < rho := hrho
    have hz : ∀ t : ℝ, Complex.polarCoord.symm (rho, t) =
        (rho : ℂ) * (AddCircle.toCircle ((t / (2 * Real.pi) : ℝ) : UnitAddCircle) : ℂ) := by
      intro t
      rw [Complex.polarCoord_symm_apply, coe_toCircle]
      congr 1
      have hpi : (Real.pi : ℂ) ≠ 0 := by exact_mod_cast Real.pi_ne_zero
      have : (2 * Complex.I * Real.pi * (t / (2 * Real.pi) : ℝ) : ℂ) = (t : ℂ) * Complex.I := by
        push_cast
        field_simp
      rw [this, Complex.exp_mul_I]
      push_cast
      rfl
    have hn : ∀ t : ℝ, ‖Complex.polarCoord.symm (rho, t)‖ = rho := by
      intro t
      rw [hz, norm_mul, Circle.norm_coe, mul_one, Complex.norm_real, Real.norm_of_nonneg hrho'.le]
    by_cases h : rho ∈ Set.Ico m M
    · rw [Set.indicator_of_mem h]
      have hmem : ∀ t : ℝ, (annulus m M).indicator f (Complex.polarCoord.symm (rho, t)) =
          f ((rho : ℂ) * (AddCircle.toCircle ((t / (2 * Real.pi) : ℝ) : UnitAddCircle) : ℂ)) := by
        intro t
        rw [Set.indicator_of_mem, hz]
        change m ≤ _ ∧ _ < M
        rw [hn]
        exact h
      simp only [hmem, smul_eq_mul]
      rw [lintegral_const_mul' _ _ ENNReal.ofReal_ne_top]
      congr 1
      rw [angle_integral fun u => f ((rho : ℂ) * (AddCircle.toCircle u : ℂ))]
      unfold ring
      simp only [coe_toCircle]
    · rw [Set.indicator_of_notMem h]
      have hmem : ∀ t : ℝ, (annulus m M).indicator f (Complex.polarCoord.symm (rho, t)) = 0 := by
        intro t
        rw [Set.indicator_of_notMem]
        intro hc
        have : m ≤ ‖Complex.polarCoord.symm (rho, t)‖ ∧ ‖Complex.polarCoord.symm (rho, t)‖ < M := hc
        rw [hn] at this
        exact h this
      simp only [hmem, smul_eq_mul, mul_zero, lintegral_zero]
  rw [setLIntegral_congr_fun measurableSet_Ioi hinner, lintegral_indicator measurableSet_Ico,
    Measure.restrict_restrict measurableSet_Ico]
  refine setLIntegral_congr ?_
  have hlow : Set.Ioo m M ⊆ Set.Ico m M ∩ Set.Ioi 0 :=
    fun x hx => ⟨⟨hx.1.le, hx.2⟩, lt_of_le_of_lt h0 hx.1⟩
  exact (Filter.EventuallyLE.antisymm
    ((LE.le.eventuallyLE Set.inter_subset_left).trans (Ioo_ae_eq_Ico).symm.le)
    (LE.le.eventuallyLE hlow))

private theorem radial (m M : ℝ) (h0 : 0 ≤ m) (h1 : m < M) (K : ℝ → ℝ≥0∞) :
    ∫⁻ r, K (Real.sqrt (m ^ 2 + r * (M ^ 2 - m ^ 2))) ∂unifDraw =
      ∫⁻ rho in Set.Ioo m M, ENNReal.ofReal (2 * rho / (M ^ 2 - m ^ 2)) * K rho := by
  have hc : 0 < M ^ 2 - m ^ 2 := by nlinarith
  have himg : (fun rho : ℝ => (rho ^ 2 - m ^ 2) / (M ^ 2 - m ^ 2)) '' Set.Ioo m M = Set.Ioo 0 1 := by
    ext x
    simp only [Set.mem_image, Set.mem_Ioo]
    constructor
    · rintro ⟨rho, ⟨g1, g2⟩, rfl⟩
      exact ⟨div_pos (by nlinarith) hc, (div_lt_one hc).mpr (by nlinarith)⟩
    · rintro ⟨g1, g2⟩
      have hpos : 0 < x * (M ^ 2 - m ^ 2) := mul_pos g1 hc
      refine ⟨Real.sqrt (m ^ 2 + x * (M ^ 2 - m ^ 2)), ⟨?_, ?_⟩, ?_⟩
      · exact Real.lt_sqrt_of_sq_lt (by linarith)
      · rw [Real.sqrt_lt' (by linarith)]; nlinarith
      · rw [Real.sq_sqrt (by nlinarith), add_sub_cancel_left, mul_div_cancel_right₀ _ hc.ne']
  unfold unifDraw
  rw [Measure.restrict_congr_set (Ioo_ae_eq_Ico (μ := volume) (a := (0 : ℝ)) (b := 1)).symm, ← himg,
    lintegral_image_eq_lintegral_abs_deriv_mul (f' := fun rho => 2 * rho / (M ^ 2 - m ^ 2)) measurableSet_Ioo]
  · refine setLIntegral_congr_fun measurableSet_Ioo fun rho hrho => ?_
    have hr : 0 < rho := lt_of_le_of_lt h0 hrho.1
    rw [abs_of_nonneg (by positivity), div_mul_cancel₀ _ hc.ne', add_sub_cancel, Real.sqrt_sq hr.le]
  · intro x _
    have := (((hasDerivAt_id x).pow 2).sub_const (m ^ 2)).div_const (M ^ 2 - m ^ 2)
    simpa using this.hasDerivWithinAt
  · intro x hx y hy h
    have hx' : 0 < x := lt_of_le_of_lt h0 hx.1
    have hy' : 0 < y := lt_of_le_of_lt h0 hy.1
    have h2 : x ^ 2 = y ^ 2 := by
      have := (div_left_inj' hc.ne').mp h
      linarith
    exact (pow_left_inj₀ hx'.le hy'.le two_ne_zero).mp h2

private theorem measurable_uniformAngle (m M : ℝ) : Measurable fun x : ℝ × ℝ => uniformAngle m M x.1 x.2 := by
  unfold uniformAngle
  fun_prop

private theorem integral_uniformAngle (m M : ℝ) (h0 : 0 ≤ m) (h1 : m < M) (f : ℂ → ℝ≥0∞) (hf : Measurable f) :
    ∫⁻ z in annulus m M, f z =
      ENNReal.ofReal (Real.pi * (M ^ 2 - m ^ 2)) *
        ∫⁻ z, f z ∂((unifDraw.prod unifDraw).map fun x => uniformAngle m M x.1 x.2) := by
  have hc : 0 < M ^ 2 - m ^ 2 := by nlinarith
  have hswap := lintegral_prod_symm' (μ := unifDraw) (ν := unifDraw) _ (hf.comp (measurable_uniformAngle m M))
  simp only [Function.comp] at hswap
  rw [lintegral_map hf (measurable_uniformAngle m M), hswap]
  have hring : ∀ r, ∫⁻ a, f (uniformAngle m M a r) ∂unifDraw = ring f (Real.sqrt (m ^ 2 + r * (M ^ 2 - m ^ 2))) :=
    fun r => rfl
  simp only [hring]
  rw [radial m M h0 h1 (ring f), polar_annulus m M h0 f hf, ← lintegral_const_mul' _ _ ENNReal.ofReal_ne_top]
  refine setLIntegral_congr_fun measurableSet_Ioo fun rho hrho => ?_
  have hr : 0 < rho := lt_of_le_of_lt h0 hrho.1
  rw [← mul_assoc, ← mul_assoc, ← ENNReal.ofReal_mul hr.le, ← ENNReal.ofReal_mul (by positivity)]
  congr 2
  field_simp

/-- **C95.** The area of the annulus. -/
theorem C95_area (minrad maxrad : ℝ) (h0 : 0 ≤ minrad) (h1 : minrad < maxrad) :
    volume (annulus minrad maxrad) = ENNReal.ofReal (Real.pi * (maxrad ^ 2 - minrad ^ 2)) := by
  have h := integral_uniformAngle minrad maxrad h0 h1 (fun _ => 1) measurable_const
  have : IsProbabilityMeasure ((unifDraw.prod unifDraw).map fun x => uniformAngle minrad maxrad x.1 x.2) :=
    Measure.isProbabilityMeasure_map (measurable_uniformAngle _ _).aemeasurable
  rw [setLIntegral_one, lintegral_one, measure_univ, mul_one] at h
  exact h

/-- **C95.** `uniform_angle` is uniform on the annulus (the disk, if `minrad` is zero): with independent uniform draws,
the law is Lebesgue measure of the plane conditioned on the annulus. -/
theorem C95_annulus (minrad maxrad : ℝ) (h0 : 0 ≤ minrad) (h1 : minrad < maxrad) :
    (unifDraw.prod unifDraw).map (fun x => uniformAngle minrad maxrad x.1 x.2) =
      ProbabilityTheory.cond volume (annulus minrad maxrad) := by
  have hc : 0 < maxrad ^ 2 - minrad ^ 2 := by nlinarith
  have hC : 0 < Real.pi * (maxrad ^ 2 - minrad ^ 2) := by positivity
  set mu := (unifDraw.prod unifDraw).map (fun x => uniformAngle minrad maxrad x.1 x.2) with hmu
  have : IsProbabilityMeasure mu := Measure.isProbabilityMeasure_map (measurable_uniformAngle _ _).aemeasurable
  have hvol := C95_area minrad maxrad h0 h1
  ext S hS
  have h := integral_uniformAngle minrad maxrad h0 h1 (S.indicator 1) (measurable_one.indicator hS)
  rw [lintegral_indicator_one hS, lintegral_indicator_one hS, Measure.restrict_apply hS] at h
  rw [ProbabilityTheory.cond_apply (measurable_annulus _ _), Set.inter_comm, h, hvol, ← mul_assoc,
    ENNReal.inv_mul_cancel (by simpa using hC) ENNReal.ofReal_ne_top, one_mul]

/-- **C95.** `uniform_angle_unit` is uniform on the unit circle: its law is invariant under every rotation. -/
theorem C95_unit (u : ℂ) (hu : ‖u‖ = 1) :
    (unifDraw.map uniformAngleUnit).map (fun z => u * z) = unifDraw.map uniformAngleUnit := by
  obtain ⟨b, hb⟩ : ∃ b : UnitAddCircle, (AddCircle.toCircle b : ℂ) = u := by
    refine ⟨((Complex.arg u / (2 * Real.pi) : ℝ) : UnitAddCircle), ?_⟩
    rw [coe_toCircle]
    have hpi : (Real.pi : ℂ) ≠ 0 := by exact_mod_cast Real.pi_ne_zero
    have : (2 * Complex.I * Real.pi * (Complex.arg u / (2 * Real.pi) : ℝ) : ℂ) = Complex.arg u * Complex.I := by
      push_cast
      field_simp
    rw [this]
    have := Complex.norm_mul_exp_arg_mul_I u
    rwa [hu, Complex.ofReal_one, one_mul] at this
  have hm : Measurable fun t : UnitAddCircle => (AddCircle.toCircle t : ℂ) :=
    (continuous_subtype_val.comp AddCircle.continuous_toCircle).measurable
  have hlaw : unifDraw.map uniformAngleUnit = (volume : Measure UnitAddCircle).map
      fun t => (AddCircle.toCircle t : ℂ) := by
    rw [← mk_unifDraw.map_eq, Measure.map_map hm mk_unifDraw.measurable]
    congr 1
    funext a
    exact (coe_toCircle a).symm
  rw [hlaw, Measure.map_map (measurable_const_mul u) hm]
  have hcomp : (fun z => u * z) ∘ (fun t : UnitAddCircle => (AddCircle.toCircle t : ℂ)) =
      (fun t : UnitAddCircle => (AddCircle.toCircle t : ℂ)) ∘ (fun t => b + t) := by
    funext t
    simp only [Function.comp, AddCircle.toCircle_add, Circle.coe_mul, hb]
  rw [hcomp, ← Measure.map_map hm (measurable_const_add b), (measurePreserving_add_left volume b).map_eq]

/-- The default: the unit disk. -/
example : (unifDraw.prod unifDraw).map (fun x => uniformAngle 0 1 x.1 x.2) =
    ProbabilityTheory.cond volume (annulus 0 1) := C95_annulus 0 1 le_rfl one_pos

end Cyjax
