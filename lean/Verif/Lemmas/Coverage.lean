import Mathlib.Probability.CentralLimitTheorem
import Mathlib.MeasureTheory.Function.ConvergenceInMeasure
import Mathlib.MeasureTheory.Measure.Portmanteau

/-! # Asymptotic coverage of intervals around a mean over independent batches -/

namespace Cyjax

open MeasureTheory ProbabilityTheory Set Filter Topology
open scoped ENNReal NNReal

variable {Ω : Type*} [MeasurableSpace Ω] {P : Measure Ω} [IsProbabilityMeasure P]

/-- The central limit theorem for the mean over `b + 1` batches of `k` values each. -/
theorem clt_batches {T : ℕ → Ω → ℝ} {k : ℕ} (hk : k ≠ 0) {m : ℝ} (hT : MemLp (T 0) 2 P) (hind : iIndepFun T P)
    (hid : ∀ i, IdentDistrib (T i) (T 0) P P) (hm : ∫ ω, T 0 ω ∂P = k * m) :
    TendstoInDistribution
      (fun (b : ℕ) ω => √((b + 1) * k : ℕ) * ((∑ i ∈ Finset.range (b + 1), T i ω) / ((b + 1) * k : ℕ) - m)) atTop id
      (fun _ => P) (gaussianReal 0 (Var[T 0; P] / k).toNNReal) := by
  have hk0 : (0 : ℝ) < k := by exact_mod_cast Nat.pos_of_ne_zero hk
  have h := tendstoInDistribution_inv_sqrt_mul_sum_sub (P' := gaussianReal 0 Var[T 0; P].toNNReal) (Y := id)
    ⟨aemeasurable_id, Measure.map_id⟩ hT hind hid
  have h2 := h.continuous_comp (g := fun x : ℝ => (√k)⁻¹ * x) (by fun_prop)
  have hmap : (gaussianReal 0 Var[T 0; P].toNNReal).map ((fun x : ℝ => (√k)⁻¹ * x) ∘ id) =
      gaussianReal 0 (Var[T 0; P] / k).toNNReal := by
    rw [Function.comp_id, gaussianReal_map_const_mul, mul_zero]
    congr 1
    have e : NNReal.mk ((√(k : ℝ))⁻¹ ^ 2) (sq_nonneg _) = ((k : ℝ)⁻¹).toNNReal := by
      ext
      rw [Real.coe_toNNReal _ (inv_nonneg.2 hk0.le), NNReal.coe_mk, inv_pow, Real.sq_sqrt hk0.le]
    rw [e, ← Real.toNNReal_mul (inv_nonneg.2 hk0.le), div_eq_inv_mul]
  have h3 : Tendsto _ atTop _ := h2.tendsto.comp (tendsto_add_atTop_nat 1)
  refine ⟨fun b => ?_, aemeasurable_id, ?_⟩
  · exact ((Finset.aemeasurable_fun_sum _ fun i _ => (hid i).aemeasurable_fst).div_const _ |>.sub_const _).const_mul _
  · have hlim : (⟨(gaussianReal 0 Var[T 0; P].toNNReal).map ((fun x : ℝ => (√k)⁻¹ * x) ∘ id),
        Measure.isProbabilityMeasure_map h2.aemeasurable_limit⟩ : ProbabilityMeasure ℝ) =
        ⟨(gaussianReal 0 (Var[T 0; P] / k).toNNReal).map id, Measure.isProbabilityMeasure_map aemeasurable_id⟩ := by
      apply Subtype.ext
      change Measure.map _ _ = Measure.map _ _
      rw [hmap, Measure.map_id]
    rw [← hlim]
    refine h3.congr fun b => ?_
    apply Subtype.ext
    change Measure.map _ _ = Measure.map _ _
    congr 1
    funext ω
    have hb0 : (0 : ℝ) < (b + 1 : ℕ) := by positivity
    simp only [Function.comp_apply, hm]
    rw [Nat.cast_mul (b + 1) k, Real.sqrt_mul hb0.le]
    have e1 := Real.sqrt_ne_zero'.2 hb0
    have e2 := Real.sqrt_ne_zero'.2 hk0
    have e3 := Real.mul_self_sqrt hb0.le
    have e4 := Real.mul_self_sqrt hk0.le
    obtain ⟨x, hx⟩ : ∃ x : ℝ, x = √(b + 1 : ℕ) := ⟨_, rfl⟩
    obtain ⟨y, hy⟩ : ∃ y : ℝ, y = √(k : ℝ) := ⟨_, rfl⟩
    rw [← hx] at e1 e3 ⊢
    rw [← hy] at e2 e4 ⊢
    rw [← e3, ← e4]
    field_simp

/-- The probability that the mean is within `t` reported standard errors. -/
theorem coverage_tendsto {M W : ℕ → Ω → ℝ} {N : ℕ → ℝ} (hN : ∀ b, 0 < N b) {m τ t : ℝ} {v : ℝ≥0} (hv : v ≠ 0)
    (hM : TendstoInDistribution (fun (b : ℕ) ω => √(N b) * (M b ω - m)) atTop id (fun _ => P) (gaussianReal 0 v))
    (hWm : ∀ b, AEMeasurable (W b) P) (hW : ∀ᵐ ω ∂P, Tendsto (fun b => N b * W b ω) atTop (𝓝 τ)) :
    Tendsto (fun b => P {ω | |M b ω - m| ≤ t * √(W b ω)}) atTop
      (𝓝 (gaussianReal 0 v (Icc (-(t * √τ)) (t * √τ)))) := by
  have hY := tendstoInMeasure_of_tendsto_ae (f := fun b ω => N b * W b ω)
    (fun b => ((hWm b).const_mul _).aestronglyMeasurable) hW
  have h := hM.continuous_comp_prodMk_of_tendstoInMeasure_const (g := fun x : ℝ × ℝ => |x.1| - t * √x.2)
    (by fun_prop) hY fun b => (hWm b).const_mul _
  have hmz : AEMeasurable (fun x : ℝ => |id x| - t * √τ) (gaussianReal 0 v) := h.aemeasurable_limit
  have hna := nullSingletonClass_gaussianReal (μ := 0) hv
  have hset : (fun x : ℝ => |id x| - t * √τ) ⁻¹' Iic 0 = Icc (-(t * √τ)) (t * √τ) := by
    ext x
    simp [abs_le]
  have hfr : (gaussianReal 0 v).map (fun x : ℝ => |id x| - t * √τ) (frontier (Iic 0)) = 0 := by
    rw [frontier_Iic, Measure.map_apply_of_aemeasurable hmz (measurableSet_singleton 0)]
    refine measure_mono_null (t := {t * √τ} ∪ {-(t * √τ)}) ?_ ?_
    · intro x hx
      have hx' : |x| = t * √τ := by
        have : |x| - t * √τ = 0 := hx
        linarith
      rcases eq_or_eq_neg_of_abs_eq hx' with h | h
      · exact Or.inl h
      · exact Or.inr h
    · exact measure_union_null (measure_singleton _) (measure_singleton _)
  have key := ProbabilityMeasure.tendsto_measure_of_null_frontier_of_tendsto' h.tendsto (E := Iic 0) hfr
  have e : (((⟨(gaussianReal 0 v).map (fun x : ℝ => |id x| - t * √τ), Measure.isProbabilityMeasure_map hmz⟩ :
      ProbabilityMeasure ℝ) : Measure ℝ)) (Iic 0) = gaussianReal 0 v (Icc (-(t * √τ)) (t * √τ)) := by
    change (gaussianReal 0 v).map _ (Iic 0) = _
    rw [Measure.map_apply_of_aemeasurable hmz measurableSet_Iic, hset]
  rw [← e]
  refine key.congr fun b => ?_
  change P.map _ (Iic 0) = _
  rw [Measure.map_apply_of_aemeasurable (h.forall_aemeasurable b) measurableSet_Iic]
  congr 1
  ext ω
  change |√(N b) * (M b ω - m)| - t * √(N b * W b ω) ≤ 0 ↔ |M b ω - m| ≤ t * √(W b ω)
  have hs : 0 < √(N b) := Real.sqrt_pos.2 (hN b)
  rw [abs_mul, abs_of_pos hs, Real.sqrt_mul (hN b).le]
  constructor
  · intro hh
    refine le_of_mul_le_mul_left ?_ hs
    linarith
  · intro hh
    have := mul_le_mul_of_nonneg_left hh hs.le
    linarith

/-- A smaller variance puts more mass into symmetric intervals. -/
theorem gaussian_interval_mono {v : ℝ≥0} {t s : ℝ} (h : t * √v ≤ s) :
    gaussianReal 0 1 (Icc (-t) t) ≤ gaussianReal 0 v (Icc (-s) s) := by
  have hmap : (gaussianReal 0 1).map (fun x : ℝ => √(v : ℝ) * x) = gaussianReal 0 v := by
    rw [gaussianReal_map_const_mul, mul_zero, mul_one]
    congr 1
    ext
    simp
  rw [← hmap, Measure.map_apply (by fun_prop) measurableSet_Icc]
  refine measure_mono fun x hx => ?_
  have hs := Real.sqrt_nonneg (v : ℝ)
  have hx' : |x| ≤ t := abs_le.2 hx
  have : |√(v : ℝ) * x| ≤ s := by
    rw [abs_mul, abs_of_nonneg hs]
    nlinarith
  exact abs_le.1 this

/-- A larger variance puts less mass into symmetric intervals. -/
theorem gaussian_interval_lt {v : ℝ≥0} {t s : ℝ} (ht : 0 < t) (h : s < t * √v) :
    gaussianReal 0 v (Icc (-s) s) < gaussianReal 0 1 (Icc (-t) t) := by
  have hmap : (gaussianReal 0 1).map (fun x : ℝ => √(v : ℝ) * x) = gaussianReal 0 v := by
    rw [gaussianReal_map_const_mul, mul_zero, mul_one]
    congr 1
    ext
    simp
  have hop : (gaussianReal 0 1).IsOpenPosMeasure :=
    (gaussianReal_absolutelyContinuous' 0 one_ne_zero).isOpenPosMeasure
  obtain ⟨r, hr0, hrt, hr⟩ : ∃ r, 0 ≤ r ∧ r < t ∧ s ≤ r * √v := by
    rcases le_or_gt s 0 with h0 | h0
    · exact ⟨0, le_rfl, ht, by simpa using h0⟩
    · have hv : 0 < √(v : ℝ) := by
        rcases (Real.sqrt_nonneg (v : ℝ)).eq_or_lt with h1 | h1
        · rw [← h1, mul_zero] at h
          linarith
        · exact h1
      exact ⟨s / √v, by positivity, (div_lt_iff₀ hv).2 h, by rw [div_mul_cancel₀ _ hv.ne']⟩
  refine lt_of_le_of_lt (b := gaussianReal 0 1 (Icc (-r) r)) ?_ ?_
  · rw [← hmap, Measure.map_apply (by fun_prop) measurableSet_Icc]
    refine measure_mono fun x hx => ?_
    have hx' : |√(v : ℝ) * x| ≤ s := abs_le.2 hx
    have hs := Real.sqrt_nonneg (v : ℝ)
    rw [abs_mul, abs_of_nonneg hs] at hx'
    rcases hs.eq_or_lt with h1 | h1
    · rw [← h1] at hx' h
      simp only [zero_mul, mul_zero] at hx' h
      linarith
    · have : |x| ≤ r := le_of_mul_le_mul_left (by linarith) h1
      exact abs_le.1 this
  · have hsub : Icc (-r) r ∪ Ioo r t ⊆ Icc (-t) t := by
      rintro x (hx | hx)
      · exact ⟨by linarith [hx.1], by linarith [hx.2]⟩
      · exact ⟨by linarith [hx.1], hx.2.le⟩
    have hpos : 0 < gaussianReal 0 1 (Ioo r t) := isOpen_Ioo.measure_pos _ ⟨(r + t) / 2, by constructor <;> linarith⟩
    calc gaussianReal 0 1 (Icc (-r) r) < gaussianReal 0 1 (Icc (-r) r) + gaussianReal 0 1 (Ioo r t) :=
          ENNReal.lt_add_right (measure_ne_top _ _) hpos.ne'
      _ = gaussianReal 0 1 (Icc (-r) r ∪ Ioo r t) := by
          rw [measure_union _ measurableSet_Ioo]
          rw [Set.disjoint_left]
          intro x hx hx'
          exact absurd hx.2 (not_le.2 hx'.1)
      _ ≤ _ := measure_mono hsub

end Cyjax
