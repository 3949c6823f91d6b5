import Verif.Spec.IidSample
import Verif.Model.UtilMisc
import Verif.Lemmas.Coverage
import Mathlib.Probability.StrongLaw
import Mathlib.Probability.ProductMeasure
import Mathlib.Probability.Independence.InfinitePi
import Mathlib.MeasureTheory.Integral.Indicator

/-! # C183: confidence intervals from the variance returned by `mc_integrate` -/

namespace Cyjax

open MeasureTheory ProbabilityTheory Cyjax.Spec Util Set Filter Topology
open scoped ENNReal NNReal

variable {Ω Key Z : Type*} [MeasurableSpace Ω] [MeasurableSpace Z] {P : Measure Ω} {key : Ω → Key}
  {sample : Key → (c : ℕ) → (Fin c → Z) × (Fin c → ℝ)} {μ : Measure (Z × ℝ)} [IsProbabilityMeasure μ]

/-- The first `c` coordinates of a sequence of independent draws. -/
private theorem iid_prefix (c : ℕ) :
    HasLaw (fun (x : ℕ → Z × ℝ) (i : Fin c) => x i) (Measure.pi fun _ : Fin c => μ) (Measure.infinitePi fun _ : ℕ => μ) := by
  have hm : Measurable fun (x : ℕ → Z × ℝ) (i : Fin c) => x i := by fun_prop
  refine ⟨hm.aemeasurable, ?_⟩
  have hi : iIndepFun (fun (i : Fin c) (x : ℕ → Z × ℝ) => x i) (Measure.infinitePi fun _ : ℕ => μ) :=
    (iIndepFun_infinitePi (P := fun _ : ℕ => μ) (X := fun _ x => x) fun _ => measurable_id).precomp Fin.val_injective
  rw [(iIndepFun_iff_map_fun_eq_pi_map fun i => (measurable_pi_apply _).aemeasurable).1 hi]
  congr 1
  funext i
  exact (measurePreserving_eval_infinitePi (fun _ : ℕ => μ) (i : ℕ)).map_eq

/-- The value and the variance as functions of the draws. -/
private noncomputable def valOf {c : ℕ} (x : Fin c → Z × ℝ) : ℝ := (∑ i, (x i).2) / c

private noncomputable def varOf (fn : Z → ℝ) {c : ℕ} (x : Fin c → Z × ℝ) : ℝ :=
  ((∑ i, (fn (x i).1 * (x i).2) ^ 2) / c - valOf x ^ 2) / c

private theorem prob_eq (hs : IidSample P key sample μ) {fn : Z → ℝ} (hfn : Measurable fn) (m t : ℝ) (c : ℕ) :
    P {ω | |(mcIntegrate (key ω) c fn sample).1 - m| ≤ t * √(mcIntegrate (key ω) c fn sample).2} =
      (Measure.infinitePi fun _ : ℕ => μ) {x | |valOf (fun i : Fin c => x i) - m| ≤ t * √(varOf fn fun i : Fin c => x i)} := by
  have hv : Measurable fun x : Fin c → Z × ℝ => valOf x := by
    unfold valOf
    fun_prop
  have hw : Measurable fun x : Fin c → Z × ℝ => varOf fn x := by
    unfold varOf
    fun_prop
  have hS : MeasurableSet {x : Fin c → Z × ℝ | |valOf x - m| ≤ t * √(varOf fn x)} :=
    measurableSet_le (by fun_prop) (by fun_prop)
  have h1 := Measure.map_apply_of_aemeasurable (hs c).aemeasurable hS
  have h2 := Measure.map_apply_of_aemeasurable (iid_prefix (μ := μ) c).aemeasurable hS
  rw [(hs c).map_eq] at h1
  rw [(iid_prefix c).map_eq] at h2
  exact h1.symm.trans h2

/-- A function of one draw has the law it has under `μ`. -/
private theorem iid_map {g : Z × ℝ → ℝ} (hg : Measurable g) (i : ℕ) :
    (Measure.infinitePi fun _ : ℕ => μ).map (fun x : ℕ → Z × ℝ => g (x i)) = μ.map g := by
  have h := (measurePreserving_eval_infinitePi (fun _ : ℕ => μ) i).map_eq
  have h2 := Measure.map_map hg (measurable_pi_apply (X := fun _ : ℕ => Z × ℝ) i) (μ := Measure.infinitePi fun _ : ℕ => μ)
  exact h2.symm.trans (congrArg (Measure.map g) h)

private theorem iid_measurable {g : Z × ℝ → ℝ} (hg : Measurable g) (i : ℕ) : Measurable fun x : ℕ → Z × ℝ => g (x i) :=
  hg.comp (measurable_pi_apply i)

private theorem iid_ident {g : Z × ℝ → ℝ} (hg : Measurable g) (i : ℕ) :
    IdentDistrib (fun x : ℕ → Z × ℝ => g (x i)) (fun x => g (x 0)) (Measure.infinitePi fun _ : ℕ => μ)
      (Measure.infinitePi fun _ : ℕ => μ) :=
  ⟨(iid_measurable hg i).aemeasurable, (iid_measurable hg 0).aemeasurable, by rw [iid_map hg, iid_map hg]⟩

private theorem iid_ident_one {g : Z × ℝ → ℝ} (hg : Measurable g) :
    IdentDistrib (fun x : ℕ → Z × ℝ => g (x 0)) g (Measure.infinitePi fun _ : ℕ => μ) μ :=
  ⟨(iid_measurable hg 0).aemeasurable, hg.aemeasurable, iid_map hg 0⟩

/-- Averages over the draws converge. -/
private theorem iid_strong {g : Z × ℝ → ℝ} (hg : Integrable g μ) :
    ∀ᵐ x ∂(Measure.infinitePi fun _ : ℕ => μ), Tendsto (fun c : ℕ => (∑ i : Fin c, g (x i)) / c) atTop (𝓝 (∫ y, g y ∂μ)) := by
  have hp := fun i : ℕ => measurePreserving_eval_infinitePi (fun _ : ℕ => μ) i
  obtain ⟨g', hg', hgg⟩ := hg.aestronglyMeasurable.aemeasurable
  have hint : Integrable g' μ := hg.congr hgg
  have hi : iIndepFun (fun (i : ℕ) (x : ℕ → Z × ℝ) => g' (x i)) (Measure.infinitePi fun _ : ℕ => μ) :=
    iIndepFun_infinitePi (P := fun _ : ℕ => μ) (X := fun _ => g') fun _ => hg'
  have hl := strong_law_ae_real (fun (i : ℕ) (x : ℕ → Z × ℝ) => g' (x i))
    ((hp 0).integrable_comp_of_integrable hint) (fun i j hij => hi.indepFun hij) (iid_ident hg')
  have hE : ∫ x, g' (x 0) ∂(Measure.infinitePi fun _ : ℕ => μ) = ∫ y, g y ∂μ := by
    rw [integral_congr_ae hgg, (iid_ident_one (μ := μ) hg').integral_eq]
  have hae : ∀ᵐ x ∂(Measure.infinitePi fun _ : ℕ => μ), ∀ i : ℕ, g (x i) = g' (x i) :=
    ae_all_iff.2 fun i => (hp i).quasiMeasurePreserving.ae hgg
  filter_upwards [hl, hae] with x hx hx'
  rw [hE] at hx
  refine hx.congr fun c => ?_
  rw [Finset.sum_range]
  simp only [hx']

private theorem law_variance {A B : Type*} [MeasurableSpace A] [MeasurableSpace B] {X : A → B} {R : Measure A} {ν : Measure B}
    (h : HasLaw X ν R) {f : B → ℝ} (hf : Measurable f) : Var[fun a => f (X a); R] = Var[f; ν] := by
  rw [← h.map_eq, variance_map hf.aemeasurable h.aemeasurable]
  rfl

variable (hs : IidSample P key sample μ) {fn : Z → ℝ}

include hs

/-- **C183, partial.** `mc_integrate` of the integrand one (the only use in the package) with independent points and weights of
finite variance: the probability that the integral of the measure, the mean of the weights, is within `t` times the square root
of the returned variance converges to the probability that a normal variable is within `t` standard deviations. Missing: other
integrands (see `C183_violated`). -/
theorem C183_coverage_partial (hfn : ∀ z, fn z = 1) (hw : MemLp (fun x : Z × ℝ => x.2) 2 μ) (hv : Var[fun x : Z × ℝ => x.2; μ] ≠ 0)
    (t : ℝ) :
    Tendsto (fun c : ℕ => P {ω | |(mcIntegrate (key ω) c fn sample).1 - ∫ x, fn x.1 * x.2 ∂μ| ≤
      t * √(mcIntegrate (key ω) c fn sample).2}) atTop (𝓝 (gaussianReal 0 1 (Icc (-t) t))) := by
  obtain rfl : fn = fun _ => 1 := funext hfn
  obtain ⟨v, hvv⟩ : ∃ v : ℝ, v = Var[fun x : Z × ℝ => x.2; μ] := ⟨_, rfl⟩
  have hv0 : 0 < v := by
    rw [hvv]
    exact lt_of_le_of_ne (variance_nonneg _ _) hv.symm
  simp only [prob_eq hs measurable_const, one_mul]
  have hp := fun i : ℕ => measurePreserving_eval_infinitePi (fun _ : ℕ => μ) i
  have hmm : Measurable fun y : Z × ℝ => y.2 := measurable_snd
  have hvar : Var[fun x : ℕ → Z × ℝ => (x 0).2; Measure.infinitePi fun _ : ℕ => μ] = v :=
    (iid_ident_one (μ := μ) hmm).variance_eq.trans hvv.symm
  have hclt := clt_batches (P := Measure.infinitePi fun _ : ℕ => μ) (T := fun i x => (x i).2) (k := 1) one_ne_zero
    (m := ∫ x, x.2 ∂μ) (hw.comp_measurePreserving (hp 0))
    (iIndepFun_infinitePi (P := fun _ : ℕ => μ) (X := fun _ y => y.2) fun _ => hmm) (iid_ident hmm)
    (by rw [Nat.cast_one, one_mul, (iid_ident_one (μ := μ) hmm).integral_eq])
  rw [hvar, Nat.cast_one, div_one] at hclt
  simp only [mul_one] at hclt
  rw [← tendsto_add_atTop_iff_nat 1]
  have hlim : gaussianReal 0 v.toNNReal (Icc (-(t * √v)) (t * √v)) = gaussianReal 0 1 (Icc (-t) t) := by
    have hmap : (gaussianReal 0 1).map (fun x : ℝ => √v * x) = gaussianReal 0 v.toNNReal := by
      rw [gaussianReal_map_const_mul, mul_zero, mul_one]
      congr 1
      ext
      rw [Real.coe_toNNReal _ hv0.le, NNReal.coe_mk, Real.sq_sqrt hv0.le]
    rw [← hmap, Measure.map_apply (by fun_prop) measurableSet_Icc]
    congr 1
    ext x
    have hs0 := Real.sqrt_pos.2 hv0
    simp only [mem_preimage, mem_Icc]
    constructor
    · rintro ⟨h1, h2⟩
      exact ⟨le_of_mul_le_mul_left (by linarith) hs0, le_of_mul_le_mul_left (by linarith) hs0⟩
    · rintro ⟨h1, h2⟩
      have := mul_le_mul_of_nonneg_left h1 hs0.le
      have := mul_le_mul_of_nonneg_left h2 hs0.le
      exact ⟨by linarith, by linarith⟩
  rw [← hlim]
  refine coverage_tendsto (P := Measure.infinitePi fun _ : ℕ => μ) (M := fun b x => valOf fun i : Fin (b + 1) => x i)
    (W := fun b x => varOf (fun _ => 1) fun i : Fin (b + 1) => x i) (N := fun b => ((b + 1 : ℕ) : ℝ)) (fun b => by positivity)
    (by simpa using hv0) ?_ ?_ ?_
  · simpa only [valOf, Finset.sum_range] using hclt
  · intro b
    unfold varOf valOf
    exact Measurable.aemeasurable (by fun_prop)
  · filter_upwards [iid_strong (hw.integrable (by norm_num)), iid_strong hw.integrable_sq] with x h1 h2
    have h3 := (h2.sub (h1.pow 2)).comp (tendsto_add_atTop_nat 1)
    have e : v = ∫ y, y.2 ^ 2 ∂μ - (∫ y, y.2 ∂μ) ^ 2 := by
      rw [hvv, variance_eq_sub hw]
      rfl
    rw [e]
    refine h3.congr fun b => ?_
    have hb : ((b + 1 : ℕ) : ℝ) ≠ 0 := by positivity
    simp only [Function.comp_apply, varOf, valOf, one_mul]
    field_simp

/-- **C183 is violated for other integrands.** If the integral of the integrand is not the integral of one, then the intervals
around the result do not contain it asymptotically, however many standard errors one allows: the probability converges to
zero. -/
theorem C183_violated (hfn : Measurable fn) (hw : Integrable (fun x : Z × ℝ => x.2) μ)
    (hfw : MemLp (fun x : Z × ℝ => fn x.1 * x.2) 2 μ) (hne : ∫ x, fn x.1 * x.2 ∂μ ≠ ∫ x, x.2 ∂μ) (t : ℝ) :
    Tendsto (fun c : ℕ => P {ω | |(mcIntegrate (key ω) c fn sample).1 - ∫ x, fn x.1 * x.2 ∂μ| ≤
      t * √(mcIntegrate (key ω) c fn sample).2}) atTop (𝓝 0) := by
  simp only [prob_eq hs hfn]
  have h := tendsto_measure_of_ae_tendsto_indicator_of_isFiniteMeasure atTop
    (μ := Measure.infinitePi fun _ : ℕ => μ) (A := ∅) (As := fun c => {x : ℕ → Z × ℝ |
      |valOf (fun i : Fin c => x i) - ∫ x, fn x.1 * x.2 ∂μ| ≤ t * √(varOf fn fun i : Fin c => x i)}) MeasurableSet.empty ?_ ?_
  · simpa using h
  · intro c
    unfold varOf valOf
    exact measurableSet_le (by fun_prop) (by fun_prop)
  · filter_upwards [iid_strong hw, iid_strong hfw.integrable_sq] with x h1 h2
    have hvar : Tendsto (fun c : ℕ => varOf fn fun i : Fin c => x i) atTop (𝓝 0) :=
      (h2.sub (h1.pow 2)).div_atTop tendsto_natCast_atTop_atTop
    have hval : Tendsto (fun c : ℕ => |valOf (fun i : Fin c => x i) - ∫ x, fn x.1 * x.2 ∂μ|) atTop
        (𝓝 |∫ x, x.2 ∂μ - ∫ x, fn x.1 * x.2 ∂μ|) := (h1.sub_const _).abs
    have hr : Tendsto (fun c : ℕ => t * √(varOf fn fun i : Fin c => x i)) atTop (𝓝 0) := by
      simpa using ((Real.continuous_sqrt.tendsto 0).comp hvar).const_mul t
    have hpos : 0 < |∫ x, x.2 ∂μ - ∫ x, fn x.1 * x.2 ∂μ| := abs_pos.2 (sub_ne_zero.2 hne.symm)
    filter_upwards [hr.eventually_lt hval hpos] with c hc
    simp only [mem_empty_iff_false, iff_false, not_le]
    exact hc

/-- **C183, the estimates at every number of points.** For the integrand one the result is unbiased, its variance is the variance
of a weight over the number of points, and the returned variance estimates it with the factor `1 - 1/count`. -/
theorem C183_moments_partial (hfn : ∀ z, fn z = 1) (hw : MemLp (fun x : Z × ℝ => x.2) 2 μ) {c : ℕ} (hc : 0 < c) :
    P[fun ω => (mcIntegrate (key ω) c fn sample).1] = ∫ x, fn x.1 * x.2 ∂μ ∧
    Var[fun ω => (mcIntegrate (key ω) c fn sample).1; P] = Var[fun x : Z × ℝ => x.2; μ] / c ∧
    P[fun ω => (mcIntegrate (key ω) c fn sample).2] = (1 - 1 / c) * (Var[fun x : Z × ℝ => x.2; μ] / c) := by
  obtain rfl : fn = fun _ => 1 := funext hfn
  have hc' : (c : ℝ) ≠ 0 := by positivity
  have hmm : Measurable fun y : Z × ℝ => y.2 := measurable_snd
  have hv : Measurable fun x : Fin c → Z × ℝ => valOf x := by
    unfold valOf
    fun_prop
  have hr : Measurable fun x : Fin c → Z × ℝ => varOf (fun _ => 1) x := by
    unfold varOf
    fun_prop
  obtain ⟨Q, hQ⟩ : ∃ Q : Measure (Fin c → Z × ℝ), Q = Measure.pi fun _ => μ := ⟨_, rfl⟩
  have hQp : IsProbabilityMeasure Q := by
    rw [hQ]
    infer_instance
  have hlaw := hs c
  rw [← hQ] at hlaw
  have hp : ∀ i : Fin c, MeasurePreserving (Function.eval i) Q μ := fun i => by
    rw [hQ]
    exact measurePreserving_eval (fun _ : Fin c => μ) i
  have hL : ∀ i : Fin c, MemLp (fun x : Fin c → Z × ℝ => (x i).2) 2 Q := fun i => hw.comp_measurePreserving (hp i)
  have hI : ∀ i : Fin c, ∫ x, (x i).2 ∂Q = ∫ y, y.2 ∂μ := fun i =>
    (HasLaw.integral_comp ⟨(hp i).measurable.aemeasurable, (hp i).map_eq⟩ hmm.aestronglyMeasurable)
  have hI2 : ∀ i : Fin c, ∫ x, (x i).2 ^ 2 ∂Q = ∫ y, y.2 ^ 2 ∂μ := fun i =>
    (HasLaw.integral_comp (f := fun y : Z × ℝ => y.2 ^ 2) ⟨(hp i).measurable.aemeasurable, (hp i).map_eq⟩
      (hmm.pow_const 2).aestronglyMeasurable)
  have hV : ∀ i : Fin c, Var[fun x : Fin c → Z × ℝ => (x i).2; Q] = Var[fun y : Z × ℝ => y.2; μ] := fun i =>
    (law_variance ⟨(hp i).measurable.aemeasurable, (hp i).map_eq⟩ hmm)
  have hE : ∫ x, valOf x ∂Q = ∫ y, y.2 ∂μ := by
    simp only [valOf]
    rw [integral_div, integral_finsetSum _ fun i _ => (hL i).integrable (by norm_num)]
    simp only [hI, Finset.sum_const, Finset.card_univ, Fintype.card_fin, nsmul_eq_mul]
    field_simp
  have hVal : Var[fun x => valOf x; Q] = Var[fun y : Z × ℝ => y.2; μ] / c := by
    have hind : iIndepFun (fun (i : Fin c) (x : Fin c → Z × ℝ) => (x i).2) Q := by
      rw [hQ]
      exact iIndepFun_pi (μ := fun _ : Fin c => μ) (X := fun _ y => y.2) fun _ => hmm.aemeasurable
    have h1 := IndepFun.variance_sum (μ := Q) (s := Finset.univ) (X := fun (i : Fin c) (x : Fin c → Z × ℝ) => (x i).2)
      (fun i _ => hL i) (fun i _ j _ hij => hind.indepFun hij)
    have h2 : (fun x : Fin c → Z × ℝ => valOf x) = fun x => (1 / (c : ℝ)) * (∑ i : Fin c, fun x : Fin c → Z × ℝ => (x i).2) x := by
      funext x
      simp only [valOf, Finset.sum_apply]
      ring
    rw [h2, variance_const_mul, h1]
    simp only [hV, Finset.sum_const, Finset.card_univ, Fintype.card_fin, nsmul_eq_mul]
    field_simp
  have hLv : MemLp (fun x : Fin c → Z × ℝ => valOf x) 2 Q := by
    simp only [valOf, div_eq_mul_inv]
    exact (memLp_finsetSum _ fun i _ => hL i).mul_const _
  have hR : ∫ x, varOf (fun _ => 1) x ∂Q = (1 - 1 / c) * (Var[fun y : Z × ℝ => y.2; μ] / c) := by
    have h3 : ∫ x, valOf x ^ 2 ∂Q = Var[fun y : Z × ℝ => y.2; μ] / c + (∫ y, y.2 ∂μ) ^ 2 := by
      have := variance_eq_sub hLv
      rw [hVal, hE] at this
      rw [this]
      simp
    have h4 : Var[fun y : Z × ℝ => y.2; μ] = ∫ y, y.2 ^ 2 ∂μ - (∫ y, y.2 ∂μ) ^ 2 := variance_eq_sub hw
    simp only [varOf, one_mul]
    rw [integral_div, integral_sub ((integrable_finsetSum _ fun i _ => (hL i).integrable_sq).div_const _) hLv.integrable_sq,
      integral_div, integral_finsetSum _ fun i _ => (hL i).integrable_sq, h3]
    simp only [hI2, Finset.sum_const, Finset.card_univ, Fintype.card_fin, nsmul_eq_mul]
    rw [h4]
    field_simp
    ring
  simp only [one_mul]
  refine ⟨?_, ?_, ?_⟩
  · exact (hlaw.integral_comp hv.aestronglyMeasurable).trans hE
  · exact (law_variance hlaw hv).trans hVal
  · exact (hlaw.integral_comp hr.aestronglyMeasurable).trans hR

omit hs

/-- Independent weights, normal with mean one and variance one, at points uniform on the unit interval. -/
example :
    let μ : Measure (ℝ × ℝ) := (volume.restrict (Icc 0 1)).prod (gaussianReal 1 1)
    IsProbabilityMeasure μ ∧
    IidSample (Measure.infinitePi fun _ : ℕ => μ) id (fun (x : ℕ → ℝ × ℝ) c => (fun i : Fin c => (x i).1, fun i => (x i).2)) μ ∧
    MemLp (fun x : ℝ × ℝ => x.2) 2 μ ∧ Var[fun x : ℝ × ℝ => x.2; μ] ≠ 0 ∧
    MemLp (fun x : ℝ × ℝ => (fun _ => 2 : ℝ → ℝ) x.1 * x.2) 2 μ ∧
    ∫ x : ℝ × ℝ, (fun _ => 2 : ℝ → ℝ) x.1 * x.2 ∂μ ≠ ∫ x, x.2 ∂μ := by
  intro μ
  have : IsProbabilityMeasure (volume.restrict (Icc (0 : ℝ) 1)) := ⟨by simp⟩
  have hμ : IsProbabilityMeasure μ := inferInstanceAs (IsProbabilityMeasure ((volume.restrict (Icc (0 : ℝ) 1)).prod (gaussianReal 1 1)))
  have hsnd : MeasurePreserving (Prod.snd : ℝ × ℝ → ℝ) μ (gaussianReal 1 1) := measurePreserving_snd
  have hL : MemLp (fun x : ℝ × ℝ => x.2) 2 μ := (memLp_id_gaussianReal' 2 (by norm_num)).comp_measurePreserving hsnd
  have hI : ∫ x, x.2 ∂μ = 1 := by
    have := HasLaw.integral_comp (f := fun y : ℝ => y) ⟨hsnd.measurable.aemeasurable, hsnd.map_eq⟩ (by fun_prop)
    exact this.trans integral_id_gaussianReal
  refine ⟨hμ, fun c => iid_prefix c, hL, ?_, hL.const_mul 2, ?_⟩
  · have h : Var[fun x : ℝ × ℝ => x.2; μ] = Var[id; gaussianReal 1 1] :=
      law_variance ⟨hsnd.measurable.aemeasurable, hsnd.map_eq⟩ measurable_id
    rw [h, variance_id_gaussianReal]
    norm_num
  · rw [integral_const_mul, hI]
    norm_num

end Cyjax
