import Verif.Spec.DonaldsonLimit
import Verif.Lemmas.MonteCarlo
import Verif.Props.MonteCarlo
import Mathlib.Probability.StrongLaw
import Mathlib.Topology.Instances.Matrix

/-! # The T operator as an integral over the hypersurface -/

namespace Cyjax

open MeasureTheory ProbabilityTheory MvPolynomial Cyjax.Spec Cyjax.Polynomial Cyjax.Variety Set Filter Topology
open scoped ENNReal ComplexConjugate ComplexOrder

section Law

variable {n : ℕ} {F : MvPolynomial (Fin (n + 2)) ℂ} {Ω : Type*} [MeasurableSpace Ω] {P : Measure Ω}

/-- Averages over independent batches. -/
theorem strong_law_lines (p : Fin (n + 2)) (d : Fin (n + 1)) (hirr : Irreducible F) (hom : F.IsHomogeneous (n + 2))
    (hd : pderiv (p.succAbove d) F ≠ 0) (bs : ℕ) (hbs : bs ≠ 0) (hdvd : (n + 2) ∣ bs)
    (X : ℕ → Ω → Fin 2 → Fin (sampleCount bs (n + 2)) → Fin (2 * (n + 2)) → ℝ)
    (hX : ∀ i, HasLaw (X i) (normalsLaw (n + 2) (sampleCount bs (n + 2))) P) (hind : iIndepFun X P)
    {g : (Fin (n + 2) → ℂ) → ℝ} (hg : Measurable g) (hinv : ∀ c : ℂ, c ≠ 0 → ∀ Z, g (c • Z) = g Z)
    (hint : Integrable g (fsMeasure p d F)) :
    ∀ᵐ ω ∂P, Tendsto (fun b : ℕ => (∑ i ∈ Finset.range b, ∑ j, realSum F g (rawLines (X i ω) j)) / (b * bs : ℕ)) atTop
      (𝓝 ((∫ Z, g Z ∂fsMeasure p d F) / (n + 2))) := by
  have he0 : n + 2 ≠ 0 := by omega
  have hcount := sampleCount_dvd he0 hdvd
  obtain ⟨h1, h2⟩ := realSum_integral p d hirr hom he0 hd hg hinv hint
  have hmeas : Measurable fun x : Fin 2 → Fin (sampleCount bs (n + 2)) → Fin (2 * (n + 2)) → ℝ =>
      ∑ j, realSum F g (rawLines x j) := by
    refine Finset.measurable_sum _ fun j _ => (measurable_realSum hg).comp ?_
    exact (measurable_pi_apply j).comp (rawLines_preserving (n + 2) (sampleCount bs (n + 2))).measurable
  have hlaw := strong_law_ae_real (μ := P) (fun i ω => ∑ j, realSum F g (rawLines (X i ω) j))
    (lines_integral (hX 0) h1).1 (fun i j hij => (hind.indepFun hij).comp hmeas hmeas)
    (fun i => ((hX i).identDistrib (hX 0)).comp hmeas)
  rw [(lines_integral (hX 0) h1).2, h2] at hlaw
  have hbsR : (bs : ℝ) = sampleCount bs (n + 2) * (n + 2) := by exact_mod_cast hcount.symm
  have hs0 : (sampleCount bs (n + 2) : ℝ) ≠ 0 := fun h0 => by
    rw [h0, zero_mul] at hbsR
    exact hbs (by exact_mod_cast hbsR)
  filter_upwards [hlaw] with ω hω
  have := hω.div_const (bs : ℝ)
  have e1 : (sampleCount bs (n + 2) * ∫ Z, g Z ∂fsMeasure p d F) / (bs : ℝ) = (∫ Z, g Z ∂fsMeasure p d F) / (n + 2) := by
    rw [hbsR]
    field_simp
  rw [e1] at this
  refine this.congr fun b => ?_
  rw [div_div, Nat.cast_mul]

end Law

variable {n N k : ℕ} {F : MvPolynomial (Fin (n + 2)) ℂ} (s : Fin N → MvPolynomial (Fin (n + 2)) ℂ)
  (hs : ∀ a, (s a).IsHomogeneous k) (h : Matrix (Fin N) (Fin N) ℂ)

/-- The sum in the denominator of the T operator. -/
noncomputable def psiAt (Z : Fin (n + 2) → ℂ) : ℂ := ∑ c, ∑ d, eval Z (s c) * h c d * conj (eval Z (s d))

/-- The integrand of the T operator. -/
noncomputable def tFun (a b : Fin N) (Z : Fin (n + 2) → ℂ) : ℂ := eval Z (s a) * conj (eval Z (s b)) / psiAt s h Z

theorem continuous_psiAt : Continuous (psiAt s h) := by
  unfold psiAt
  refine continuous_finsetSum _ fun c _ => continuous_finsetSum _ fun d _ => ?_
  exact ((MvPolynomial.continuous_eval _).mul continuous_const).mul (Complex.continuous_conj.comp (MvPolynomial.continuous_eval _))

theorem psiAt_pos (hh : h.PosDef) (Z : Fin (n + 2) → ℂ) (hZ : ∃ a, eval Z (s a) ≠ 0) : 0 < psiAt s h Z := by
  have h1 : (fun a => conj (eval Z (s a))) ≠ 0 := by
    obtain ⟨a, ha⟩ := hZ
    exact fun h0 => ha (by simpa using congrFun h0 a)
  have h2 := hh.dotProduct_mulVec_pos h1
  refine h2.trans_eq ?_
  simp only [psiAt, dotProduct, Matrix.mulVec, Pi.star_apply, Finset.mul_sum]
  refine Finset.sum_congr rfl fun c _ => Finset.sum_congr rfl fun d _ => ?_
  simp [mul_assoc]

theorem measurable_tFun (a b : Fin N) : Measurable (tFun s h a b) := by
  have h1 : Measurable fun Z : Fin (n + 2) → ℂ => eval Z (s a) * conj (eval Z (s b)) :=
    ((MvPolynomial.continuous_eval _).mul (Complex.continuous_conj.comp (MvPolynomial.continuous_eval _))).measurable
  exact h1.div (continuous_psiAt s h).measurable

include hs

theorem psiAt_smul (c : ℂ) (Z : Fin (n + 2) → ℂ) : psiAt s h (c • Z) = (c * conj c) ^ k * psiAt s h Z := by
  unfold psiAt
  rw [Finset.mul_sum]
  refine Finset.sum_congr rfl fun a _ => ?_
  rw [Finset.mul_sum]
  refine Finset.sum_congr rfl fun b _ => ?_
  rw [eval_smul_point (hs a), eval_smul_point (hs b), map_mul, map_pow, mul_pow]
  ring

theorem tFun_smul (a b : Fin N) (c : ℂ) (hc : c ≠ 0) (Z : Fin (n + 2) → ℂ) : tFun s h a b (c • Z) = tFun s h a b Z := by
  unfold tFun
  have hc' : (c * conj c) ^ k ≠ 0 := pow_ne_zero _ (mul_ne_zero hc (by simpa using hc))
  rw [psiAt_smul s hs, eval_smul_point (hs a), eval_smul_point (hs b), map_mul, map_pow,
    show c ^ k * eval Z (s a) * (conj c ^ k * conj (eval Z (s b))) = (c * conj c) ^ k * (eval Z (s a) * conj (eval Z (s b))) by
      rw [mul_pow]; ring, mul_div_mul_left _ _ hc']

theorem tFun_bounded (hh : h.PosDef) (hne : ∀ Z, Z ≠ 0 → eval Z F = 0 → ∃ a, eval Z (s a) ≠ 0) (hom : F.IsHomogeneous (n + 2))
    (a b : Fin N) : ∃ M : ℝ, ∀ Z : Fin (n + 2) → ℂ, Z ≠ 0 → eval Z F = 0 → ‖tFun s h a b Z‖ ≤ M := by
  have hK : IsCompact (Metric.sphere (0 : Fin (n + 2) → ℂ) 1 ∩ {z | eval z F = 0}) :=
    (isCompact_sphere _ _).inter_right (isClosed_singleton.preimage (MvPolynomial.continuous_eval _))
  have hcont : ContinuousOn (tFun s h a b) (Metric.sphere (0 : Fin (n + 2) → ℂ) 1 ∩ {z | eval z F = 0}) := by
    refine ContinuousOn.div ?_ (continuous_psiAt s h).continuousOn ?_
    · exact ((MvPolynomial.continuous_eval _).mul
        (Complex.continuous_conj.comp (MvPolynomial.continuous_eval _))).continuousOn
    · rintro Z ⟨h1, h2⟩
      exact (psiAt_pos s h hh Z (hne Z (ne_zero_of_mem_unit_sphere (⟨Z, h1⟩ : Metric.sphere (0 : Fin (n + 2) → ℂ) 1)) h2)).ne'
  obtain ⟨M, hM⟩ := hK.exists_bound_of_continuousOn hcont
  refine ⟨M, fun Z hZ h0 => ?_⟩
  have hc : ((‖Z‖⁻¹ : ℝ) : ℂ) ≠ 0 := by
    simpa using hZ
  rw [← tFun_smul s hs h a b _ hc Z]
  refine hM _ ⟨?_, ?_⟩
  · rw [mem_sphere_zero_iff_norm, norm_smul, Complex.norm_real, norm_inv, norm_norm]
    exact inv_mul_cancel₀ (norm_ne_zero_iff.2 hZ)
  · rw [mem_setOf_eq, eval_smul_point hom, h0, mul_zero]

omit hs in
/-- A form that is no multiple of `F` vanishes almost nowhere. -/
theorem ae_eval_ne (p : Fin (n + 2)) (d : Fin (n + 1)) (hirr : Irreducible F) (hom : F.IsHomogeneous (n + 2))
    (hd : pderiv (p.succAbove d) F ≠ 0) {f : MvPolynomial (Fin (n + 2)) ℂ} (hf : f.IsHomogeneous k) (hndvd : ¬ F ∣ f) :
    ∀ᵐ Z ∂fsMeasure p d F, eval Z f ≠ 0 := by
  have he0 : n + 2 ≠ 0 := by omega
  have hms : MeasurableSet {Z : Fin (n + 2) → ℂ | eval Z f = 0} :=
    (isClosed_singleton.preimage (MvPolynomial.continuous_eval f)).measurableSet
  have h1 := simpleSum_fs p d hirr hom he0 hd (measurable_one.indicator hms) fun c hc Z => by
    have : c • Z ∈ {Z : Fin (n + 2) → ℂ | eval Z f = 0} ↔ Z ∈ {Z : Fin (n + 2) → ℂ | eval Z f = 0} := by
      change eval (c • Z) f = 0 ↔ eval Z f = 0
      rw [eval_smul_point hf, mul_eq_zero, or_iff_right (pow_ne_zero _ hc)]
    by_cases hZ : Z ∈ {Z : Fin (n + 2) → ℂ | eval Z f = 0}
    · rw [indicator_of_mem hZ, indicator_of_mem (this.2 hZ)]
      rfl
    · rw [indicator_of_notMem hZ, indicator_of_notMem fun h => hZ (this.1 h)]
  rw [lintegral_indicator_one hms] at h1
  rw [ae_iff]
  simp only [not_not]
  rw [← h1, ← lintegral_zero (μ := lineLaw (n + 2))]
  refine lintegral_congr_ae ?_
  filter_upwards [ae_avoid hirr hom f hndvd] with x hx
  refine ENNReal.tsum_eq_zero.2 fun t => ?_
  by_cases ht : x.1 + t • x.2 ∈ simpleSet F x.2
  · rw [indicator_of_mem ht, indicator_of_notMem (show x.1 + t • x.2 ∉ {Z : Fin (n + 2) → ℂ | eval Z f = 0} from
      hx.2 t ht.1)]
  · rw [indicator_of_notMem ht]

omit hs in
theorem tIntegral_apply (μ : Measure (Fin (n + 2) → ℂ)) (a b : Fin N) :
    tIntegral s h μ a b = (N : ℂ) / (μ univ).toReal * ∫ Z, tFun s h a b Z ∂μ := rfl

omit hs in
/-- The integral is positive definite. -/
theorem tIntegral_posDef (μ : Measure (Fin (n + 2) → ℂ)) (hfin : μ univ ≠ ∞) (hne : μ univ ≠ 0)
    (hint : ∀ a b, Integrable (tFun s h a b) μ) (hpos : ∀ᵐ Z ∂μ, 0 < psiAt s h Z)
    (hind : ∀ c : Fin N → ℂ, c ≠ 0 → ∀ᵐ Z ∂μ, ∑ a, c a * eval Z (s a) ≠ 0) : (tIntegral s h μ).PosDef := by
  refine Matrix.PosDef.of_dotProduct_mulVec_pos ?_ fun {x} hx => ?_
  · ext a b
    rw [Matrix.conjTranspose_apply, tIntegral_apply, tIntegral_apply, star_mul', star_div₀]
    simp only [Complex.star_def, map_natCast, Complex.conj_ofReal]
    rw [← integral_conj]
    congr 1
    refine integral_congr_ae ?_
    filter_upwards [hpos] with Z hZ
    have hre : conj (psiAt s h Z) = psiAt s h Z := by
      rw [Complex.conj_eq_iff_im]
      exact (Complex.pos_iff.1 hZ).2.symm
    simp only [tFun, map_div₀, map_mul, Complex.conj_conj, hre]
    ring
  have hN : 0 < N := by
    obtain ⟨a, -⟩ := Function.ne_iff.1 hx
    exact a.pos
  set u : (Fin (n + 2) → ℂ) → ℂ := fun Z => ∑ a, conj (x a) * eval Z (s a) with hu
  set r : (Fin (n + 2) → ℂ) → ℝ := fun Z => Complex.normSq (u Z) / (psiAt s h Z).re with hr
  have h1 : star x ⬝ᵥ (tIntegral s h μ).mulVec x =
      (N : ℂ) / (μ univ).toReal * ∫ Z, ∑ a, ∑ b, conj (x a) * tFun s h a b Z * x b ∂μ := by
    rw [integral_finsetSum _ fun a _ => integrable_finsetSum _ fun b _ => ((hint a b).const_mul _).mul_const _]
    simp only [dotProduct, Matrix.mulVec, Pi.star_apply, Finset.mul_sum]
    refine Finset.sum_congr rfl fun a _ => ?_
    rw [integral_finsetSum _ fun b _ => ((hint a b).const_mul _).mul_const _, Finset.mul_sum]
    refine Finset.sum_congr rfl fun b _ => ?_
    rw [integral_mul_const, integral_const_mul, tIntegral_apply, Complex.star_def]
    ring
  have h2 : ∀ᵐ Z ∂μ, ∑ a, ∑ b, conj (x a) * tFun s h a b Z * x b = (r Z : ℂ) := by
    filter_upwards [hpos] with Z hZ
    have hre : ((psiAt s h Z).re : ℂ) = psiAt s h Z :=
      Complex.ext rfl (by simpa using (Complex.pos_iff.1 hZ).2)
    rw [hr]
    simp only
    rw [Complex.ofReal_div, hre, Complex.normSq_eq_conj_mul_self, mul_comm (conj (u Z)), hu]
    simp only [map_sum, map_mul, Complex.conj_conj]
    rw [Finset.sum_mul_sum, Finset.sum_div]
    refine Finset.sum_congr rfl fun a _ => ?_
    rw [Finset.sum_div]
    refine Finset.sum_congr rfl fun b _ => ?_
    unfold tFun
    ring
  have h3 : ∀ᵐ Z ∂μ, 0 < r Z := by
    have hx' : (fun a => conj (x a)) ≠ 0 := fun h0 => hx (funext fun a => by simpa using congrFun h0 a)
    filter_upwards [hpos, hind _ hx'] with Z hZ h0
    exact div_pos (Complex.normSq_pos.2 h0) (Complex.pos_iff.1 hZ).1
  have hri : Integrable (fun Z => (r Z : ℂ)) μ :=
    (integrable_congr h2).1 (integrable_finsetSum _ fun a _ => integrable_finsetSum _ fun b _ =>
      ((hint a b).const_mul _).mul_const _)
  have hri' : Integrable r μ := by
    have := hri.re
    simpa using this
  have h4 : 0 < ∫ Z, r Z ∂μ := by
    rw [integral_pos_iff_support_of_nonneg_ae (h3.mono fun _ h => h.le) hri']
    have : μ (Function.support r) = μ univ := measure_congr (by
      filter_upwards [h3] with Z hZ
      exact eq_true (show Z ∈ Function.support r from hZ.ne') |>.trans (eq_true (mem_univ Z)).symm)
    rw [this]
    exact pos_iff_ne_zero.2 hne
  rw [h1, integral_congr_ae h2, integral_complex_ofReal]
  have h5 : 0 < (N : ℝ) / (μ univ).toReal * ∫ Z, r Z ∂μ :=
    mul_pos (div_pos (by exact_mod_cast hN) (ENNReal.toReal_pos hne hfin)) h4
  have := Complex.zero_lt_real.2 h5
  push_cast at this
  exact this

end Cyjax
