import Verif.Lemmas.DonaldsonLimit
import Verif.Props.Convergence

/-! # C134: convergence of `donaldson_step` to Donaldson's T operator -/

namespace Cyjax

open MeasureTheory ProbabilityTheory MvPolynomial Cyjax.Spec Cyjax.Polynomial Cyjax.Variety Cyjax.Donaldson Set Filter
  Topology
open scoped ENNReal ComplexOrder ComplexConjugate

variable {n : ℕ} {F : MvPolynomial (Fin (n + 2)) ℂ} {A : AlgebraicMetric (n + 1)} {ps : List ℂ} {o : SymOrder}
  (ho : o.Valid) {roots : List ℂ → List ℂ} (hr : CompleteRoots roots) (hsm : SmoothHypersurface F) (hn : n ≠ 0)
  (p : Fin (n + 2)) (d : Fin (n + 1)) (hS : Samplable A.variety (n + 1) (n + 2) ps)
  (hF : Hypersurface A.variety (.vec ps) (n + 1) (n + 2) F) (hB : IsBasisModulo F A.sections.degree A.sections.rows)
  (h : A.H) (hh : h.PosDef)

include hB in
private theorem sec_hom (a : Fin A.sections.size) : (sec A a).IsHomogeneous A.sections.degree := by
  rw [← hB.1 _ (List.get_mem A.sections.rows a)]
  exact mono_homogeneous _

include hB in
private theorem sec_indep (c : Fin A.sections.size → ℂ) (hc : F ∣ ∑ a, C (c a) * sec A a) : c = 0 := by
  obtain ⟨c0, -, huniq⟩ := hB.2 0 (isHomogeneous_zero _ _ _)
  have h1 := huniq c (show F ∣ 0 - ∑ a, C (c a) * sec A a by rw [zero_sub, dvd_neg]; exact hc)
  have h2 := huniq 0 (by simp)
  exact h1.trans h2.symm

include hB in
private theorem sec_ne (Z : Fin (n + 2) → ℂ) (hZ : Z ≠ 0) (h0 : eval Z F = 0) : ∃ a, eval Z (sec A a) ≠ 0 :=
  spans_ne (hB := ⟨hB.1, fun f hf => (hB.2 f hf).exists⟩) Z hZ h0

include hsm hn hS hF hB hh

private theorem tFun_integrable (a b : Fin A.sections.size) : Integrable (tFun (sec A) h a b) (cyMeasure p d F) := by
  have hom := hF.homogeneous
  have hfin : IsFiniteMeasure (cyMeasure p d F) := ⟨(C130_measure hsm hn p d hS hF).1.lt_top⟩
  obtain ⟨M, hM⟩ := tFun_bounded (sec A) (sec_hom hB) h hh (sec_ne hB) hom a b
  refine (integrable_const M).mono' (measurable_tFun (sec A) h a b).aestronglyMeasurable ?_
  have hcyae : ∀ᵐ Z ∂cyMeasure p d F, Z ≠ 0 ∧ Z ∈ regularSet p d F := by
    rw [cyMeasure_withDensity p d hom]
    exact (withDensity_absolutelyContinuous _ _).ae_le (ae_fsMeasure hom p d)
  filter_upwards [hcyae] with Z hZ
  exact hM Z hZ.1 hZ.2.1

/-- **C134.** The integrals in Donaldson's T operator exist, and it is positive definite. -/
theorem C134_operator :
    (∀ a b, Integrable (fun Z => eval Z (sec A a) * conj (eval Z (sec A b)) /
      ∑ c, ∑ d, eval Z (sec A c) * h c d * conj (eval Z (sec A d))) (cyMeasure p d F)) ∧
    (tIntegral (sec A) h (cyMeasure p d F)).PosDef := by
  have hom := hF.homogeneous
  have he0 : n + 2 ≠ 0 := by omega
  have hirr := smooth_irreducible (by omega) hom he0 hsm
  have hd := smooth_pderiv_ne_zero hom (by omega) hsm (p.succAbove d)
  obtain ⟨h1, h2, -⟩ := C130_measure hsm hn p d hS hF
  have hac : cyMeasure p d F ≪ fsMeasure p d F := by
    rw [cyMeasure_withDensity p d hom]
    exact withDensity_absolutelyContinuous _ _
  refine ⟨tFun_integrable hsm hn p d hS hF hB h hh,
    tIntegral_posDef (sec A) h _ h1 h2 (tFun_integrable hsm hn p d hS hF hB h hh) ?_ fun c hc => ?_⟩
  · filter_upwards [hac.ae_le (ae_fsMeasure hom p d)] with Z hZ
    exact psiAt_pos (sec A) h hh Z (sec_ne hB Z hZ.1 hZ.2.1)
  · have hf : (∑ a, C (c a) * sec A a).IsHomogeneous A.sections.degree :=
      IsHomogeneous.sum _ _ _ fun a _ => by
        have := (isHomogeneous_C (Fin (n + 2)) (c a)).mul (sec_hom hB a)
        rwa [zero_add] at this
    filter_upwards [hac.ae_le (ae_eval_ne p d hirr hom hd hf fun hdvd => hc (sec_indep hB c hdvd))] with Z hZ
    simpa [map_sum] using hZ

include ho hr

/-- The limit of `donaldson_step`, for batches whose averages converge. -/
theorem step_limit {Ω : Type*} [MeasurableSpace Ω] {P : Measure Ω} (bs : ℕ) (hdvd : (n + 2) ∣ bs)
    (X : (b : ℕ) → Fin b → Ω → Fin 2 → Fin (sampleCount bs (n + 2)) → Fin (2 * (n + 2)) → ℝ)
    (hX : ∀ b i, HasLaw (X b i) (normalsLaw (n + 2) (sampleCount bs (n + 2))) P)
    (hlaw : ∀ g : (Fin (n + 2) → ℂ) → ℝ, Measurable g → (∀ c : ℂ, c ≠ 0 → ∀ Z, g (c • Z) = g Z) →
      (∃ K, ∀ Z, Z ≠ 0 → eval Z F = 0 → |g Z| ≤ K) → Integrable g (fsMeasure p d F) →
      ∀ᵐ ω ∂P, Tendsto (fun b : ℕ => (∑ i, ∑ j, realSum F g (rawLines (X b i ω) j)) / (b * bs : ℕ)) atTop
        (𝓝 ((∫ Z, g Z ∂fsMeasure p d F) / (n + 2)))) :
    let step := fun ω (vol : ℝ) (b : ℕ) => A.donaldsonStep .complex h o roots ps vol bs
      (List.ofFn fun i : Fin b => asLists (lineDraws (X b i ω)))
    ∀ᵐ ω ∂P, (∀ vol b, ∃ h', step ω vol b = .ok h') ∧
      ∀ (vol : ℕ → ℝ) (v : ℝ), 0 < v → Tendsto vol atTop (𝓝 v) →
        Tendsto (fun b => matrixOrZero (step ω (vol b) b)) atTop
          (𝓝 (((v * (n + 2) / (cyMeasure p d F univ).toReal : ℝ) : ℂ) •
            (tIntegral (sec A) h (cyMeasure p d F))⁻¹.transpose)) := by
  intro step
  have hom := hF.homogeneous
  have he0 : n + 2 ≠ 0 := by omega
  have hirr := smooth_irreducible (by omega) hom he0 hsm
  have hd := smooth_pderiv_ne_zero hom (by omega) hsm (p.succAbove d)
  have hcount := sampleCount_dvd he0 hdvd
  obtain ⟨hint, hpd⟩ := C134_operator hsm hn p d hS hF hB h hh
  obtain ⟨hfin0, hne0, -⟩ := C130_measure hsm hn p d hS hF
  set w := pointWeight (n + 2) F with hw
  set V := (cyMeasure p d F univ).toReal with hV
  have hV0 : 0 < V := ENNReal.toReal_pos hne0 hfin0
  have hn2 : (0 : ℝ) < n + 2 := by positivity
  have hwm : Measurable w := measurable_pointWeight (F := F) (n + 2)
  have hwi : ∀ c : ℂ, c ≠ 0 → ∀ Z, w (c • Z) = w Z := pointWeight_smul hom
  obtain ⟨W, -, hW⟩ := pointWeight_bounded hom hsm
  have hbd : ∀ (f : (Fin (n + 2) → ℂ) → ℝ) (M : ℝ), (∀ Z, Z ≠ 0 → eval Z F = 0 → |f Z| ≤ M) →
      ∀ Z, Z ≠ 0 → eval Z F = 0 → |f Z * w Z| ≤ M * W := by
    intro f M hM Z hZ h0
    have hw0 : 0 < w Z := pointWeight_pos (e := n + 2) Z hZ (hsm Z hZ h0)
    rw [abs_mul, abs_of_pos hw0]
    exact mul_le_mul (hM Z hZ h0) (hW Z hZ h0) hw0.le ((abs_nonneg _).trans (hM Z hZ h0))
  -- the entries
  have gm : ∀ a b, Measurable (tFun (sec A) h a b) := measurable_tFun (sec A) h
  have gi : ∀ a b (c : ℂ), c ≠ 0 → ∀ Z, tFun (sec A) h a b (c • Z) = tFun (sec A) h a b Z :=
    fun a b c hc Z => tFun_smul (sec A) (sec_hom hB) h a b c hc Z
  have hlim : ∀ᵐ ω ∂P, ∀ a b, Tendsto (fun B : ℕ => (∑ i, ∑ j,
        ((realSum F (fun Z => (tFun (sec A) h a b Z).re * w Z) (rawLines (X B i ω) j) : ℝ) +
          (realSum F (fun Z => (tFun (sec A) h a b Z).im * w Z) (rawLines (X B i ω) j) : ℝ) * Complex.I)) / (B * bs : ℕ)) atTop
        (𝓝 ((∫ Z, tFun (sec A) h a b Z ∂cyMeasure p d F) / (n + 2))) := by
    rw [ae_all_iff]
    intro a
    rw [ae_all_iff]
    intro b
    have i1 := cy_integral hom p d fun Z => (tFun (sec A) h a b Z).re
    have i2 := cy_integral hom p d fun Z => (tFun (sec A) h a b Z).im
    obtain ⟨M, hM⟩ := tFun_bounded (sec A) (sec_hom hB) h hh (sec_ne hB) hom a b
    have r1 := hlaw (fun Z => (tFun (sec A) h a b Z).re * w Z) ((Complex.measurable_re.comp (gm a b)).mul hwm)
      (fun c hc Z => by rw [gi a b c hc, hwi c hc])
      ⟨M * W, hbd _ M fun Z hZ h0 => (Complex.abs_re_le_norm _).trans (hM Z hZ h0)⟩ (i1.1.1 (hint a b).re)
    have r2 := hlaw (fun Z => (tFun (sec A) h a b Z).im * w Z) ((Complex.measurable_im.comp (gm a b)).mul hwm)
      (fun c hc Z => by rw [gi a b c hc, hwi c hc])
      ⟨M * W, hbd _ M fun Z hZ h0 => (Complex.abs_im_le_norm _).trans (hM Z hZ h0)⟩ (i2.1.1 (hint a b).im)
    filter_upwards [r1, r2] with ω h1 h2
    rw [← i1.2] at h1
    rw [← i2.2] at h2
    have h3 := ((Complex.continuous_ofReal.tendsto _).comp h1).add
      (((Complex.continuous_ofReal.tendsto _).comp h2).mul_const Complex.I)
    have e1 : (∫ Z, tFun (sec A) h a b Z ∂cyMeasure p d F) / ((n : ℂ) + 2) =
        (((∫ Z, (tFun (sec A) h a b Z).re ∂cyMeasure p d F) / (n + 2) : ℝ) : ℂ) +
          (((∫ Z, (tFun (sec A) h a b Z).im ∂cyMeasure p d F) / (n + 2) : ℝ) : ℂ) * Complex.I := by
      have e0 : ∫ Z, tFun (sec A) h a b Z ∂cyMeasure p d F = ((∫ Z, (tFun (sec A) h a b Z).re ∂cyMeasure p d F : ℝ) : ℂ) +
          ((∫ Z, (tFun (sec A) h a b Z).im ∂cyMeasure p d F : ℝ) : ℂ) * Complex.I :=
        (integral_re_add_im (hint a b)).symm
      rw [e0]
      push_cast
      ring
    rw [e1]
    refine h3.congr fun B => ?_
    simp only [Function.comp_apply, Complex.ofReal_div, Complex.ofReal_sum, Finset.sum_add_distrib, add_div,
      Complex.ofReal_natCast]
    congr 1
    rw [Finset.sum_div, Finset.sum_div, Finset.sum_mul]
    refine Finset.sum_congr rfl fun i _ => ?_
    rw [Finset.sum_div, Finset.sum_div, Finset.sum_mul]
    refine Finset.sum_congr rfl fun j _ => ?_
    ring
  -- the points
  obtain ⟨pts, hpts⟩ := sample_sums hS hF hsm hirr ho hr he0 (sampleCount bs (n + 2))
  have had := ae_admissible (count := sampleCount bs (n + 2)) F (smooth_ne_zero hsm) hom
  have hall : ∀ᵐ ω ∂P, ∀ (b : ℕ) (i : Fin b), (∀ y ∈ lineDraws (X b i ω), Admissible F y) ∧ (pts (X b i ω)).length = bs ∧
      sampleIntersectOpt n A.variety o roots ps bs (asLists (lineDraws (X b i ω))) false true =
        .ok (.homWeights ((pts (X b i ω)).map List.ofFn) ((pts (X b i ω)).map w)) ∧
      ∀ g : (Fin (n + 2) → ℂ) → ℝ, (∀ c : ℂ, c ≠ 0 → ∀ Z, g (c • Z) = g Z) →
        ((pts (X b i ω)).map g).sum = ∑ j, realSum F g (rawLines (X b i ω) j) := by
    rw [ae_all_iff]
    intro b
    rw [ae_all_iff]
    intro i
    rw [← (hX b i).map_eq] at had hpts
    filter_upwards [ae_of_ae_map (hX b i).aemeasurable had, ae_of_ae_map (hX b i).aemeasurable hpts] with ω h1 h2
    obtain ⟨g1, -, g3, g4⟩ := h2
    rw [hcount] at g1
    have g5 := (g3 bs).2.1
    rw [List.take_of_length_le g1.le] at g5
    exact ⟨h1.2, g1, g5, g4⟩
  filter_upwards [hlim, hall] with ω hω hp
  have hres : ∀ b, ∃ Zs : List (Fin (n + 2) → ℂ), Zs.length = b * bs ∧
      (∀ g : (Fin (n + 2) → ℂ) → ℝ, (∀ c : ℂ, c ≠ 0 → ∀ Z, g (c • Z) = g Z) →
        (Zs.map g).sum = ∑ i, ∑ j, realSum F g (rawLines (X b i ω) j)) ∧
      ∀ vol, step ω vol b = .ok (tOperator (sec A) h vol w Zs)⁻¹.transpose := by
    intro b
    have hmem : ∀ x ∈ (List.ofFn fun i : Fin b => lineDraws (X b i ω)), bs ≤ x.length * (n + 2) ∧ ∀ y ∈ x, Admissible F y := by
      intro x hx
      obtain ⟨i, rfl⟩ := List.mem_ofFn.1 hx
      refine ⟨?_, (hp b i).1⟩
      rw [lineDraws, List.length_ofFn, hcount]
    obtain ⟨Zs, h1, h2⟩ := C112_step hS hF hsm ho hr.exact bs hB.1 _ hmem
    have hZ : ∀ i : Fin b, Zs (lineDraws (X b i ω)) = pts (X b i ω) := fun i => by
      have e1 := (h1 _ (List.mem_ofFn.2 ⟨i, rfl⟩)).1.symm.trans (hp b i).2.2.1
      injection e1 with e1
      injection e1 with e1 _
      exact List.map_injective_iff.2 List.ofFn_injective e1
    refine ⟨(List.ofFn fun i : Fin b => lineDraws (X b i ω)).flatMap Zs, ?_, ?_, ?_⟩
    · rw [List.length_flatMap, List.map_ofFn, List.sum_ofFn]
      simp only [Function.comp_apply, hZ, (hp b _).2.1, Finset.sum_const, Finset.card_univ, Fintype.card_fin, smul_eq_mul]
    · intro g hg
      rw [List.map_flatMap, sum_flatMap', List.map_ofFn, List.sum_ofFn]
      refine Finset.sum_congr rfl fun i _ => ?_
      rw [Function.comp_apply, hZ, (hp b i).2.2.2 g hg]
    · intro vol
      have := (h2 h vol).2.1 hh.isHermitian
      rwa [List.map_ofFn] at this
  refine ⟨fun vol b => ?_, fun vol v hv hvol => ?_⟩
  · obtain ⟨Zs, -, -, h1⟩ := hres b
    exact ⟨_, h1 vol⟩
  choose Zs z1 z2 z3 using hres
  have hT : Tendsto (fun b => tOperator (sec A) h (vol b) w (Zs b)) atTop
      (𝓝 (((V / (v * (n + 2)) : ℝ) : ℂ) • tIntegral (sec A) h (cyMeasure p d F))) := by
    refine tendsto_pi_nhds.2 fun a => tendsto_pi_nhds.2 fun c => ?_
    have h1 := hω a c
    have h2 : Tendsto (fun b => ((A.sections.size : ℕ) : ℂ) / (vol b : ℂ)) atTop (𝓝 ((A.sections.size : ℂ) / (v : ℂ))) :=
      tendsto_const_nhds.div ((Complex.continuous_ofReal.tendsto _).comp hvol) (by exact_mod_cast hv.ne')
    have h3 := h2.mul h1
    have e1 : (((V / (v * (n + 2)) : ℝ) : ℂ) • tIntegral (sec A) h (cyMeasure p d F)) a c =
        (A.sections.size : ℂ) / (v : ℂ) * ((∫ Z, tFun (sec A) h a c Z ∂cyMeasure p d F) / (n + 2)) := by
      rw [Matrix.smul_apply, tIntegral_apply, smul_eq_mul, ← hV]
      have hVc : (V : ℂ) ≠ 0 := by exact_mod_cast hV0.ne'
      have hvc : (v : ℂ) ≠ 0 := by exact_mod_cast hv.ne'
      have hnc : (n + 2 : ℂ) ≠ 0 := by exact_mod_cast hn2.ne'
      push_cast
      field_simp
    rw [e1]
    refine h3.congr fun b => ?_
    unfold tOperator
    rw [Matrix.of_apply, z1]
    congr 2
    have e2 : ∀ Z, eval Z (sec A a) * conj (eval Z (sec A c)) * w Z /
        ∑ c, ∑ d, eval Z (sec A c) * h c d * conj (eval Z (sec A d)) =
        (((tFun (sec A) h a c Z).re * w Z : ℝ) : ℂ) + (((tFun (sec A) h a c Z).im * w Z : ℝ) : ℂ) * Complex.I := by
      intro Z
      have e3 : (tFun (sec A) h a c Z) * w Z = (((tFun (sec A) h a c Z).re * w Z : ℝ) : ℂ) +
          (((tFun (sec A) h a c Z).im * w Z : ℝ) : ℂ) * Complex.I := by
        conv_lhs => rw [← Complex.re_add_im (tFun (sec A) h a c Z)]
        push_cast
        ring
      rw [← e3]
      unfold tFun psiAt
      ring
    have e4 : ∀ (l : List (Fin (n + 2) → ℂ)) (f g : (Fin (n + 2) → ℂ) → ℝ),
        (l.map fun Z => ((f Z : ℂ) + (g Z : ℂ) * Complex.I)).sum = ((l.map f).sum : ℂ) + ((l.map g).sum : ℂ) * Complex.I := by
      intro l f g
      induction l with
      | nil => simp
      | cons x l ih =>
        simp only [List.map_cons, List.sum_cons, ih]
        push_cast
        ring
    rw [List.map_congr_left fun Z _ => e2 Z,
      e4 _ (fun Z => (tFun (sec A) h a c Z).re * w Z) fun Z => (tFun (sec A) h a c Z).im * w Z,
      z2 b _ fun t ht Z => by rw [gi a c t ht, hwi t ht], z2 b _ fun t ht Z => by rw [gi a c t ht, hwi t ht]]
    simp only [Complex.ofReal_sum, Finset.sum_add_distrib, Finset.sum_mul]
  set κ : ℂ := ((V / (v * (n + 2)) : ℝ) : ℂ) with hκ
  have hκ0 : κ ≠ 0 := by
    rw [hκ]
    exact_mod_cast (div_pos hV0 (mul_pos hv hn2)).ne'
  have hdet : (κ • tIntegral (sec A) h (cyMeasure p d F)).det ≠ 0 := by
    rw [Matrix.det_smul]
    exact mul_ne_zero (pow_ne_zero _ hκ0) hpd.det_pos.ne'
  have hinvT : Tendsto (fun b => (tOperator (sec A) h (vol b) w (Zs b))⁻¹) atTop
      (𝓝 (κ • tIntegral (sec A) h (cyMeasure p d F))⁻¹) := by
    simp only [Matrix.inv_def, Ring.inverse_eq_inv']
    have d1 := ((Continuous.matrix_det continuous_id).tendsto (κ • tIntegral (sec A) h (cyMeasure p d F))).comp hT
    have d2 := ((Continuous.matrix_adjugate continuous_id).tendsto (κ • tIntegral (sec A) h (cyMeasure p d F))).comp hT
    exact (d1.inv₀ hdet).smul d2
  have htr := ((Continuous.matrix_transpose continuous_id).tendsto _).comp hinvT
  have e5 : ((v * (n + 2) / V : ℝ) : ℂ) • (tIntegral (sec A) h (cyMeasure p d F))⁻¹.transpose =
      (κ • tIntegral (sec A) h (cyMeasure p d F))⁻¹.transpose := by
    letI := invertibleOfNonzero hκ0
    rw [Matrix.inv_smul _ κ (isUnit_iff_ne_zero.2 hpd.det_pos.ne'), Matrix.transpose_smul, invOf_eq_inv, hκ,
      ← Complex.ofReal_inv, inv_div]
  rw [e5]
  refine htr.congr fun b => ?_
  rw [Function.comp_apply, z3]
  rfl

/-- **C134.** Donaldson's step with `b` independent batches whose size is a multiple of `n + 2` and with a volume that
converges to `v`: as the number of batches grows, the returned matrix converges almost surely to the transposed inverse of
Donaldson's T operator for the measure `|Ω|²`, times `v (n + 2) / ∫ |Ω|²`. -/
theorem C134_step {Ω : Type*} [MeasurableSpace Ω] {P : Measure Ω} (bs : ℕ) (hbs : bs ≠ 0) (hdvd : (n + 2) ∣ bs)
    (X : ℕ → Ω → Fin 2 → Fin (sampleCount bs (n + 2)) → Fin (2 * (n + 2)) → ℝ)
    (hX : ∀ i, HasLaw (X i) (normalsLaw (n + 2) (sampleCount bs (n + 2))) P) (hind : iIndepFun X P) :
    let step := fun ω (vol : ℝ) (b : ℕ) => A.donaldsonStep .complex h o roots ps vol bs
      (List.ofFn fun i : Fin b => asLists (lineDraws (X i ω)))
    ∀ᵐ ω ∂P, (∀ vol b, ∃ h', step ω vol b = .ok h') ∧
      ∀ (vol : ℕ → ℝ) (v : ℝ), 0 < v → Tendsto vol atTop (𝓝 v) →
        Tendsto (fun b => matrixOrZero (step ω (vol b) b)) atTop
          (𝓝 (((v * (n + 2) / (cyMeasure p d F univ).toReal : ℝ) : ℂ) •
            (tIntegral (sec A) h (cyMeasure p d F))⁻¹.transpose)) := by
  have hom := hF.homogeneous
  have he0 : n + 2 ≠ 0 := by omega
  have hirr := smooth_irreducible (by omega) hom he0 hsm
  have hd := smooth_pderiv_ne_zero hom (by omega) hsm (p.succAbove d)
  refine step_limit ho hr hsm hn p d hS hF hB h hh bs hdvd (fun b i => X i) (fun b i => hX i) fun g hg hinv _ hint => ?_
  filter_upwards [strong_law_lines p d hirr hom hd bs hbs hdvd X hX hind hg hinv hint] with ω hω
  simpa only [Finset.sum_range] using hω

/-- **C134.** The volume from `compute_vol`, with as many batches: the factor is one, so that `donaldson_step` converges
almost surely to the transposed inverse of Donaldson's T operator. -/
theorem C134_pipeline {Ω : Type*} [MeasurableSpace Ω] {P : Measure Ω} (bs : ℕ) (hbs : bs ≠ 0) (hdvd : (n + 2) ∣ bs)
    (X : ℕ → Ω → Fin 2 → Fin (sampleCount bs (n + 2)) → Fin (2 * (n + 2)) → ℝ)
    (hX : ∀ i, HasLaw (X i) (normalsLaw (n + 2) (sampleCount bs (n + 2))) P) (hind : iIndepFun X P)
    {Key : Type*} (split : Key → Key × Key) (key : Key) (bs' : ℕ) (hbs' : bs' ≠ 0) (hdvd' : (n + 2) ∣ bs')
    (Y : Key → Ω → Fin 2 → Fin (sampleCount bs' (n + 2)) → Fin (2 * (n + 2)) → ℝ)
    (hY : ∀ i, HasLaw (Y (batchKey split key i)) (normalsLaw (n + 2) (sampleCount bs' (n + 2))) P)
    (hindY : iIndepFun (fun i => Y (batchKey split key i)) P) :
    ∀ᵐ ω ∂P, Tendsto (fun b => matrixOrZero (A.donaldsonStep .complex h o roots ps
        (volMean (computeVol n A.variety o roots ps split (fun k => asLists (lineDraws (Y k ω))) key b bs')) bs
        (List.ofFn fun i : Fin b => asLists (lineDraws (X i ω))))) atTop
      (𝓝 (tIntegral (sec A) h (cyMeasure p d F))⁻¹.transpose) := by
  obtain ⟨h1, h2, -⟩ := C130_measure hsm hn p d hS hF
  have hV0 := ENNReal.toReal_pos h2 h1
  filter_upwards [C134_step ho hr hsm hn p d hS hF hB h hh bs hbs hdvd X hX hind,
    C132_volume ho hr hsm hn p d hS hF split key bs' hbs' hdvd' Y hY hindY] with ω h3 h4
  have h5 := h3.2 _ _ (by positivity) h4.1
  rw [show (cyMeasure p d F univ).toReal / (n + 2) * (n + 2) / (cyMeasure p d F univ).toReal = 1 by field_simp,
    Complex.ofReal_one, one_smul] at h5
  exact h5

omit ho hr hsm hn hS hF hB hh in
/-- The hypotheses can be met: the Dwork quintic with `psi = 2`, the reduced basis of any degree and batches of 2000
points. -/
example (k : ℕ) : ∃ (rows : List (Fin 5 → ℕ)) (F : MvPolynomial (Fin 5) ℂ)
    (P : Measure (ℕ → Fin 2 → Fin (sampleCount 2000 5) → Fin (2 * 5) → ℝ)) (_ : IsProbabilityMeasure P),
    ∀ᵐ ω ∂P, Tendsto (fun b => matrixOrZero
      ((⟨.dwork 5 (.flag true), ⟨k, rows⟩⟩ : AlgebraicMetric 4).donaldsonStep .complex 1 someOrder someRoots [2] 7 2000
        (List.ofFn fun i : Fin b => asLists (lineDraws (ω i))))) atTop
      (𝓝 (((7 * 5 / (cyMeasure (n := 3) 0 0 F univ).toReal : ℝ) : ℂ) •
        (tIntegral (sec (⟨.dwork 5 (.flag true), ⟨k, rows⟩⟩ : AlgebraicMetric 4)) 1 (cyMeasure (n := 3) 0 0 F))⁻¹.transpose)) := by
  obtain ⟨F, hF, hsm⟩ := C114_quintic 2 []
  have hsm' := hsm.2 (by norm_num)
  have hvars : F.vars = Finset.univ := by
    refine Finset.eq_univ_iff_forall.2 fun i => ?_
    by_contra hi
    exact smooth_pderiv_ne_zero hF.homogeneous (by norm_num) hsm' i (pderiv_eq_zero_of_notMem_vars hi)
  obtain ⟨rows, h1, h2⟩ := C97_basis_partial F 5 k hF.homogeneous hvars
  have hX : ∀ i, HasLaw (fun ω : ℕ → Fin 2 → Fin (sampleCount 2000 5) → Fin (2 * 5) → ℝ => ω i)
      (normalsLaw 5 (sampleCount 2000 5)) (Measure.infinitePi fun _ => normalsLaw 5 (sampleCount 2000 5)) := fun i =>
    (measurePreserving_eval_infinitePi (fun _ : ℕ => normalsLaw 5 (sampleCount 2000 5)) _).hasLaw
  have hind : iIndepFun (fun i => fun ω : ℕ → Fin 2 → Fin (sampleCount 2000 5) → Fin (2 * 5) → ℝ => ω i)
      (Measure.infinitePi fun _ => normalsLaw 5 (sampleCount 2000 5)) :=
    iIndepFun_infinitePi (X := fun _ x => x) fun _ => measurable_id
  refine ⟨rows, F, Measure.infinitePi fun _ => normalsLaw 5 (sampleCount 2000 5), inferInstance, ?_⟩
  filter_upwards [C134_step (A := ⟨.dwork 5 (.flag true), ⟨k, rows⟩⟩) someOrder_valid someRoots_complete hsm' (by norm_num)
    0 0 (.dwork 4 (.flag true) (by simp [DworkFactor.value]) 2) hF h2 1 Matrix.PosDef.one 2000 (by norm_num) (by norm_num)
    (fun i ω => ω i) hX hind] with ω hω
  have := hω.2 (fun _ => 7) 7 (by norm_num) tendsto_const_nhds
  norm_num at this ⊢
  exact this

end Cyjax
