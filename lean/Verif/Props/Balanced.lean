import Verif.Lemmas.BalancedSections
import Verif.Props.DonaldsonLimit

/-! # C139: Donaldson's iteration converges to the balanced metric -/

namespace Cyjax

open MeasureTheory ProbabilityTheory MvPolynomial Cyjax.Spec Cyjax.Polynomial Cyjax.Variety Cyjax.Donaldson Set Filter
  Topology
open scoped ENNReal ComplexOrder ComplexConjugate

variable {n : ℕ} {F : MvPolynomial (Fin (n + 2)) ℂ} {A : AlgebraicMetric (n + 1)} {ps : List ℂ}
  (hsm : SmoothHypersurface F) (hn : n ≠ 0) (p : Fin (n + 2)) (d : Fin (n + 1)) (hS : Samplable A.variety (n + 1) (n + 2) ps)
  (hF : Hypersurface A.variety (.vec ps) (n + 1) (n + 2) F) (hB : IsBasisModulo F A.sections.degree A.sections.rows)

include hB in
theorem sec_homogeneous (a : Fin A.sections.size) : (sec A a).IsHomogeneous A.sections.degree := by
  rw [← hB.1 _ (List.get_mem A.sections.rows a)]
  exact mono_homogeneous _

theorem integral_invariant {m : ℕ} {μ μ' : Measure (Fin m → ℂ)} (hinv : ∀ φ : (Fin m → ℂ) → ℝ≥0∞, Measurable φ →
    (∀ c : ℂ, c ≠ 0 → ∀ Z, φ (c • Z) = φ Z) → ∫⁻ Z, φ Z ∂μ = ∫⁻ Z, φ Z ∂μ') {f : (Fin m → ℂ) → ℂ} (hf : Measurable f)
    (hfi : ∀ c : ℂ, c ≠ 0 → ∀ Z, f (c • Z) = f Z) (i1 : Integrable f μ) (i2 : Integrable f μ') :
    ∫ Z, f Z ∂μ = ∫ Z, f Z ∂μ' := by
  have hreal : ∀ g : (Fin m → ℂ) → ℝ, Measurable g → (∀ c : ℂ, c ≠ 0 → ∀ Z, g (c • Z) = g Z) → Integrable g μ →
      Integrable g μ' → ∫ Z, g Z ∂μ = ∫ Z, g Z ∂μ' := by
    intro g hg hgi i1 i2
    rw [integral_eq_lintegral_pos_part_sub_lintegral_neg_part i1, integral_eq_lintegral_pos_part_sub_lintegral_neg_part i2,
      hinv (fun Z => ENNReal.ofReal (g Z)) hg.ennreal_ofReal (fun c hc Z => by rw [hgi c hc]),
      hinv (fun Z => ENNReal.ofReal (-g Z)) hg.neg.ennreal_ofReal (fun c hc Z => by rw [hgi c hc])]
  have e1 := hreal (fun Z => (f Z).re) (Complex.measurable_re.comp hf) (fun c hc Z => by rw [hfi c hc]) i1.re i2.re
  have e2 := hreal (fun Z => (f Z).im) (Complex.measurable_im.comp hf) (fun c hc Z => by rw [hfi c hc]) i1.im i2.im
  have h1 : ((∫ Z, (f Z).re ∂μ : ℝ) : ℂ) + ((∫ Z, (f Z).im ∂μ : ℝ) : ℂ) * Complex.I = ∫ Z, f Z ∂μ := integral_re_add_im i1
  have h2 : ((∫ Z, (f Z).re ∂μ' : ℝ) : ℂ) + ((∫ Z, (f Z).im ∂μ' : ℝ) : ℂ) * Complex.I = ∫ Z, f Z ∂μ' :=
    integral_re_add_im i2
  rw [← h1, ← h2, e1, e2]

include hsm hn hS hF hB

theorem sections_indep_ae (c : Fin A.sections.size → ℂ) (hc : c ≠ 0) :
    ∀ᵐ Z ∂cyMeasure p d F, ∑ a, c a * eval Z (sec A a) ≠ 0 := by
  have hom := hF.homogeneous
  have hirr := smooth_irreducible (by omega) hom (by omega) hsm
  have hd := smooth_pderiv_ne_zero hom (by omega) hsm (p.succAbove d)
  have hac : cyMeasure p d F ≪ fsMeasure p d F := by
    rw [cyMeasure_withDensity p d hom]
    exact withDensity_absolutelyContinuous _ _
  have hf : (∑ a, C (c a) * sec A a).IsHomogeneous A.sections.degree :=
    IsHomogeneous.sum _ _ _ fun a _ => by
      have := (isHomogeneous_C (Fin (n + 2)) (c a)).mul (sec_homogeneous hB a)
      rwa [zero_add] at this
  have hnd : ¬ F ∣ ∑ a, C (c a) * sec A a := fun hdvd => by
    obtain ⟨c0, -, huniq⟩ := hB.2 0 (isHomogeneous_zero _ _ _)
    have h1 := huniq c (show F ∣ 0 - ∑ a, C (c a) * sec A a by rw [zero_sub, dvd_neg]; exact hdvd)
    have h2 := huniq 0 (by simp)
    exact hc (h1.trans h2.symm)
  filter_upwards [hac.ae_le (ae_eval_ne p d hirr hom hd hf hnd)] with Z hZ
  simpa [map_sum] using hZ

theorem sections_size_ne : A.sections.size ≠ 0 := by
  have hom := hF.homogeneous
  intro h0
  have hac : cyMeasure (0 : Fin (n + 2)) (0 : Fin (n + 1)) F ≪ fsMeasure 0 0 F := by
    rw [cyMeasure_withDensity 0 0 hom]
    exact withDensity_absolutelyContinuous _ _
  have : NeZero (cyMeasure (0 : Fin (n + 2)) (0 : Fin (n + 1)) F) :=
    ⟨fun h => (C130_measure hsm hn 0 0 hS hF).2.1 (by rw [h]; rfl)⟩
  obtain ⟨Z, hZ⟩ := Filter.Eventually.exists (hac.ae_le (ae_fsMeasure hom 0 0))
  obtain ⟨a, -⟩ := spans_ne (hB := ⟨hB.1, fun f hf => (hB.2 f hf).exists⟩) Z hZ.1 hZ.2.1
  have := a.2
  omega

/-- **C139.** There is a balanced matrix for the sections and the measure `|Ω|²`, and the others are its positive
multiples. -/
theorem C139_balanced : ∃ h₀ : A.H, Balanced (sec A) (cyMeasure p d F) h₀ ∧
    ∀ h : A.H, Balanced (sec A) (cyMeasure p d F) h ↔ ∃ c : ℝ, 0 < c ∧ h = (c : ℂ) • h₀ := by
  obtain ⟨h1, h2, -⟩ := C130_measure hsm hn p d hS hF
  exact exists_balanced (sec A) (sections_size_ne hsm hn hS hF hB) h1 h2 (sections_indep_ae hsm hn p d hS hF hB)

/-- **C139.** From every positive definite matrix, the iteration of Donaldson's step with exact integrals stays positive
definite and converges to a balanced matrix. -/
theorem C139_iteration (h : A.H) (hh : h.PosDef) :
    (∀ k, ((exactStep (sec A) (cyMeasure p d F))^[k] h).PosDef) ∧
    ∃ h' : A.H, Balanced (sec A) (cyMeasure p d F) h' ∧
      Tendsto (fun k => (exactStep (sec A) (cyMeasure p d F))^[k] h) atTop (𝓝 h') := by
  obtain ⟨h1, h2, -⟩ := C130_measure hsm hn p d hS hF
  exact exactStep_converges (sec A) (sections_size_ne hsm hn hS hF hB) h1 h2 (sections_indep_ae hsm hn p d hS hF hB) hh

/-- The balanced matrices are the positive definite fixed points of the step. -/
theorem C139_fixed (h : A.H) (hh : h.PosDef) :
    Balanced (sec A) (cyMeasure p d F) h ↔ exactStep (sec A) (cyMeasure p d F) h = h := by
  have hpd := (C134_operator hsm hn p d hS hF hB h hh).2
  have hu := isUnit_iff_ne_zero.2 hpd.det_pos.ne'
  have hu' := isUnit_iff_ne_zero.2 hh.det_pos.ne'
  constructor
  · intro hb
    rw [exactStep, hb.2, ← Matrix.transpose_nonsing_inv, Matrix.nonsing_inv_nonsing_inv _ hu', Matrix.transpose_transpose]
  · intro he
    refine ⟨hh, ?_⟩
    conv_rhs => rw [← he]
    rw [exactStep, Matrix.transpose_nonsing_inv, Matrix.transpose_transpose, Matrix.nonsing_inv_nonsing_inv _ hu]

/-- **C139.** The T operator does not depend on the patch and the dependent coordinate that are used for the integrals. -/
theorem C139_coordinates (p' : Fin (n + 2)) (d' : Fin (n + 1)) (h : A.H) (hh : h.PosDef) :
    tIntegral (sec A) h (cyMeasure p d F) = tIntegral (sec A) h (cyMeasure p' d' F) := by
  obtain ⟨-, -, hinv⟩ := C130_measure hsm hn p d hS hF
  have huniv : cyMeasure p d F univ = cyMeasure p' d' F univ := by
    have := hinv p' d' (fun _ => 1) measurable_const fun _ _ _ => rfl
    simpa using this
  ext a b
  rw [tIntegral_apply, tIntegral_apply, huniv,
    integral_invariant (hinv p' d') (measurable_tFun (sec A) h a b) (tFun_smul (sec A) (sec_homogeneous hB) h a b)
      ((C134_operator hsm hn p d hS hF hB h hh).1 a b) ((C134_operator hsm hn p' d' hS hF hB h hh).1 a b)]

omit hsm hn hS hF hB in
/-- The hypotheses can be met: the Dwork quintic with `psi = 2` and the reduced basis of any degree. The iteration from the
identity converges to a balanced matrix. -/
example (k : ℕ) : ∃ (rows : List (Fin 5 → ℕ)) (F : MvPolynomial (Fin 5) ℂ)
    (h' : (⟨.dwork 5 (.flag true), ⟨k, rows⟩⟩ : AlgebraicMetric 4).H),
    Balanced (sec (⟨.dwork 5 (.flag true), ⟨k, rows⟩⟩ : AlgebraicMetric 4)) (cyMeasure (n := 3) 0 0 F) h' ∧
    Tendsto (fun k' => (exactStep (sec (⟨.dwork 5 (.flag true), ⟨k, rows⟩⟩ : AlgebraicMetric 4))
      (cyMeasure (n := 3) 0 0 F))^[k'] 1) atTop (𝓝 h') := by
  obtain ⟨F, hF, hsm⟩ := C114_quintic 2 []
  have hsm' := hsm.2 (by norm_num)
  have hvars : F.vars = Finset.univ := by
    refine Finset.eq_univ_iff_forall.2 fun i => ?_
    by_contra hi
    exact smooth_pderiv_ne_zero hF.homogeneous (by norm_num) hsm' i (pderiv_eq_zero_of_notMem_vars hi)
  obtain ⟨rows, h1, h2⟩ := C97_basis_partial F 5 k hF.homogeneous hvars
  obtain ⟨-, h', hb, hl⟩ := C139_iteration (A := ⟨.dwork 5 (.flag true), ⟨k, rows⟩⟩) hsm' (by norm_num) 0 0
    (.dwork 4 (.flag true) (by simp [DworkFactor.value]) 2) hF h2 1 Matrix.PosDef.one
  exact ⟨rows, F, h', hb, hl⟩

end Cyjax
