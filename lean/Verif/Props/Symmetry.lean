import Verif.Lemmas.SymmetryRicci
import Verif.Props.Smooth
import Mathlib.LinearAlgebra.Matrix.Permutation
import Mathlib.RingTheory.RootsOfUnity.Complex

/-! # C155: the balanced metric has the symmetries of the variety -/

namespace Cyjax

open MeasureTheory MvPolynomial Cyjax.Spec Cyjax.Polynomial Cyjax.Variety Cyjax.Donaldson Set Filter Topology Matrix
open scoped ENNReal ComplexOrder ComplexConjugate

variable {n : ℕ} {F : MvPolynomial (Fin (n + 2)) ℂ} {A : AlgebraicMetric (n + 1)} {ps : List ℂ}
  (hsm : SmoothHypersurface F) (hn : n ≠ 0) (p : Fin (n + 2)) (d : Fin (n + 1)) (hS : Samplable A.variety (n + 1) (n + 2) ps)
  (hF : Hypersurface A.variety (.vec ps) (n + 1) (n + 2) F) (hB : IsBasisModulo F A.sections.degree A.sections.rows)
  {U : Matrix (Fin (n + 2)) (Fin (n + 2)) ℂ} (hU : IsSymmetry F U)

section Measure

include hsm hn hF hU

/-- **C155.** The measure `|Ω|²` is invariant under the symmetries of the variety: the integrals of a function of the
points of projective space and of its composition with the symmetry agree. -/
theorem C155_measure (φ : (Fin (n + 2) → ℂ) → ℝ≥0∞) (hφ : Measurable φ) (hinv : ∀ c : ℂ, c ≠ 0 → ∀ Z, φ (c • Z) = φ Z) :
    ∫⁻ Z, φ (U *ᵥ Z) ∂cyMeasure p d F = ∫⁻ Z, φ Z ∂cyMeasure p d F := by
  have hom := hF.homogeneous
  obtain ⟨c, hc⟩ := hU.factor
  exact cyMeasure_symmetry (smooth_irreducible (by omega) hom (by omega) hsm) hom p d
    (smooth_pderiv_ne_zero hom (by omega) hsm _) hU.unitary hc hφ hinv

/-- **C155.** The volume of the induced Fubini-Study metric is invariant as well. -/
theorem C155_fubini_study (φ : (Fin (n + 2) → ℂ) → ℝ≥0∞) (hφ : Measurable φ)
    (hinv : ∀ c : ℂ, c ≠ 0 → ∀ Z, φ (c • Z) = φ Z) :
    ∫⁻ Z, φ (U *ᵥ Z) ∂fsMeasure p d F = ∫⁻ Z, φ Z ∂fsMeasure p d F := by
  have hom := hF.homogeneous
  obtain ⟨c, hc⟩ := hU.factor
  have hirr := smooth_irreducible (by omega) hom (by omega) hsm
  have h1 := symmetry_norm_factor hom (by omega) hirr.ne_zero hU.unitary hc
  exact fsMeasure_symmetry hirr hom (by omega) p d (smooth_pderiv_ne_zero hom (by omega) hsm _) hU.unitary
    (by rintro rfl; simp at h1) hc hφ hinv

end Measure

include hB in
private theorem exists_acts (U : Matrix (Fin (n + 2)) (Fin (n + 2)) ℂ) : ∃ R, ActsBy F (sec A) U R := by
  have h1 : ∀ a, ∃ r : Fin A.sections.size → ℂ, ∀ Z, eval Z F = 0 →
      eval (U *ᵥ Z) (sec A a) = ∑ b, r b * eval Z (sec A b) := by
    intro a
    have hlin : ∀ i, (∑ j, C (U i j) * X j : MvPolynomial (Fin (n + 2)) ℂ).IsHomogeneous 1 := fun i =>
      IsHomogeneous.sum _ _ _ fun j _ => (isHomogeneous_X ℂ j).C_mul _
    have hh := (sec_homogeneous hB a).aeval (fun i => (∑ j, C (U i j) * X j : MvPolynomial (Fin (n + 2)) ℂ)) hlin
    rw [one_mul] at hh
    obtain ⟨r, ⟨q, hq⟩, -⟩ := hB.2 _ hh
    refine ⟨r, fun Z hZ => ?_⟩
    have h2 := congrArg (eval Z) hq
    rw [map_mul, hZ, zero_mul, map_sub, sub_eq_zero, map_sum] at h2
    have h3 : eval Z (MvPolynomial.aeval (fun i => (∑ j, C (U i j) * X j : MvPolynomial (Fin (n + 2)) ℂ)) (sec A a)) =
        eval (U *ᵥ Z) (sec A a) := by
      have := MvPolynomial.map_aeval (fun i => (∑ j, C (U i j) * X j : MvPolynomial (Fin (n + 2)) ℂ)) (eval Z) (sec A a)
      rw [this]
      change eval₂ _ _ _ = eval₂ (RingHom.id ℂ) _ _
      congr 1
      · exact RingHom.ext fun a => by simp
      · funext i
        simp [Matrix.mulVec, dotProduct]
    rw [h3] at h2
    rw [h2]
    refine Finset.sum_congr rfl fun b _ => ?_
    rw [map_mul, eval_C]
  choose r hr using h1
  exact ⟨Matrix.of r, fun Z hZ a => hr a Z hZ⟩

include hsm hn hS hF

omit hsm hn hS in
private theorem ae_on : ∀ᵐ Z ∂cyMeasure p d F, Z ≠ 0 ∧ eval Z F = 0 := by
  have hom := hF.homogeneous
  rw [cyMeasure_withDensity p d hom]
  exact (withDensity_absolutelyContinuous _ _).ae_le ((ae_fsMeasure hom p d).mono fun Z hZ => ⟨hZ.1, hZ.2.1⟩)

private theorem exists_on : ∃ Z : Fin (n + 2) → ℂ, Z ≠ 0 ∧ eval Z F = 0 := by
  have : NeZero (cyMeasure (0 : Fin (n + 2)) (0 : Fin (n + 1)) F) :=
    ⟨fun h => (C130_measure hsm hn 0 0 hS hF).2.1 (by rw [h]; rfl)⟩
  exact Filter.Eventually.exists (ae_on 0 0 hF)

include hB

theorem sections_indep_on (c : Fin A.sections.size → ℂ) (h : ∀ Z, eval Z F = 0 → ∑ a, c a * eval Z (sec A a) = 0) : c = 0 := by
  by_contra hc
  have : NeZero (cyMeasure (0 : Fin (n + 2)) (0 : Fin (n + 1)) F) :=
    ⟨fun h => (C130_measure hsm hn 0 0 hS hF).2.1 (by rw [h]; rfl)⟩
  obtain ⟨Z, h1, h2⟩ := Filter.Eventually.exists
    ((ae_on 0 0 hF).and (sections_indep_ae hsm hn 0 0 hS hF hB c hc))
  exact h2 (h Z h1.2)

theorem acts_unique {U : Matrix (Fin (n + 2)) (Fin (n + 2)) ℂ} {R R' : A.H} (h : ActsBy F (sec A) U R)
    (h' : ActsBy F (sec A) U R') : R = R' := by
  ext a b
  have := sections_indep_on hsm hn hS hF hB (fun b => R a b - R' a b) fun Z hZ => by
    simp only [sub_mul, Finset.sum_sub_distrib]
    rw [← h Z hZ, ← h' Z hZ, sub_self]
  exact sub_eq_zero.1 (congrFun this b)

include hU

/-- **C155.** A symmetry of the variety acts on the sections by an invertible matrix. -/
theorem C155_action : ∃ R : A.H, ActsBy F (sec A) U R ∧ IsUnit R.det ∧ ∀ R' : A.H, ActsBy F (sec A) U R' → R' = R := by
  obtain ⟨R, hR⟩ := exists_acts (A := A) hB U
  obtain ⟨R', hR'⟩ := exists_acts (A := A) hB (star U)
  refine ⟨R, hR, ?_, fun R' h => acts_unique hsm hn hS hF hB h hR⟩
  obtain ⟨c, hc⟩ := hU.factor
  have hom := hF.homogeneous
  have h1 := symmetry_norm_factor hom (by omega) (smooth_irreducible (by omega) hom (by omega) hsm).ne_zero hU.unitary hc
  have h0 : c ≠ 0 := by rintro rfl; simp at h1
  have hst := symmetry_star h0 hU.unitary hc
  have hone : ActsBy F (sec A) (1 : Matrix (Fin (n + 2)) (Fin (n + 2)) ℂ) (1 : A.H) := fun Z _ a => by
    simp [Matrix.one_mulVec, Matrix.one_apply]
  have hcomp : ActsBy F (sec A) (1 : Matrix (Fin (n + 2)) (Fin (n + 2)) ℂ) (R * R') := by
    intro Z hZ a
    have hZ' : eval (star U *ᵥ Z) F = 0 := by rw [hst, hZ, mul_zero]
    have h2 := hR _ hZ' a
    rw [mulVec_star_mulVec hU.unitary] at h2
    rw [Matrix.one_mulVec, h2]
    simp only [hR' Z hZ, Matrix.mul_apply, Finset.mul_sum, Finset.sum_mul]
    rw [Finset.sum_comm]
    exact Finset.sum_congr rfl fun b _ => Finset.sum_congr rfl fun c _ => by ring
  have h3 := acts_unique hsm hn hS hF hB hcomp hone
  have h4 := congrArg Matrix.det h3
  rw [Matrix.det_mul, Matrix.det_one] at h4
  exact IsUnit.of_mul_eq_one _ h4

private theorem acts_unit {R : A.H} (hR : ActsBy F (sec A) U R) : IsUnit R.det := by
  obtain ⟨R', -, h2, h3⟩ := C155_action hsm hn hS hF hB hU
  rw [h3 R hR]
  exact h2

private theorem operator_pull {R : A.H} (hR : ActsBy F (sec A) U R) (h : A.H) (hh : h.PosDef) :
    tIntegral (sec A) h (cyMeasure p d F) =
      R * tIntegral (sec A) (R.transpose * h * R.transpose.conjTranspose) (cyMeasure p d F) * R.conjTranspose :=
  tIntegral_pull (sec_homogeneous hB) (C155_measure hsm hn p d hF hU)
    ((ae_on p d hF).mono fun _ hZ => hZ.2) hR h (C134_operator hsm hn p d hS hF hB h hh).1
    (C134_operator hsm hn p d hS hF hB _ (pull_posDef (acts_unit hsm hn hS hF hB hU hR) hh)).1

/-- **C155.** Donaldson's step with exact integrals commutes with the symmetries of the variety. -/
theorem C155_step {R : A.H} (hR : ActsBy F (sec A) U R) (h : A.H) (hh : h.PosDef) :
    exactStep (sec A) (cyMeasure p d F) (R.transpose * h * R.transpose.conjTranspose) =
      R.transpose * exactStep (sec A) (cyMeasure p d F) h * R.transpose.conjTranspose :=
  inv_transpose_pull (acts_unit hsm hn hS hF hB hU hR) (operator_pull hsm hn p d hS hF hB hU hR h hh)

/-- **C155.** If the first matrix of the iteration is invariant under a symmetry, all of its matrices are. -/
theorem C155_iteration {R : A.H} (hR : ActsBy F (sec A) U R) (h : A.H) (hh : h.PosDef)
    (hinv : R.transpose * h * R.transpose.conjTranspose = h) (k : ℕ) :
    R.transpose * (exactStep (sec A) (cyMeasure p d F))^[k] h * R.transpose.conjTranspose =
      (exactStep (sec A) (cyMeasure p d F))^[k] h := by
  induction k with
  | zero => exact hinv
  | succ k ih =>
    rw [Function.iterate_succ_apply', ← C155_step hsm hn p d hS hF hB hU hR _
      ((C139_iteration hsm hn p d hS hF hB h hh).1 k), ih]

/-- **C155.** The balanced matrix is invariant under the symmetries of the variety, and so is the sum
`Σ s_a h_ab conj(s_b)` whose logarithm is the Kähler potential. -/
theorem C155_balanced {R : A.H} (hR : ActsBy F (sec A) U R) (h : A.H) (hb : Balanced (sec A) (cyMeasure p d F) h) :
    R.transpose * h * R.transpose.conjTranspose = h ∧
    ∀ Z : Fin (n + 2) → ℂ, eval Z F = 0 →
      ∑ a, ∑ b, eval (U *ᵥ Z) (sec A a) * h a b * conj (eval (U *ᵥ Z) (sec A b)) =
        ∑ a, ∑ b, eval Z (sec A a) * h a b * conj (eval Z (sec A b)) := by
  have hRu := acts_unit hsm hn hS hF hB hU hR
  have hb' : Balanced (sec A) (cyMeasure p d F) (R.transpose * h * R.transpose.conjTranspose) := by
    rw [C139_fixed hsm hn p d hS hF hB _ (pull_posDef hRu hb.1), C155_step hsm hn p d hS hF hB hU hR h hb.1,
      (C139_fixed hsm hn p d hS hF hB h hb.1).1 hb]
  obtain ⟨h0, -, hall⟩ := C139_balanced hsm hn p d hS hF hB
  obtain ⟨c1, hc1, e1⟩ := (hall h).1 hb
  obtain ⟨c2, hc2, e2⟩ := (hall _).1 hb'
  have hpull : R.transpose * h * R.transpose.conjTranspose = ((c2 / c1 : ℝ) : ℂ) • h := by
    have hne : (c1 : ℂ) ≠ 0 := by exact_mod_cast hc1.ne'
    rw [e2, e1, smul_smul, Complex.ofReal_div, div_mul_cancel₀ _ hne]
  have hpsi : ∀ Z, eval Z F = 0 → psiAt (sec A) h (U *ᵥ Z) = ((c2 / c1 : ℝ) : ℂ) * psiAt (sec A) h Z := by
    intro Z hZ
    rw [psiAt_mulVec hR h Z hZ, hpull]
    simp only [psiAt, Matrix.smul_apply, smul_eq_mul, Finset.mul_sum]
    exact Finset.sum_congr rfl fun a _ => Finset.sum_congr rfl fun b _ => by ring
  have hone : c2 / c1 = 1 := by
    have hom := hF.homogeneous
    obtain ⟨c, hc⟩ := hU.factor
    have h1 := symmetry_norm_factor hom (by omega) (smooth_irreducible (by omega) hom (by omega) hsm).ne_zero hU.unitary hc
    have hc0 : c ≠ 0 := by rintro rfl; simp at h1
    refine factor_eq_one hU.unitary (K := {Z | eval Z F = 0}) (isClosed_singleton.preimage (MvPolynomial.continuous_eval F))
      (fun Z => ?_) (f := fun Z => (psiAt (sec A) h Z).re) (Complex.continuous_re.comp (continuous_psiAt _ _))
      (div_nonneg hc2.le hc1.le) (fun Z hZ => by rw [hpsi Z hZ, Complex.re_ofReal_mul]) ?_
    · rw [mem_ofPred_eq, mem_ofPred_eq, hc, mul_eq_zero]
      exact or_iff_right hc0
    · obtain ⟨W, hW0, hW⟩ := exists_on hsm hn hS hF
      have hs : 0 < ∑ i, ‖W i‖ ^ 2 := by
        obtain ⟨i, hi⟩ := Function.ne_iff.1 hW0
        exact Finset.sum_pos' (fun i _ => by positivity) ⟨i, Finset.mem_univ i, by have := norm_pos_iff.2 hi; positivity⟩
      set r : ℝ := (√(∑ i, ‖W i‖ ^ 2))⁻¹ with hr
      have hr0 : (r : ℂ) ≠ 0 := by exact_mod_cast inv_ne_zero (Real.sqrt_pos.2 hs).ne'
      have hV : eval ((r : ℂ) • W) F = 0 := by rw [eval_smul_point hom, hW, mul_zero]
      refine ⟨(r : ℂ) • W, hV, ?_, ?_⟩
      · simp only [Pi.smul_apply, smul_eq_mul, norm_mul, mul_pow, ← Finset.mul_sum, Complex.norm_real, Real.norm_eq_abs,
          sq_abs]
        rw [hr, inv_pow, Real.sq_sqrt hs.le, inv_mul_cancel₀ hs.ne']
      · exact (Complex.pos_iff.1 (psiAt_pos _ h hb.1 _
          (spans_ne (hB := ⟨hB.1, fun f hf => (hB.2 f hf).exists⟩) _ (smul_ne_zero hr0 hW0) hV))).1
  rw [hone, Complex.ofReal_one] at hpull hpsi
  exact ⟨by rw [hpull, one_smul], fun Z hZ => by simpa [psiAt] using hpsi Z hZ⟩

/-- **C155.** For every positive definite `h`, `eta` at the image of a point under a symmetry is `eta` at the point for the
transformed matrix. -/
theorem C155_eta (hk : A.sections.degree ≠ 0) {R : A.H} (hR : ActsBy F (sec A) U R) (h : A.H) (hh : h.PosDef)
    (Z : Fin (n + 2) → ℂ) (hZ : Z ≠ 0) (h0 : eval Z F = 0) :
    A.eta h (List.ofFn (U *ᵥ Z)) (.vec ps) none none none =
      A.eta (R.transpose * h * R.transpose.conjTranspose) (List.ofFn Z) (.vec ps) none none none := by
  have hRu := acts_unit hsm hn hS hF hB hU hR
  obtain ⟨c, hc⟩ := hU.factor
  rw [(etaAt_pos hF h (spans_of_basis hB) hh hsm hk _ (mulVec_unitary_ne hU.unitary hZ) (by rw [hc, h0, mul_zero])).2,
    (etaAt_pos hF _ (spans_of_basis hB) (pull_posDef hRu hh) hsm hk _ hZ h0).2,
    etaAt_symmetry hsm hF hU (spans_of_basis hB) hk h hh hR hRu Z hZ h0]

/-- **C155.** `eta` of the balanced metric is invariant under the symmetries of the variety. -/
theorem C155_eta_balanced (hk : A.sections.degree ≠ 0) (h : A.H) (hb : Balanced (sec A) (cyMeasure p d F) h)
    (Z : Fin (n + 2) → ℂ) (hZ : Z ≠ 0) (h0 : eval Z F = 0) :
    A.eta h (List.ofFn (U *ᵥ Z)) (.vec ps) none none none = A.eta h (List.ofFn Z) (.vec ps) none none none := by
  obtain ⟨R, hR, -, -⟩ := C155_action hsm hn hS hF hB hU
  have h1 := C155_eta hsm hn hS hF hB hU hk hR h hb.1 Z hZ h0
  rwa [(C155_balanced hsm hn p d hS hF hB hU hR h hb).1] at h1

/-- **C155.** `ricci_scalar` at the image of a point is `ricci_scalar` of the transformed matrix at the point. -/
theorem C155_ricci_scalar (hk : A.sections.degree ≠ 0) {R : A.H} (hR : ActsBy F (sec A) U R) (h : A.H) (hh : h.PosDef)
    (Z : Fin (n + 2) → ℂ) (hZ : Z ≠ 0) (h0 : eval Z F = 0) :
    A.ricciScalar h (List.ofFn (U *ᵥ Z)) (.vec ps) none none none =
      A.ricciScalar (R.transpose * h * R.transpose.conjTranspose) (List.ofFn Z) (.vec ps) none none none :=
  ricciScalar_symmetry hsm hF hU (spans_of_basis hB) hk h hh hR (acts_unit hsm hn hS hF hB hU hR) Z hZ h0

/-- **C155.** The Ricci scalar of the balanced metric is invariant under the symmetries of the variety. -/
theorem C155_ricci_balanced (hk : A.sections.degree ≠ 0) (h : A.H) (hb : Balanced (sec A) (cyMeasure p d F) h)
    (Z : Fin (n + 2) → ℂ) (hZ : Z ≠ 0) (h0 : eval Z F = 0) :
    A.ricciScalar h (List.ofFn (U *ᵥ Z)) (.vec ps) none none none =
      A.ricciScalar h (List.ofFn Z) (.vec ps) none none none := by
  obtain ⟨R, hR, -, -⟩ := C155_action hsm hn hS hF hB hU
  have h1 := C155_ricci_scalar hsm hn hS hF hB hU hk hR h hb.1 Z hZ h0
  rwa [(C155_balanced hsm hn p d hS hF hB hU hR h hb).1] at h1

/-- **C155.** The accuracy for a matrix and for the matrix transformed with a symmetry agree. -/
theorem C155_accuracy (hk : A.sections.degree ≠ 0) {R : A.H} (hR : ActsBy F (sec A) U R) (h : A.H) (hh : h.PosDef) :
    accuracy (cyMeasure p d F) (etaAt A (R.transpose * h * R.transpose.conjTranspose) ps) =
      accuracy (cyMeasure p d F) (etaAt A h ps) := by
  have hRu := acts_unit hsm hn hS hF hB hU hR
  set h' := R.transpose * h * R.transpose.conjTranspose with hh'd
  have hh' : h'.PosDef := pull_posDef hRu hh
  have hfin : IsFiniteMeasure (cyMeasure p d F) := ⟨(C130_measure hsm hn p d hS hF).1.lt_top⟩
  have hUm := (continuous_mulVec U).measurable
  have hSp := spans_of_basis hB
  have hae : ∀ᵐ Z ∂cyMeasure p d F, etaAt A h ps (U *ᵥ Z) = etaAt A h' ps Z := by
    filter_upwards [ae_on p d hF] with Z hZ
    exact etaAt_symmetry hsm hF hU hSp hk h hh hR hRu Z hZ.1 hZ.2
  have hm := measurable_etaAt (ps := ps) hF h hSp
  have key : ∀ g : ℝ → ℝ, Continuous g → ∫ Z, g (etaAt A h' ps Z) ∂cyMeasure p d F = ∫ Z, g (etaAt A h ps Z) ∂cyMeasure p d F := by
    intro g hg
    have hbd : ∀ (h : A.H), h.PosDef → Integrable (fun Z => ((g (etaAt A h ps Z) : ℝ) : ℂ)) (cyMeasure p d F) := by
      intro h hh
      obtain ⟨M, hM⟩ := etaAt_bounded (ps := ps) hF h hSp hh hsm
      obtain ⟨B, hB'⟩ := (isCompact_Icc (a := -M) (b := M)).exists_bound_of_continuousOn hg.continuousOn
      refine (integrable_const B).mono' (Complex.measurable_ofReal.comp
        (hg.measurable.comp (measurable_etaAt (ps := ps) hF h hSp))).aestronglyMeasurable ?_
      filter_upwards [ae_on p d hF] with Z hZ
      rw [Complex.norm_real]
      exact hB' _ (abs_le.1 (hM Z hZ.1 hZ.2))
    have hmg : Measurable fun Z => ((g (etaAt A h ps Z) : ℝ) : ℂ) := Complex.measurable_ofReal.comp (hg.measurable.comp hm)
    have hcongr : (fun Z => ((g (etaAt A h ps (U *ᵥ Z)) : ℝ) : ℂ)) =ᵐ[cyMeasure p d F] fun Z => ((g (etaAt A h' ps Z) : ℝ) : ℂ) := by
      filter_upwards [hae] with Z hZ
      rw [hZ]
    have h1 := integral_invariant (μ := cyMeasure p d F) (μ' := (cyMeasure p d F).map fun Z => U *ᵥ Z)
      (fun φ hφ hφi => by rw [lintegral_map hφ hUm, C155_measure hsm hn p d hF hU φ hφ hφi]) hmg
      (fun c hc Z => by rw [etaAt_smul hF h c hc]) (hbd h hh)
      ((integrable_map_measure hmg.aestronglyMeasurable hUm.aemeasurable).2 ((integrable_congr hcongr).2 (hbd h' hh')))
    rw [integral_map hUm.aemeasurable hmg.aestronglyMeasurable, integral_congr_ae hcongr] at h1
    have h2 : ∀ f : (Fin (n + 2) → ℂ) → ℝ, ∫ Z, ((f Z : ℝ) : ℂ) ∂cyMeasure p d F = ((∫ Z, f Z ∂cyMeasure p d F : ℝ) : ℂ) :=
      fun f => integral_ofReal
    rw [h2, h2] at h1
    exact_mod_cast h1.symm
  unfold accuracy
  have e1 := key id continuous_id
  simp only [id] at e1
  rw [e1, key (fun t => |1 - t * (cyMeasure p d F univ).toReal / ∫ y, etaAt A h ps y ∂cyMeasure p d F|) (by fun_prop)]

omit hsm hn hS hF hB hU in
private theorem eval_mono' (e : Fin (n + 2) → ℕ) (Z : Fin (n + 2) → ℂ) : eval Z (mono e : MvPolynomial (Fin (n + 2)) ℂ) = ∏ i, Z i ^ e i := by
  simp [mono, map_prod]

omit hU in
/-- **C155.** If the multiplication of the coordinates with phases is a symmetry, the balanced matrix couples only monomials
that are multiplied with the same phase. -/
theorem C155_phases (ζ : Fin (n + 2) → ℂ) (hU : IsSymmetry F (Matrix.diagonal ζ)) (h : A.H)
    (hb : Balanced (sec A) (cyMeasure p d F) h) (a b : Fin A.sections.size) (hab : h a b ≠ 0) :
    ∏ i, ζ i ^ A.sections.rows.get a i = ∏ i, ζ i ^ A.sections.rows.get b i := by
  have hz : ∀ i, ‖ζ i‖ = 1 := by
    intro i
    have h1 := unitary_sq hU.unitary (Pi.single i 1)
    rw [Matrix.diagonal_mulVec_single, Finset.sum_eq_single i (fun j _ hj => by simp [hj]) (by simp),
      Finset.sum_eq_single i (fun j _ hj => by simp [hj]) (by simp)] at h1
    have h2 : ‖ζ i‖ ^ 2 = 1 := by simpa using h1
    exact (pow_eq_one_iff_of_nonneg (norm_nonneg _) two_ne_zero).1 h2
  set r : Fin A.sections.size → ℂ := fun a => ∏ i, ζ i ^ A.sections.rows.get a i with hr
  have hr1 : ∀ a, ‖r a‖ = 1 := fun a => by simp [hr, norm_prod, hz]
  have hR : ActsBy F (sec A) (Matrix.diagonal ζ) (Matrix.diagonal r) := by
    intro Z _ a
    rw [eval_mono', Finset.sum_eq_single a (fun b _ hb => by rw [Matrix.diagonal_apply_ne _ (Ne.symm hb), zero_mul]) (by simp),
      Matrix.diagonal_apply_eq, eval_mono', hr, ← Finset.prod_mul_distrib]
    refine Finset.prod_congr rfl fun i _ => ?_
    rw [Matrix.mulVec_diagonal, mul_pow]
  have h1 := congrFun (congrFun (C155_balanced hsm hn p d hS hF hB hU hR h hb).1 a) b
  rw [pull_apply, Finset.sum_eq_single a (fun c _ hc => Finset.sum_eq_zero fun e _ => by
      rw [Matrix.diagonal_apply_ne _ hc, zero_mul, zero_mul]) (by simp),
    Finset.sum_eq_single b (fun c _ hc => by rw [Matrix.diagonal_apply_ne _ hc, map_zero, mul_zero]) (by simp),
    Matrix.diagonal_apply_eq, Matrix.diagonal_apply_eq] at h1
  have h2 : r a * conj (r b) = 1 := by
    refine mul_right_cancel₀ hab ?_
    rw [one_mul]
    linear_combination h1
  have h3 : conj (r b) * r b = 1 := by
    rw [Complex.conj_mul', hr1]
    simp
  calc r a = r a * (conj (r b) * r b) := by rw [h3, mul_one]
    _ = r b := by rw [← mul_assoc, h2, one_mul]

omit hU in
/-- **C155.** If a permutation of the coordinates is a symmetry and permutes the monomials, the entries of the balanced
matrix for permuted monomials agree. -/
theorem C155_permutation (σ : Equiv.Perm (Fin (n + 2))) (hσ : ∀ Z : Fin (n + 2) → ℂ, eval (Z ∘ σ) F = eval Z F)
    (π : Equiv.Perm (Fin A.sections.size)) (hπ : ∀ a i, A.sections.rows.get (π a) (σ i) = A.sections.rows.get a i) (h : A.H)
    (hb : Balanced (sec A) (cyMeasure p d F) h) (a b : Fin A.sections.size) : h (π a) (π b) = h a b := by
  have hU : IsSymmetry F (σ.permMatrix ℂ) := by
    refine ⟨?_, 1, fun Z => by rw [Matrix.permMatrix_mulVec, hσ, one_mul]⟩
    rw [Matrix.mem_unitaryGroup_iff, Matrix.star_eq_conjTranspose, Matrix.conjTranspose_permMatrix, ← Matrix.permMatrix_mul,
      inv_mul_cancel, Matrix.permMatrix_one]
  have hR : ActsBy F (sec A) (σ.permMatrix ℂ) (π.permMatrix ℂ) := by
    intro Z _ a
    have h1 : ∑ b, π.permMatrix ℂ a b * eval Z (sec A b) = (π.permMatrix ℂ *ᵥ fun b => eval Z (sec A b)) a := rfl
    have h2 : eval Z (sec A (π a)) = ∏ i, Z (σ i) ^ A.sections.rows.get (π a) (σ i) := by
      rw [eval_mono', Equiv.prod_comp σ fun i => Z i ^ A.sections.rows.get (π a) i]
    rw [h1, Matrix.permMatrix_mulVec, Matrix.permMatrix_mulVec, Function.comp_apply, h2, eval_mono']
    exact Finset.prod_congr rfl fun i _ => by rw [hπ, Function.comp_apply]
  have h1 := congrFun (congrFun (C155_balanced hsm hn p d hS hF hB hU hR h hb).1 (π a)) (π b)
  rw [← h1, pull_apply]
  simp

omit hU in
/-- The monomials of a basis are different. -/
theorem basis_rows_injective (a b : Fin A.sections.size) (hab : A.sections.rows.get a = A.sections.rows.get b) : a = b := by
  by_contra hne
  have h1 := sections_indep_on hsm hn hS hF hB (Pi.single a 1 - Pi.single b 1) fun Z _ => by
    simp only [Pi.sub_apply, sub_mul, Finset.sum_sub_distrib]
    rw [Finset.sum_eq_single a (fun c _ hc => by simp [hc]) (by simp), Finset.sum_eq_single b (fun c _ hc => by simp [hc]) (by simp)]
    simp [sec, hab]
  have := congrFun h1 a
  simp [hne] at this

omit hsm hn hS hF hB hU in
private theorem dwork_phases (c : ℂ) (ζ : Fin (n + 2) → ℂ) (h1 : ∀ i, ζ i ^ (n + 2) = 1) (h2 : c = 0 ∨ ∏ i, ζ i = 1) :
    IsSymmetry (∑ j, X j ^ (n + 2) + C c * ∏ j, X j : MvPolynomial (Fin (n + 2)) ℂ) (Matrix.diagonal ζ) := by
  have hz : ∀ i, ‖ζ i‖ = 1 := fun i => Complex.norm_eq_one_of_pow_eq_one (h1 i) (by omega)
  refine ⟨?_, 1, fun Z => ?_⟩
  · rw [Matrix.mem_unitaryGroup_iff, Matrix.star_eq_conjTranspose, Matrix.diagonal_conjTranspose, Matrix.diagonal_mul_diagonal,
      ← Matrix.diagonal_one]
    congr 1
    funext i
    rw [Pi.star_apply, Complex.star_def, Complex.mul_conj', hz]
    simp
  · rw [eval_dwork, eval_dwork, one_mul]
    simp only [Matrix.mulVec_diagonal, mul_pow, h1, one_mul, Finset.prod_mul_distrib]
    rcases h2 with h2 | h2
    · rw [h2, zero_mul, zero_mul]
    · rw [h2, one_mul]

omit hsm hn hS hF hB hU in
private theorem root_congr {N i j : ℕ} (hN : N ≠ 0) {ω : ℂ} (hω : IsPrimitiveRoot ω N) (h : ω ^ i = ω ^ j) : i ≡ j [MOD N] := by
  have h0 := hω.ne_zero hN
  have h1 : ω ^ ((j : ℤ) - i) = 1 := by
    rw [zpow_sub₀ h0, zpow_natCast, zpow_natCast, h, div_self (pow_ne_zero _ h0)]
  have h2 := (hω.zpow_eq_one_iff_dvd _).1 h1
  exact (Nat.modEq_iff_dvd).2 h2

omit hsm hn hS hF hU in
/-- If the degree of the sections is less than the degree of the variety, all monomials are in the basis. -/
theorem basis_all (hF0 : F ≠ 0) (hom : F.IsHomogeneous (n + 2)) (hk : A.sections.degree < n + 2) (e : Fin (n + 2) → ℕ)
    (he : ∑ i, e i = A.sections.degree) : ∃ a : Fin A.sections.size, A.sections.rows.get a = e := by
  have hme : (mono e : MvPolynomial (Fin (n + 2)) ℂ).IsHomogeneous A.sections.degree := by
    rw [← he]
    exact mono_homogeneous e
  obtain ⟨c, ⟨q, hq⟩, -⟩ := hB.2 _ hme
  have hsum : (∑ a, C (c a) * sec A a).IsHomogeneous A.sections.degree :=
    IsHomogeneous.sum _ _ _ fun a _ => (sec_homogeneous hB a).C_mul _
  have h0 : mono e - ∑ a, C (c a) * mono (A.sections.rows.get a) = 0 := by
    by_contra hne
    have h1 := (hme.sub hsum).totalDegree hne
    have h2 : (mono e - ∑ a, C (c a) * sec A a).totalDegree = F.totalDegree + q.totalDegree := by
      have hq0 : q ≠ 0 := by
        rintro rfl
        rw [mul_zero] at hq
        exact hne hq
      rw [← totalDegree_mul_of_isDomain hF0 hq0, ← hq]
    rw [h1, hom.totalDegree hF0] at h2
    omega
  by_contra hcon
  push Not at hcon
  have h3 := congrArg (coeff (Finsupp.equivFunOnFinite.symm e)) h0
  have hm : ∀ e' : Fin (n + 2) → ℕ, (mono e' : MvPolynomial (Fin (n + 2)) ℂ) = monomial (Finsupp.equivFunOnFinite.symm e') 1 := by
    intro e'
    rw [mono, monomial_eq, C_1, one_mul, Finsupp.prod_fintype _ _ (by simp)]
    rfl
  rw [coeff_sub, coeff_sum, hm, coeff_monomial, if_pos rfl, coeff_zero, Finset.sum_eq_zero fun a _ => ?_, sub_zero] at h3
  · exact one_ne_zero h3
  · rw [coeff_C_mul, hm, coeff_monomial, if_neg, mul_zero]
    intro hcon2
    exact hcon a (Finsupp.equivFunOnFinite.symm.injective hcon2)

omit hsm hn hS hF hB hU in
private theorem two_phases {i j : Fin (n + 2)} (hij : i ≠ j) (ω : ℂ) (e : Fin (n + 2) → ℕ) :
    ∏ l, (if l = i then ω else if l = j then ω⁻¹ else 1) ^ e l = ω ^ e i * ω⁻¹ ^ e j := by
  have h1 : ∀ l, (if l = i then ω else if l = j then ω⁻¹ else 1) ^ e l =
      (if l = i then ω ^ e l else 1) * (if l = j then ω⁻¹ ^ e l else 1) := by
    intro l
    by_cases hi : l = i
    · rw [if_pos hi, if_pos hi, if_neg (hi ▸ hij), mul_one]
    · by_cases hj : l = j <;> simp [hi, hj, Ne.symm hij]
  simp only [h1, Finset.prod_mul_distrib, Finset.prod_ite_eq', Finset.mem_univ, if_true]

omit hsm hF hB hU in
/-- **C155.** The Dwork family `Σ Z_j^N + c ∏ Z_j`, with `N` coordinates: the balanced matrix couples only monomials whose
exponents differ, modulo `N`, by the same number for all coordinates. For sections of degree less than `N`, permutations of
the coordinates do not change its entries. -/
theorem C155_dwork (c : ℂ) (hsm : SmoothHypersurface (∑ j, X j ^ (n + 2) + C c * ∏ j, X j : MvPolynomial (Fin (n + 2)) ℂ))
    (hF : Hypersurface A.variety (.vec ps) (n + 1) (n + 2) (∑ j, X j ^ (n + 2) + C c * ∏ j, X j))
    (hB : IsBasisModulo (∑ j, X j ^ (n + 2) + C c * ∏ j, X j : MvPolynomial (Fin (n + 2)) ℂ) A.sections.degree A.sections.rows)
    (h : A.H) (hb : Balanced (sec A) (cyMeasure p d (∑ j, X j ^ (n + 2) + C c * ∏ j, X j)) h) (a b : Fin A.sections.size) :
    (h a b ≠ 0 → ∀ i j, A.sections.rows.get a i + A.sections.rows.get b j ≡
      A.sections.rows.get b i + A.sections.rows.get a j [MOD n + 2]) ∧
    (A.sections.degree < n + 2 → ∀ (σ : Equiv.Perm (Fin (n + 2))) (a' b' : Fin A.sections.size),
      A.sections.rows.get a' = A.sections.rows.get a ∘ σ → A.sections.rows.get b' = A.sections.rows.get b ∘ σ →
      h a' b' = h a b) := by
  have hom := hF.homogeneous
  have hirr := smooth_irreducible (by omega) hom (by omega) hsm
  refine ⟨fun hab i j => ?_, fun hk σ a' b' ha' hb' => ?_⟩
  · by_cases hij : i = j
    · subst hij
      exact congrArg (· % (n + 2)) (Nat.add_comm _ _)
    have hω := Complex.isPrimitiveRoot_exp (n + 2) (by omega)
    set ω := Complex.exp (2 * Real.pi * Complex.I / ((n + 2 : ℕ) : ℂ)) with hωd
    have hω0 : ω ≠ 0 := hω.ne_zero (by omega)
    have h1 := C155_phases hsm hn p d hS hF hB (fun l => if l = i then ω else if l = j then ω⁻¹ else 1)
      (dwork_phases c _ (fun l => by
        by_cases hi : l = i
        · rw [if_pos hi, hω.pow_eq_one]
        · by_cases hj : l = j
          · rw [if_neg hi, if_pos hj, inv_pow, hω.pow_eq_one, inv_one]
          · rw [if_neg hi, if_neg hj, one_pow])
        (.inr (by simpa [hω0] using two_phases hij ω fun _ => 1))) h hb a b hab
    rw [two_phases hij, two_phases hij] at h1
    refine root_congr (by omega) hω ?_
    rw [inv_pow, inv_pow, ← div_eq_mul_inv, ← div_eq_mul_inv, div_eq_div_iff (pow_ne_zero _ hω0) (pow_ne_zero _ hω0)] at h1
    rw [pow_add, pow_add, h1]
  · have hex : ∀ x : Fin A.sections.size, ∃ y : Fin A.sections.size, A.sections.rows.get y = A.sections.rows.get x ∘ σ := fun x =>
      basis_all hB hirr.ne_zero hom hk _ (by
        rw [← hB.1 _ (List.get_mem A.sections.rows x)]
        exact Equiv.sum_comp σ fun i => A.sections.rows.get x i)
    choose g hg using hex
    have hinj : Function.Injective g := by
      intro x y hxy
      refine basis_rows_injective hsm hn hS hF hB x y ?_
      have : A.sections.rows.get x ∘ σ = A.sections.rows.get y ∘ σ := by rw [← hg, ← hg, hxy]
      funext i
      have := congrFun this (σ.symm i)
      simpa using this
    have h1 := C155_permutation hsm hn p d hS hF hB σ⁻¹
      (fun Z => by
        rw [eval_dwork, eval_dwork]
        simp only [Function.comp]
        rw [Equiv.sum_comp σ⁻¹ fun i => Z i ^ (n + 1 + 1), Equiv.prod_comp σ⁻¹ fun i => Z i])
      (Equiv.ofBijective g (Finite.injective_iff_bijective.1 hinj))
      (fun x i => by
        rw [Equiv.ofBijective_apply, hg, Function.comp_apply]
        exact congrArg _ (σ.apply_symm_apply i)) h hb a b
    rw [Equiv.ofBijective_apply, Equiv.ofBijective_apply] at h1
    rwa [basis_rows_injective hsm hn hS hF hB a' (g a) (by rw [ha', hg]),
      basis_rows_injective hsm hn hS hF hB b' (g b) (by rw [hb', hg])]

omit hsm hF hB hU in
/-- **C155.** The Fermat varieties, with sections of degree less than the number of coordinates: the balanced matrix is
diagonal. -/
theorem C155_fermat (hF : Hypersurface A.variety (.vec ps) (n + 1) (n + 2) (∑ j, X j ^ (n + 2)))
    (hB : IsBasisModulo (∑ j, X j ^ (n + 2) : MvPolynomial (Fin (n + 2)) ℂ) A.sections.degree A.sections.rows)
    (hk : A.sections.degree < n + 2) (h : A.H) (hb : Balanced (sec A) (cyMeasure p d (∑ j, X j ^ (n + 2))) h)
    (a b : Fin A.sections.size) (hab : a ≠ b) : h a b = 0 := by
  have e0 : (∑ j, X j ^ (n + 2) + C 0 * ∏ j, X j : MvPolynomial (Fin (n + 2)) ℂ) = ∑ j, X j ^ (n + 2) := by simp
  have hsm : SmoothHypersurface (∑ j, X j ^ (n + 2) : MvPolynomial (Fin (n + 2)) ℂ) := by
    rw [← e0]
    refine (smooth_dwork (m := n + 1) 0).2 ?_
    rw [neg_zero, zero_pow (by omega)]
    exact (pow_ne_zero _ (Nat.cast_ne_zero.2 (by omega))).symm
  by_contra h0
  refine hab (basis_rows_injective hsm hn hS hF hB a b (funext fun i => ?_))
  have hω := Complex.isPrimitiveRoot_exp (n + 2) (by omega)
  set ω := Complex.exp (2 * Real.pi * Complex.I / ((n + 2 : ℕ) : ℂ)) with hωd
  have h1 := C155_phases hsm hn p d hS hF hB (fun l => if l = i then ω else 1)
    (e0 ▸ dwork_phases 0 _ (fun l => by
      by_cases hi : l = i
      · rw [if_pos hi, hω.pow_eq_one]
      · rw [if_neg hi, one_pow]) (.inl rfl)) h hb a b h0
  simp only [ite_pow, one_pow, Finset.prod_ite_eq', Finset.mem_univ, if_true] at h1
  have hle : ∀ x : Fin A.sections.size, A.sections.rows.get x i < n + 2 := fun x => by
    refine lt_of_le_of_lt ?_ hk
    rw [← hB.1 _ (List.get_mem A.sections.rows x)]
    exact Finset.single_le_sum (f := fun i => A.sections.rows.get x i) (fun _ _ => Nat.zero_le _) (Finset.mem_univ i)
  exact (root_congr (by omega) hω h1).eq_of_lt_of_lt (hle a) (hle b)

omit hsm hn hS hF hB hU in
private theorem reduced_basis {V : HomKind} {F : MvPolynomial (Fin (n + 2)) ℂ} (hsm : SmoothHypersurface F) (hn : n ≠ 0)
    (hS : Samplable V (n + 1) (n + 2) ps) (hF : Hypersurface V (.vec ps) (n + 1) (n + 2) F) (k : ℕ) :
    ∃ rows, IsBasisModulo F k rows ∧ ∃ h : (⟨V, ⟨k, rows⟩⟩ : AlgebraicMetric (n + 1)).H,
      Balanced (sec ⟨V, ⟨k, rows⟩⟩) (cyMeasure 0 0 F) h := by
  have hvars : F.vars = Finset.univ := by
    refine Finset.eq_univ_iff_forall.2 fun i => ?_
    by_contra hi
    exact smooth_pderiv_ne_zero hF.homogeneous (by omega) hsm i (pderiv_eq_zero_of_notMem_vars hi)
  obtain ⟨rows, h1, h2⟩ := C97_basis_partial F (n + 2) k hF.homogeneous hvars
  obtain ⟨h, hb, -⟩ := C139_balanced (A := ⟨V, ⟨k, rows⟩⟩) hsm hn 0 0 hS hF h2
  exact ⟨rows, h2, h, hb⟩

omit hsm hn hS hF hB hU in
/-- The hypotheses can be met: the Fermat quintic with the reduced basis of degree four has a balanced matrix, and it is
diagonal. -/
example : ∃ (rows : List (Fin 5 → ℕ)) (h : (⟨.fermat 5, ⟨4, rows⟩⟩ : AlgebraicMetric 4).H),
    Balanced (sec (⟨.fermat 5, ⟨4, rows⟩⟩ : AlgebraicMetric 4)) (cyMeasure (n := 3) 0 0 (∑ j, X j ^ 5)) h ∧
    ∀ a b, a ≠ b → h a b = 0 := by
  have hF := (C114_fermat (m := 4) (.vec [])).1
  obtain ⟨rows, h1, h, hb⟩ := reduced_basis (n := 3) (C114_fermat (.vec [])).2 (by norm_num) (.fermat 4) hF 4
  exact ⟨rows, h, hb, C155_fermat (A := ⟨.fermat 5, ⟨4, rows⟩⟩) (by norm_num) 0 0 (.fermat 4) hF h1 (by norm_num) h hb⟩

omit hsm hn hS hF hB hU in
/-- The Dwork quintic with `psi = 2`: the exchange of two coordinates is a symmetry, and `eta` of the balanced metric for the
reduced basis of degree six does not change under it. -/
example : ∃ (rows : List (Fin 5 → ℕ)) (h : (⟨.dwork 5 (.flag true), ⟨6, rows⟩⟩ : AlgebraicMetric 4).H)
    (F : MvPolynomial (Fin 5) ℂ), IsSymmetry F ((Equiv.swap (0 : Fin 5) 1).permMatrix ℂ) ∧
    Balanced (sec (⟨.dwork 5 (.flag true), ⟨6, rows⟩⟩ : AlgebraicMetric 4)) (cyMeasure (n := 3) 0 0 F) h ∧
    ∀ Z : Fin 5 → ℂ, Z ≠ 0 → eval Z F = 0 →
      AlgebraicMetric.eta ⟨.dwork 5 (.flag true), ⟨6, rows⟩⟩ h (List.ofFn (Z ∘ Equiv.swap (0 : Fin 5) 1)) (.vec [2]) none none none =
        AlgebraicMetric.eta ⟨.dwork 5 (.flag true), ⟨6, rows⟩⟩ h (List.ofFn Z) (.vec [2]) none none none := by
  have hF := hypersurface_dwork_explicit 4 (.flag true) 2 []
  have hsm := (smooth_dwork (m := 4) ((DworkFactor.flag true).value * 2)).2 (by
    simp only [DworkFactor.value]
    norm_num)
  have hS : Samplable (.dwork 5 (.flag true)) 4 5 [2] := .dwork 4 (.flag true) (by simp [DworkFactor.value]) 2
  obtain ⟨rows, h1, h, hb⟩ := reduced_basis (n := 3) hsm (by norm_num) hS hF 6
  have hU : IsSymmetry (∑ j, X j ^ 5 + C ((DworkFactor.flag true).value * 2) * ∏ j, X j : MvPolynomial (Fin 5) ℂ)
      ((Equiv.swap (0 : Fin 5) 1).permMatrix ℂ) := by
    refine ⟨?_, 1, fun Z => ?_⟩
    · rw [Matrix.mem_unitaryGroup_iff, Matrix.star_eq_conjTranspose, Matrix.conjTranspose_permMatrix, ← Matrix.permMatrix_mul,
        inv_mul_cancel, Matrix.permMatrix_one]
    · rw [Matrix.permMatrix_mulVec, one_mul, eval_dwork, eval_dwork]
      simp only [Function.comp]
      rw [Equiv.sum_comp (Equiv.swap (0 : Fin 5) 1) fun i => Z i ^ 5, Equiv.prod_comp (Equiv.swap (0 : Fin 5) 1) fun i => Z i]
  refine ⟨rows, h, _, hU, hb, fun Z hZ h0 => ?_⟩
  have := C155_eta_balanced (A := ⟨.dwork 5 (.flag true), ⟨6, rows⟩⟩) hsm (by norm_num) 0 0 hS hF h1 hU (by norm_num) h hb Z hZ h0
  rwa [Matrix.permMatrix_mulVec] at this

end Cyjax
