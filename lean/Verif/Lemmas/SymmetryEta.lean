import Verif.Lemmas.SymmetrySections
import Verif.Lemmas.KahlerVolume
import Verif.Props.FubiniStudyFlat

/-! # `eta` and the symmetries of a hypersurface (C155) -/

namespace Cyjax

open MvPolynomial Cyjax.Spec Cyjax.Donaldson Cyjax.Projective Cyjax.Variety Cyjax.Differential Matrix Filter Topology
open Cyjax.Polynomial (PyErr Val)
open scoped ComplexConjugate ComplexOrder ContDiff

variable {n e : ℕ} {F : MvPolynomial (Fin (n + 2)) ℂ} {U : Matrix (Fin (n + 2)) (Fin (n + 2)) ℂ}

/-- A linear map in local coordinates. -/
theorem Chart.change_linear (hom : F.IsHomogeneous e) (hUF : ∀ Z, eval Z F = 0 → eval (U *ᵥ Z) F = 0) {p p' : Fin (n + 2)}
    {d d' : Fin (n + 1)} {φ φ' : (Fin n → ℂ) → Fin (n + 1) → ℂ}
    {x x' : Fin n → ℂ} (hc : Chart F p d φ x) (hc' : Chart F p' d' φ' x') {c : ℂ} (hc0 : c ≠ 0)
    (heq : affineToHom (φ' x') (p' : ℕ) = c • (U *ᵥ affineToHom (φ x) (p : ℕ))) :
    ∃ (τ : (Fin n → ℂ) → Fin n → ℂ) (u : (Fin n → ℂ) → ℂ), ContDiffAt ℂ ω τ x ∧ τ x = x' ∧ ContDiffAt ℂ ω u x ∧ u x ≠ 0 ∧
      ∀ᶠ y in 𝓝 x, U *ᵥ affineToHom (φ y) (p : ℕ) = u y • affineToHom (φ' (τ y)) (p' : ℕ) := by
  have hsmooth : ∀ i, ContDiffAt ℂ ω (fun y => (U *ᵥ affineToHom (φ y) (p : ℕ)) i) x := fun i => by
    simp only [Matrix.mulVec, dotProduct]
    exact ContDiffAt.sum fun j _ => contDiffAt_const.mul (hc.hom_smooth j)
  have hp' : (U *ᵥ affineToHom (φ x) (p : ℕ)) p' ≠ 0 := fun h => by
    have := congrFun heq p'
    rw [affineToHom_same, Pi.smul_apply, h, smul_zero] at this
    exact one_ne_zero this
  have hw : homToAffine (U *ᵥ affineToHom (φ x) (p : ℕ)) (p' : ℕ) = φ' x' := by
    rw [← homToAffine_smul c hc0, ← heq, C15_roundtrip]
  have hu := hsmooth p'
  have hx' : ∀ r, φ' x' (d'.succAbove r) = x' r := hc'.par.self_of_nhds.2.1
  have hcont : ContinuousAt (fun y => homToAffine (U *ᵥ affineToHom (φ y) (p : ℕ)) (p' : ℕ)) x := by
    refine ContinuousAt.comp (g := fun Z : Fin (n + 2) → ℂ => homToAffine Z (p' : ℕ)) (continuousAt_homToAffine _ p' hp') ?_
    exact continuousAt_pi.2 fun i => (hsmooth i).continuousAt
  refine ⟨fun y r => homToAffine (U *ᵥ affineToHom (φ y) (p : ℕ)) (p' : ℕ) (d'.succAbove r),
    fun y => (U *ᵥ affineToHom (φ y) (p : ℕ)) p', ?_, ?_, hu, hp', ?_⟩
  · rw [contDiffAt_pi]
    intro r
    simp only [homToAffine_apply, div_eq_mul_inv]
    exact (hsmooth _).mul (hu.inv hp')
  · funext r
    exact (congrFun hw _).trans (hx' r)
  · have h1 := hc'.implicit.2
    rw [← hw] at h1
    filter_upwards [hcont.eventually h1, hu.continuousAt.eventually_ne hp', hc.eventually] with y h2 h3 h4
    rw [h2, affine_homogeneous _ _ h3, smul_smul, mul_inv_cancel₀ h3, one_smul]
    rw [affine_homogeneous _ _ h3]
    exact eval_smul_zero hom _ _ (hUF _ h4.zero)

/-- All potentials transform with the same matrix. -/
theorem Chart.levi_linear (hom : F.IsHomogeneous e) (hUF : ∀ Z, eval Z F = 0 → eval (U *ᵥ Z) F = 0) {p p' : Fin (n + 2)}
    {d d' : Fin (n + 1)} {φ φ' : (Fin n → ℂ) → Fin (n + 1) → ℂ} {x x' : Fin n → ℂ} (hc : Chart F p d φ x)
    (hc' : Chart F p' d' φ' x') {c : ℂ} (hc0 : c ≠ 0)
    (heq : affineToHom (φ' x') (p' : ℕ) = c • (U *ᵥ affineToHom (φ x) (p : ℕ))) :
    ∃ M : Matrix (Fin n) (Fin n) ℂ, ∀ K a, ChartSmooth F 2 K → LogHomogeneous F a K →
      chartLevi (fun Z => K (U *ᵥ Z)) p φ x = M * chartLevi K p' φ' x' * M.conjTranspose := by
  obtain ⟨τ, u, h1, h2, h3, h4, h5⟩ := hc.change_linear hom hUF hc' hc0 heq
  refine ⟨Matrix.of fun r a => dhol τ r x a, fun K a hK ha => ?_⟩
  have hc2 : ContDiffAt ℝ 2 (fun y => ((K (affineToHom (φ' y) (p' : ℕ)) : ℝ) : ℂ)) (τ x) := by
    rw [h2]
    exact Complex.ofRealCLM.contDiff.contDiffAt.comp x' (hK p' d' φ' x' hc')
  have hτ2 : ContDiffAt ℂ 2 τ x := h1.of_le le_top
  have hu2 : ContDiffAt ℂ 2 u x := h3.of_le le_top
  have hch : ∀ᶠ y in 𝓝 x, Chart F p' d' φ' (τ y) := by
    have := h1.continuousAt
    rw [ContinuousAt, h2] at this
    exact this.eventually hc'.eventually
  have hev : (fun y => ((K (U *ᵥ affineToHom (φ y) (p : ℕ)) : ℝ) : ℂ)) =ᶠ[𝓝 x] fun y =>
      ((K (affineToHom (φ' (τ y)) (p' : ℕ)) : ℝ) : ℂ) + ((a * Real.log (‖u y‖ ^ 2) : ℝ) : ℂ) := by
    filter_upwards [h5, h3.continuousAt.eventually_ne h4, hch] with y hy hy2 hy3
    rw [hy, ha _ (affine_ne_zero _ _) hy3.zero _ hy2]
    push_cast
    ring
  have hlog : ContDiffAt ℝ 2 (fun y => ((a * Real.log (‖u y‖ ^ 2) : ℝ) : ℂ)) x :=
    Complex.ofRealCLM.contDiff.contDiffAt.comp x (contDiffAt_const.mul
      ((((hu2.restrict_scalars ℝ).norm ℝ h4).pow 2).log (pow_ne_zero 2 (norm_ne_zero_iff.2 h4))))
  have hl : chartLevi (fun Z => K (U *ᵥ Z)) p φ x = levi (fun y => ((K (affineToHom (φ' (τ y)) (p' : ℕ)) : ℝ) : ℂ) +
      ((a * Real.log (‖u y‖ ^ 2) : ℝ) : ℂ)) x := by
    ext r s
    exact levi_congr hev r s
  rw [hl, levi_add (f := fun y => ((K (affineToHom (φ' (τ y)) (p' : ℕ)) : ℝ) : ℂ)) (hc2.comp x (hτ2.restrict_scalars ℝ)) hlog,
    levi_logNorm hu2 h4 a, add_zero, levi_comp_matrix (f := fun y => ((K (affineToHom (φ' y) (p' : ℕ)) : ℝ) : ℂ)) hc2 hτ2, h2]
  rfl

/-- Potentials that agree on the hypersurface. -/
theorem Chart.levi_eq {p : Fin (n + 2)} {d : Fin (n + 1)} {φ : (Fin n → ℂ) → Fin (n + 1) → ℂ} {x : Fin n → ℂ}
    (hc : Chart F p d φ x) {K K' : (Fin (n + 2) → ℂ) → ℝ} (h : ∀ Z, Z ≠ 0 → eval Z F = 0 → K Z = K' Z) :
    chartLevi K p φ x = chartLevi K' p φ x := by
  ext r s
  refine levi_congr ?_ r s
  filter_upwards [hc.eventually] with y hy
  rw [h _ (affine_ne_zero _ _) hy.zero]

section Eta

variable {A : AlgebraicMetric (n + 1)} {ps : List ℂ} (hsm : SmoothHypersurface F)
  (hF : Hypersurface A.variety (.vec ps) (n + 1) (n + 2) F)

/-- The algebraic metric of degree one on the same variety. -/
private abbrev lin1 (A : AlgebraicMetric (n + 1)) : AlgebraicMetric (n + 1) := ⟨A.variety, monomialBasisFull (n + 1) 1⟩

private theorem lin1_spans (A : AlgebraicMetric (n + 1)) (F : MvPolynomial (Fin (n + 2)) ℂ) :
    SpansModulo F (lin1 A).sections.degree (lin1 A).sections.rows := spans_full F 1

private theorem lin1_pot (A : AlgebraicMetric (n + 1)) (Z : Fin (n + 2) → ℂ) (hZ : Z ≠ 0) :
    potAt (lin1 A) (fubiniStudyH (n + 1) 1) Z = Real.log (∑ i, ‖Z i‖ ^ 2) / Real.pi := by
  obtain ⟨p, hp⟩ : ∃ p, Z p ≠ 0 := Function.ne_iff.1 hZ
  have h1 := affine_homogeneous Z p hp
  have h2 := psi_fubini 1 p (homToAffine Z (p : ℕ))
  have h3 := psi_hom (A := lin1 A) (lin1_spans A 0) (fubiniStudyH (n + 1) 1) p (homToAffine Z (p : ℕ))
  rw [h2, h1, pow_one] at h3
  have h4 := congrArg Complex.re h3
  rw [Complex.ofReal_re, bil_homSection_smul (A := lin1 A) (lin1_spans A 0)] at h4
  have h5 : 1 + ∑ i, ‖homToAffine Z (p : ℕ) i‖ ^ 2 = ‖(Z p)⁻¹‖ ^ 2 * ∑ i, ‖Z i‖ ^ 2 := by
    have h6 : 1 + ∑ i, ‖homToAffine Z (p : ℕ) i‖ ^ 2 = ∑ i, ‖affineToHom (homToAffine Z (p : ℕ)) (p : ℕ) i‖ ^ 2 := by
      rw [Fin.sum_univ_succAbove _ p]
      simp only [affineToHom_same, affineToHom_succAbove]
      simp
    rw [h6, h1, Finset.mul_sum]
    exact Finset.sum_congr rfl fun i _ => by rw [Pi.smul_apply, smul_eq_mul, norm_mul, mul_pow]
  rw [h5, show (lin1 A).sections.degree = 1 from rfl, pow_one] at h4
  have h7 := mul_left_cancel₀ (pow_ne_zero 2 (norm_ne_zero_iff.2 (inv_ne_zero hp))) h4
  rw [potAt, ← h7, show (lin1 A).degree = 1 from rfl, Nat.cast_one, mul_one]

include hsm hF in
private theorem lin1_eta (Z : Fin (n + 2) → ℂ) (hZ : Z ≠ 0) (h0 : eval Z F = 0) :
    etaAt (lin1 A) (fubiniStudyH (n + 1) 1) ps Z = gradSq F Z / (Real.pi ^ n * (∑ i, ‖Z i‖ ^ 2) ^ (n + 1)) := by
  have := C152_eta hF 1 one_ne_zero Z hZ h0 (hsm Z hZ h0)
  unfold etaAt
  rw [this]
  rfl

variable (hU : IsSymmetry F U)

include hsm hF hU

/-- The matrix by which the metrics transform, with its factor for the volume density. -/
theorem Chart.vol_symmetry {p p' : Fin (n + 2)} {d d' : Fin (n + 1)} {φ φ' : (Fin n → ℂ) → Fin (n + 1) → ℂ}
    {x x' : Fin n → ℂ} (hc : Chart F p d φ x) (hc' : Chart F p' d' φ' x') {c : ℂ} (hc0 : c ≠ 0)
    (heq : affineToHom (φ' x') (p' : ℕ) = c • (U *ᵥ affineToHom (φ x) (p : ℕ))) {K : (Fin (n + 2) → ℂ) → ℝ} {a : ℝ}
    (hK : ChartSmooth F 2 K) (ha : LogHomogeneous F a K) :
    chartVol F (fun Z => K (U *ᵥ Z)) p d φ x = chartVol F K p' d' φ' x' := by
  have hom := hF.homogeneous
  obtain ⟨f, hf⟩ := hU.factor
  have hF0 : F ≠ 0 := by
    rintro rfl
    obtain ⟨i, hi⟩ := hsm (fun _ => 1) (fun h => one_ne_zero (congrFun h 0)) (map_zero _)
    simp at hi
  have hf1 := symmetry_norm_factor hom (by omega) hF0 hU.unitary hf
  have hUF : ∀ Z, eval Z F = 0 → eval (U *ᵥ Z) F = 0 := fun Z hZ => by rw [hf, hZ, mul_zero]
  obtain ⟨M, hM⟩ := hc.levi_linear hom hUF hc' hc0 heq
  have hdet : ∀ K a, ChartSmooth F 2 K → LogHomogeneous F a K →
      (chartLevi (fun Z => K (U *ᵥ Z)) p φ x).det.re = ‖M.det‖ ^ 2 * (chartLevi K p' φ' x').det.re := by
    intro K a hK ha
    rw [hM K a hK ha, Matrix.det_mul, Matrix.det_mul, Matrix.det_conjTranspose, mul_right_comm]
    rw [show M.det * star M.det = ((‖M.det‖ ^ 2 : ℝ) : ℂ) by
      rw [← Complex.normSq_eq_norm_sq, ← Complex.mul_conj]; rfl, Complex.re_ofReal_mul]
  have hF1 : Hypersurface (lin1 A).variety (.vec ps) (n + 1) (n + 2) F := hF
  have hh1 : (fubiniStudyH (n + 1) 1).PosDef := C115_posDef (n + 1) 1
  set K₀ := potAt (lin1 A) (fubiniStudyH (n + 1) 1) with hK₀
  have s0 : ChartSmooth F 2 K₀ := potAt_smooth hF1 (lin1_spans A F) _ hh1
  have l0 : LogHomogeneous F Real.pi⁻¹ K₀ := potAt_log hF1 (lin1_spans A F) one_ne_zero _ hh1
  have hinv : chartLevi (fun Z => K₀ (U *ᵥ Z)) p φ x = chartLevi K₀ p φ x := hc.levi_eq fun Z hZ _ => by
    rw [hK₀, lin1_pot A _ (mulVec_unitary_ne hU.unitary hZ), lin1_pot A Z hZ, unitary_sq hU.unitary]
  have e1 := hc.vol_pot hF1 (lin1_spans A F) one_ne_zero _ hh1 hsm
  have e2 := hc'.vol_pot hF1 (lin1_spans A F) one_ne_zero _ hh1 hsm
  have hpos := (etaAt_pos hF1 _ (lin1_spans A F) hh1 hsm one_ne_zero _ (affine_ne_zero (φ' x') p') hc'.zero).1
  have e3 : chartVol F K₀ p d φ x = chartVol F K₀ p' d' φ' x' := by
    rw [e1, e2, heq, etaAt_smul hF1 _ c hc0, lin1_eta hsm hF _ (affine_ne_zero _ _) hc.zero,
      lin1_eta hsm hF _ (mulVec_unitary_ne hU.unitary (affine_ne_zero _ _)) (hUF _ hc.zero), unitary_sq hU.unitary,
      gradSq_mulVec hU.unitary hf, hf1, one_pow, one_mul]
  rw [← e2] at hpos
  unfold chartVol at e3 hpos ⊢
  rw [← hinv, hdet K₀ _ s0 l0, ← mul_assoc] at e3
  have hne : (chartLevi K₀ p' φ' x').det.re ≠ 0 := fun h0 => by
    rw [h0, mul_zero] at hpos
    exact hpos.false
  rw [hdet K a hK ha, ← mul_assoc, mul_right_cancel₀ hne e3]

variable (hB : SpansModulo F A.sections.degree A.sections.rows) (hk : A.sections.degree ≠ 0) (h : A.H) (hh : h.PosDef)

include hB hk hh

/-- `eta` at the image of a point. -/
theorem etaAt_symmetry {R : A.H} (hR : ActsBy F (sec A) U R) (hRu : IsUnit R.det) (Z : Fin (n + 2) → ℂ) (hZ : Z ≠ 0)
    (h0 : eval Z F = 0) : etaAt A h ps (U *ᵥ Z) = etaAt A (R.transpose * h * R.transpose.conjTranspose) ps Z := by
  have hom := hF.homogeneous
  obtain ⟨f, hf⟩ := hU.factor
  have hUF : ∀ Z, eval Z F = 0 → eval (U *ᵥ Z) F = 0 := fun Z hZ => by rw [hf, hZ, mul_zero]
  have hh' := pull_posDef hRu hh
  obtain ⟨p, d, φ, hp, hc, hnear⟩ := chart_at hom hsm Z hZ h0
  obtain ⟨p', d', φ', hp', hc', hnear'⟩ := chart_at hom hsm (U *ᵥ Z) (mulVec_unitary_ne hU.unitary hZ) (hUF Z h0)
  have h1 := hnear.self_of_nhds h0
  have h1' := hnear'.self_of_nhds (hUF Z h0)
  have e1 := hc'.vol_pot hF hB hk h hh hsm
  have e2 := hc.vol_pot hF hB hk _ hh' hsm
  rw [h1', etaAt_smul hF h _ (inv_ne_zero hp')] at e1
  rw [h1, etaAt_smul hF _ _ (inv_ne_zero hp)] at e2
  rw [← e1, ← e2, ← hc.vol_symmetry hsm hF hU hc' (c := ((U *ᵥ Z) p')⁻¹ * Z p) (mul_ne_zero (inv_ne_zero hp') hp)
    (by rw [h1', h1, Matrix.mulVec_smul, smul_smul, mul_assoc, mul_inv_cancel₀ hp, mul_one])
    (potAt_smooth hF hB h hh) (potAt_log hF hB hk h hh)]
  unfold chartVol
  rw [hc.levi_eq (K' := potAt A (R.transpose * h * R.transpose.conjTranspose)) fun W hW hW0 => ?_]
  have hb : ∀ (h : A.H) (W : Fin (n + 2) → ℂ), bil h (homSection A W) (homSection A W) = psiAt (sec A) h W := by
    intro h W
    have hs : ∀ a, homSection A W a = eval W (sec A a) := fun a => by simp [homSection, sec, mono]; rfl
    simp only [bil, psiAt, hs]
  rw [potAt, potAt, hb, hb, psiAt_mulVec hR h W hW0]

end Eta

end Cyjax
