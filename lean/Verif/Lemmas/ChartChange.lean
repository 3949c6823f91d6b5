import Verif.Lemmas.RicciFlat
import Verif.Lemmas.NullLagrangian

/-! # Volume densities of potentials on a hypersurface (for C153) -/

namespace Cyjax

open MeasureTheory MvPolynomial Cyjax.Spec Cyjax.Polynomial Cyjax.Variety Cyjax.Donaldson Cyjax.Projective Set Filter Topology
open scoped ContDiff

variable {n e : ℕ} {F : MvPolynomial (Fin (n + 2)) ℂ}

/-- A function that is smooth in all local coordinates of the hypersurface. -/
def ChartSmooth (F : MvPolynomial (Fin (n + 2)) ℂ) (l : WithTop ℕ∞) (K : (Fin (n + 2) → ℂ) → ℝ) : Prop :=
  ∀ (p : Fin (n + 2)) (d : Fin (n + 1)) (φ : (Fin n → ℂ) → Fin (n + 1) → ℂ) (x : Fin n → ℂ), Chart F p d φ x →
    ContDiffAt ℝ l (fun y => K (affineToHom (φ y) (p : ℕ))) x

/-- A Kahler potential in homogeneous coordinates: a change of scale adds a pluriharmonic function. -/
def LogHomogeneous (F : MvPolynomial (Fin (n + 2)) ℂ) (a : ℝ) (K : (Fin (n + 2) → ℂ) → ℝ) : Prop :=
  ∀ Z, Z ≠ 0 → eval Z F = 0 → ∀ c : ℂ, c ≠ 0 → K (c • Z) = K Z + a * Real.log (‖c‖ ^ 2)

/-- The mixed derivatives of a potential in local coordinates. -/
noncomputable def chartLevi (K : (Fin (n + 2) → ℂ) → ℝ) (p : Fin (n + 2)) (φ : (Fin n → ℂ) → Fin (n + 1) → ℂ) (x : Fin n → ℂ) :
    Matrix (Fin n) (Fin n) ℂ :=
  levi (fun y => ((K (affineToHom (φ y) (p : ℕ)) : ℝ) : ℂ)) x

/-- The volume density of a potential with respect to the holomorphic volume form, in local coordinates. -/
noncomputable def chartVol (F : MvPolynomial (Fin (n + 2)) ℂ) (K : (Fin (n + 2) → ℂ) → ℝ) (p : Fin (n + 2)) (d : Fin (n + 1))
    (φ : (Fin n → ℂ) → Fin (n + 1) → ℂ) (x : Fin n → ℂ) : ℝ :=
  ‖eval (affineToHom (φ x) (p : ℕ)) (pderiv (p.succAbove d) F)‖ ^ 2 * (chartLevi K p φ x).det.re

theorem eval_smul_zero (hom : F.IsHomogeneous e) (c : ℂ) (Z : Fin (n + 2) → ℂ) (h0 : eval Z F = 0) : eval (c • Z) F = 0 := by
  have := eval_smul_homogeneous hom c Z
  rw [h0, mul_zero] at this
  exact this

theorem homToAffine_smul (c : ℂ) (hc : c ≠ 0) (Z : Fin (n + 2) → ℂ) (p : Fin (n + 2)) :
    homToAffine (c • Z) (p : ℕ) = homToAffine Z (p : ℕ) := by
  funext k
  rw [homToAffine_apply, homToAffine_apply, Pi.smul_apply, Pi.smul_apply, smul_eq_mul, smul_eq_mul, mul_div_mul_left _ _ hc]

theorem affine_homogeneous (Z : Fin (n + 2) → ℂ) (p : Fin (n + 2)) (hp : Z p ≠ 0) :
    affineToHom (homToAffine Z (p : ℕ)) (p : ℕ) = (Z p)⁻¹ • Z := by
  rw [C16_roundtrip Z p hp]
  funext i
  simp [div_eq_inv_mul]

theorem continuousAt_homToAffine (Z : Fin (n + 2) → ℂ) (p : Fin (n + 2)) (hp : Z p ≠ 0) :
    ContinuousAt (fun Z : Fin (n + 2) → ℂ => homToAffine Z (p : ℕ)) Z := by
  refine continuousAt_pi.2 fun k => ?_
  simp only [homToAffine_apply]
  exact (continuous_apply _).continuousAt.div₀ (continuous_apply _).continuousAt hp

theorem Chart.hom_smooth {p : Fin (n + 2)} {d : Fin (n + 1)} {φ : (Fin n → ℂ) → Fin (n + 1) → ℂ} {x : Fin n → ℂ}
    (hc : Chart F p d φ x) (i : Fin (n + 2)) : ContDiffAt ℂ ω (fun y => affineToHom (φ y) (p : ℕ) i) x := by
  rcases Fin.eq_self_or_eq_succAbove p i with rfl | ⟨k, rfl⟩
  · simp only [affineToHom_same]
    exact contDiffAt_const
  · simp only [affineToHom_succAbove]
    exact contDiffAt_pi.1 hc.implicit.1 k

/-- The change from one system of local coordinates to another one. -/
theorem Chart.change (hom : F.IsHomogeneous e) {p p' : Fin (n + 2)} {d d' : Fin (n + 1)} {φ φ' : (Fin n → ℂ) → Fin (n + 1) → ℂ}
    {x x' : Fin n → ℂ} (hc : Chart F p d φ x) (hc' : Chart F p' d' φ' x') {c : ℂ} (hc0 : c ≠ 0)
    (heq : affineToHom (φ' x') (p' : ℕ) = c • affineToHom (φ x) (p : ℕ)) :
    ∃ (τ : (Fin n → ℂ) → Fin n → ℂ) (u : (Fin n → ℂ) → ℂ), ContDiffAt ℂ ω τ x ∧ τ x = x' ∧ ContDiffAt ℂ ω u x ∧ u x ≠ 0 ∧
      ∀ᶠ y in 𝓝 x, affineToHom (φ y) (p : ℕ) = u y • affineToHom (φ' (τ y)) (p' : ℕ) := by
  have hp' : affineToHom (φ x) (p : ℕ) p' ≠ 0 := fun h => by
    have := congrFun heq p'
    rw [affineToHom_same, Pi.smul_apply, h, smul_zero] at this
    exact one_ne_zero this
  have hw : homToAffine (affineToHom (φ x) (p : ℕ)) (p' : ℕ) = φ' x' := by
    rw [← homToAffine_smul c hc0, ← heq, C15_roundtrip]
  have hu : ContDiffAt ℂ ω (fun y => affineToHom (φ y) (p : ℕ) p') x := hc.hom_smooth p'
  have hx' : ∀ r, φ' x' (d'.succAbove r) = x' r := hc'.par.self_of_nhds.2.1
  have hcont : ContinuousAt (fun y => homToAffine (affineToHom (φ y) (p : ℕ)) (p' : ℕ)) x := by
    refine ContinuousAt.comp (g := fun Z : Fin (n + 2) → ℂ => homToAffine Z (p' : ℕ)) (continuousAt_homToAffine _ p' hp') ?_
    exact continuousAt_pi.2 fun i => (hc.hom_smooth i).continuousAt
  refine ⟨fun y r => homToAffine (affineToHom (φ y) (p : ℕ)) (p' : ℕ) (d'.succAbove r), fun y => affineToHom (φ y) (p : ℕ) p',
    ?_, ?_, hu, hp', ?_⟩
  · rw [contDiffAt_pi]
    intro r
    simp only [homToAffine_apply, div_eq_mul_inv]
    exact (hc.hom_smooth _).mul (hu.inv hp')
  · funext r
    exact (congrFun hw _).trans (hx' r)
  · have h1 := hc'.implicit.2
    rw [← hw] at h1
    filter_upwards [hcont.eventually h1, hu.continuousAt.eventually_ne hp', hc.eventually] with y h2 h3 h4
    rw [h2, affine_homogeneous _ _ h3, smul_smul, mul_inv_cancel₀ h3, one_smul]
    rw [affine_homogeneous _ _ h3]
    exact eval_smul_zero hom _ _ h4.zero

/-- All potentials transform with the same matrix. -/
theorem Chart.levi_change (hom : F.IsHomogeneous e) {p p' : Fin (n + 2)} {d d' : Fin (n + 1)}
    {φ φ' : (Fin n → ℂ) → Fin (n + 1) → ℂ} {x x' : Fin n → ℂ} (hc : Chart F p d φ x) (hc' : Chart F p' d' φ' x') {c : ℂ}
    (hc0 : c ≠ 0) (heq : affineToHom (φ' x') (p' : ℕ) = c • affineToHom (φ x) (p : ℕ)) :
    ∃ M : Matrix (Fin n) (Fin n) ℂ, ∀ K a, ChartSmooth F 2 K → LogHomogeneous F a K →
      chartLevi K p φ x = M * chartLevi K p' φ' x' * M.conjTranspose := by
  obtain ⟨τ, u, h1, h2, h3, h4, h5⟩ := hc.change hom hc' hc0 heq
  refine ⟨Matrix.of fun r a => dhol τ r x a, fun K a hK ha => ?_⟩
  have hc2 : ContDiffAt ℝ 2 (fun y => ((K (affineToHom (φ' y) (p' : ℕ)) : ℝ) : ℂ)) (τ x) := by
    rw [h2]
    exact Complex.ofRealCLM.contDiff.contDiffAt.comp x' (hK p' d' φ' x' hc')
  have hτ2 : ContDiffAt ℂ 2 τ x := h1.of_le le_top
  have hu2 : ContDiffAt ℂ 2 u x := h3.of_le le_top
  have hch : ∀ᶠ y in 𝓝 x, Chart F p' d' φ' (τ y) := by
    have := h1.continuousAt
    rw [ContinuousAt, h2] at this
    exact this.eventually hc'.eventually
  have hev : (fun y => ((K (affineToHom (φ y) (p : ℕ)) : ℝ) : ℂ)) =ᶠ[𝓝 x] fun y =>
      ((K (affineToHom (φ' (τ y)) (p' : ℕ)) : ℝ) : ℂ) + ((a * Real.log (‖u y‖ ^ 2) : ℝ) : ℂ) := by
    filter_upwards [h5, h3.continuousAt.eventually_ne h4, hch] with y hy hy2 hy3
    rw [hy, ha _ (affine_ne_zero _ _) hy3.zero _ hy2]
    push_cast
    ring
  have hlog : ContDiffAt ℝ 2 (fun y => ((a * Real.log (‖u y‖ ^ 2) : ℝ) : ℂ)) x :=
    Complex.ofRealCLM.contDiff.contDiffAt.comp x (contDiffAt_const.mul
      ((((hu2.restrict_scalars ℝ).norm ℝ h4).pow 2).log (pow_ne_zero 2 (norm_ne_zero_iff.2 h4))))
  have hl : chartLevi K p φ x = levi (fun y => ((K (affineToHom (φ' (τ y)) (p' : ℕ)) : ℝ) : ℂ) +
      ((a * Real.log (‖u y‖ ^ 2) : ℝ) : ℂ)) x := by
    ext r s
    exact levi_congr hev r s
  rw [hl, levi_add (f := fun y => ((K (affineToHom (φ' (τ y)) (p' : ℕ)) : ℝ) : ℂ)) (hc2.comp x (hτ2.restrict_scalars ℝ)) hlog,
    levi_logNorm hu2 h4 a, add_zero, levi_comp_matrix (f := fun y => ((K (affineToHom (φ' y) (p' : ℕ)) : ℝ) : ℂ)) hc2 hτ2, h2]
  rfl

/-- There is a potential whose volume density does not depend on the local coordinates and vanishes nowhere. -/
def HasVolume (F : MvPolynomial (Fin (n + 2)) ℂ) : Prop :=
  ∃ (K η : (Fin (n + 2) → ℂ) → ℝ) (a : ℝ), ChartSmooth F 2 K ∧ LogHomogeneous F a K ∧ (∀ c : ℂ, c ≠ 0 → ∀ Z, η (c • Z) = η Z) ∧
    ∀ (p : Fin (n + 2)) (d : Fin (n + 1)) (φ : (Fin n → ℂ) → Fin (n + 1) → ℂ) (x : Fin n → ℂ), Chart F p d φ x →
      chartVol F K p d φ x = η (affineToHom (φ x) (p : ℕ)) ∧ η (affineToHom (φ x) (p : ℕ)) ≠ 0

/-- Then the same is true for all potentials. -/
theorem Chart.vol_change (hom : F.IsHomogeneous e) (hvol : HasVolume F) {p p' : Fin (n + 2)} {d d' : Fin (n + 1)}
    {φ φ' : (Fin n → ℂ) → Fin (n + 1) → ℂ} {x x' : Fin n → ℂ} (hc : Chart F p d φ x) (hc' : Chart F p' d' φ' x') {c : ℂ}
    (hc0 : c ≠ 0) (heq : affineToHom (φ' x') (p' : ℕ) = c • affineToHom (φ x) (p : ℕ)) {K : (Fin (n + 2) → ℂ) → ℝ} {a : ℝ}
    (hK : ChartSmooth F 2 K) (ha : LogHomogeneous F a K) : chartVol F K p d φ x = chartVol F K p' d' φ' x' := by
  obtain ⟨M, hM⟩ := hc.levi_change hom hc' hc0 heq
  have hdet : ∀ K a, ChartSmooth F 2 K → LogHomogeneous F a K →
      (chartLevi K p φ x).det.re = ‖M.det‖ ^ 2 * (chartLevi K p' φ' x').det.re := by
    intro K a hK ha
    rw [hM K a hK ha, Matrix.det_mul, Matrix.det_mul, Matrix.det_conjTranspose, mul_right_comm]
    rw [show M.det * star M.det = ((‖M.det‖ ^ 2 : ℝ) : ℂ) by
      rw [← Complex.normSq_eq_norm_sq, ← Complex.mul_conj]; rfl, Complex.re_ofReal_mul]
  obtain ⟨K₀, η, a₀, hK₀, ha₀, hη, hv⟩ := hvol
  have e1 := hv p d φ x hc
  have e2 := hv p' d' φ' x' hc'
  rw [heq, hη c hc0] at e2
  have e3 := e1.1.trans e2.1.symm
  unfold chartVol at e3 e2 ⊢
  rw [hdet K₀ a₀ hK₀ ha₀, ← mul_assoc] at e3
  have hne : (chartLevi K₀ p' φ' x').det.re ≠ 0 := fun h0 => by
    rw [h0, mul_zero] at e2
    exact e2.2 e2.1.symm
  rw [hdet K a hK ha, ← mul_assoc, mul_right_cancel₀ hne e3]

/-- The volume density is computed in some local coordinates. -/
def IsVol (F : MvPolynomial (Fin (n + 2)) ℂ) (K : (Fin (n + 2) → ℂ) → ℝ) (Z : Fin (n + 2) → ℂ) (v : ℝ) : Prop :=
  ∃ (p : Fin (n + 2)) (d : Fin (n + 1)) (φ : (Fin n → ℂ) → Fin (n + 1) → ℂ) (x : Fin n → ℂ) (c : ℂ), c ≠ 0 ∧
    Chart F p d φ x ∧ affineToHom (φ x) (p : ℕ) = c • Z ∧ v = chartVol F K p d φ x

open Classical in
/-- The volume density of a potential at a point of the hypersurface. -/
noncomputable def volDensity (F : MvPolynomial (Fin (n + 2)) ℂ) (K : (Fin (n + 2) → ℂ) → ℝ) (Z : Fin (n + 2) → ℂ) : ℝ :=
  if h : ∃ v, IsVol F K Z v then h.choose else 0

section Density

variable (hom : F.IsHomogeneous e) (hvol : HasVolume F) {K : (Fin (n + 2) → ℂ) → ℝ} {a : ℝ} (hK : ChartSmooth F 2 K)
  (ha : LogHomogeneous F a K)

include hom hvol hK ha

theorem volDensity_eq {p : Fin (n + 2)} {d : Fin (n + 1)} {φ : (Fin n → ℂ) → Fin (n + 1) → ℂ} {x : Fin n → ℂ} (hc : Chart F p d φ x)
    {Z : Fin (n + 2) → ℂ} {c : ℂ} (hc0 : c ≠ 0) (hZ : affineToHom (φ x) (p : ℕ) = c • Z) :
    volDensity F K Z = chartVol F K p d φ x := by
  have h : ∃ v, IsVol F K Z v := ⟨_, p, d, φ, x, c, hc0, hc, hZ, rfl⟩
  rw [volDensity, dif_pos h]
  obtain ⟨p', d', φ', x', c', hc0', hc', hZ', hv⟩ := h.choose_spec
  rw [hv]
  refine hc'.vol_change hom hvol hc (c := c * c'⁻¹) (mul_ne_zero hc0 (inv_ne_zero hc0')) ?_ hK ha
  rw [hZ, hZ', smul_smul, mul_assoc, inv_mul_cancel₀ hc0', mul_one]

omit hvol hK ha hom in
theorem volDensity_off (hom : F.IsHomogeneous e) {Z : Fin (n + 2) → ℂ} (hZ : ¬ (Z ≠ 0 ∧ eval Z F = 0)) : volDensity F K Z = 0 := by
  rw [volDensity, dif_neg]
  rintro ⟨v, p, d, φ, x, c, hc0, hc, h1, -⟩
  refine hZ ⟨?_, ?_⟩
  · rintro rfl
    rw [smul_zero] at h1
    exact affine_ne_zero _ _ h1
  · have h2 := hc.zero
    rw [h1] at h2
    have h3 := eval_smul_zero hom c⁻¹ _ h2
    rwa [smul_smul, inv_mul_cancel₀ hc0, one_smul] at h3

omit hvol hK ha in
/-- Every point of the hypersurface lies in a chart, and all points nearby are seen in it. -/
theorem chart_at (hsm : SmoothHypersurface F) (Z₀ : Fin (n + 2) → ℂ) (hZ : Z₀ ≠ 0) (h0 : eval Z₀ F = 0) :
    ∃ (p : Fin (n + 2)) (d : Fin (n + 1)) (φ : (Fin n → ℂ) → Fin (n + 1) → ℂ), Z₀ p ≠ 0 ∧
      Chart F p d φ (fun r => homToAffine Z₀ (p : ℕ) (d.succAbove r)) ∧
      ∀ᶠ Z in 𝓝 Z₀, eval Z F = 0 → affineToHom (φ fun r => homToAffine Z (p : ℕ) (d.succAbove r)) (p : ℕ) = (Z p)⁻¹ • Z := by
  obtain ⟨p, hp⟩ : ∃ p, Z₀ p ≠ 0 := by
    by_contra! hcon
    exact hZ (funext hcon)
  obtain ⟨d, hd⟩ := smooth_affine hom Z₀ h0 (hsm Z₀ hZ h0) p hp
  have haff : ∀ Z : Fin (n + 2) → ℂ, Z p ≠ 0 → eval Z F = 0 → eval (affineToHom (homToAffine Z (p : ℕ)) (p : ℕ)) F = 0 := by
    intro Z hZp hZ0
    rw [affine_homogeneous _ _ hZp]
    exact eval_smul_zero hom _ _ hZ0
  obtain ⟨φ, hc, hφ, hnear⟩ := exists_chart (homToAffine Z₀ (p : ℕ)) (haff Z₀ hp h0) hd
  refine ⟨p, d, φ, hp, hc, ?_⟩
  filter_upwards [(continuousAt_homToAffine Z₀ p hp).eventually hnear, (continuous_apply p).continuousAt.eventually_ne hp]
    with Z h1 h2 h3
  rw [h1 (haff Z h2 h3), affine_homogeneous _ _ h2]

omit hvol hom ha in
theorem chartVol_continuous {p : Fin (n + 2)} {d : Fin (n + 1)} {φ : (Fin n → ℂ) → Fin (n + 1) → ℂ} {x : Fin n → ℂ}
    (hc : Chart F p d φ x) : ContinuousAt (chartVol F K p d φ) x := by
  have hf : ContDiffAt ℝ 2 (fun y => ((K (affineToHom (φ y) (p : ℕ)) : ℝ) : ℂ)) x :=
    Complex.ofRealCLM.contDiff.contDiffAt.comp x (hK p d φ x hc)
  have h1 : ∀ r s, ContinuousAt (fun y => chartLevi K p φ y r s) x := fun r s =>
    (dz_contDiff (k := 0) (l := 1) (dz_contDiff (k := 1) hf (by norm_num) r).1 (by norm_num) s).2.continuousAt
  have h2 : ContinuousAt (fun y => (chartLevi K p φ y).det) x :=
    ContinuousAt.comp (g := Matrix.det) (continuous_id.matrix_det).continuousAt
      (continuousAt_pi.2 fun r => continuousAt_pi.2 fun s => h1 r s)
  have h3 : ContinuousAt (fun y => affineToHom (φ y) (p : ℕ)) x :=
    continuousAt_pi.2 fun i => (hc.hom_smooth i).continuousAt
  exact ((((MvPolynomial.continuous_eval _).continuousAt.comp h3).norm).pow 2).mul
    (Complex.continuous_re.continuousAt.comp h2)

theorem volDensity_continuousOn (hsm : SmoothHypersurface F) : ContinuousOn (volDensity F K) {Z | Z ≠ 0 ∧ eval Z F = 0} := by
  intro Z₀ hZ₀
  obtain ⟨p, d, φ, hp, hc, hnear⟩ := chart_at hom hsm Z₀ hZ₀.1 hZ₀.2
  have hκ : ContinuousAt (fun Z : Fin (n + 2) → ℂ => fun r => homToAffine Z (p : ℕ) (d.succAbove r)) Z₀ :=
    continuousAt_pi.2 fun r => (continuous_apply _).continuousAt.comp (continuousAt_homToAffine Z₀ p hp)
  have h1 : ContinuousAt (fun Z => chartVol F K p d φ fun r => homToAffine Z (p : ℕ) (d.succAbove r)) Z₀ :=
    ContinuousAt.comp (g := chartVol F K p d φ) (chartVol_continuous hK hc) hκ
  have h2 : ∀ᶠ Z in 𝓝 Z₀, eval Z F = 0 → volDensity F K Z = chartVol F K p d φ fun r => homToAffine Z (p : ℕ) (d.succAbove r) := by
    filter_upwards [hnear, hκ.eventually hc.eventually, (continuous_apply p).continuousAt.eventually_ne hp] with Z h3 h4 h5 h6
    exact volDensity_eq hom hvol hK ha h4 (inv_ne_zero h5) (h3 h6)
  refine h1.continuousWithinAt.congr_of_eventuallyEq ?_ (h2.self_of_nhds hZ₀.2)
  filter_upwards [mem_nhdsWithin_of_mem_nhds h2, self_mem_nhdsWithin] with Z h3 h4
  exact h3 h4.2

theorem volDensity_measurable (hsm : SmoothHypersurface F) : Measurable (volDensity F K) := by
  classical
  have hms : MeasurableSet {Z : Fin (n + 2) → ℂ | Z ≠ 0 ∧ eval Z F = 0} :=
    (measurableSet_singleton 0).compl.inter (isClosed_singleton.preimage (MvPolynomial.continuous_eval F)).measurableSet
  have h1 := (volDensity_continuousOn hom hvol hK ha hsm).measurable_piecewise (g := fun _ => 0) continuousOn_const hms
  convert h1 using 1
  funext Z
  by_cases hZ : Z ∈ {Z : Fin (n + 2) → ℂ | Z ≠ 0 ∧ eval Z F = 0}
  · rw [piecewise_eq_of_mem _ _ _ hZ]
  · rw [piecewise_eq_of_notMem _ _ _ hZ]
    exact volDensity_off hom hZ

omit hvol hK ha hom in
theorem volDensity_smul (c : ℂ) (hc : c ≠ 0) (Z : Fin (n + 2) → ℂ) : volDensity F K (c • Z) = volDensity F K Z := by
  unfold volDensity
  have h : IsVol F K (c • Z) = IsVol F K Z := by
    funext v
    refine propext ⟨?_, ?_⟩
    · rintro ⟨p, d, φ, x, c', h1, h2, h3, h4⟩
      exact ⟨p, d, φ, x, c' * c, mul_ne_zero h1 hc, h2, by rw [h3, smul_smul], h4⟩
    · rintro ⟨p, d, φ, x, c', h1, h2, h3, h4⟩
      refine ⟨p, d, φ, x, c' * c⁻¹, mul_ne_zero h1 (inv_ne_zero hc), h2, ?_, h4⟩
      rw [h3, smul_smul, mul_assoc, inv_mul_cancel₀ hc, mul_one]
  rw [h]

theorem volDensity_bounded (hsm : SmoothHypersurface F) : ∃ M : ℝ, ∀ Z, |volDensity F K Z| ≤ M := by
  have hcompact : IsCompact ({Z : Fin (n + 2) → ℂ | eval Z F = 0} ∩ Metric.sphere 0 1) :=
    (isCompact_sphere 0 1).inter_left (isClosed_singleton.preimage (MvPolynomial.continuous_eval F))
  have hsub : {Z : Fin (n + 2) → ℂ | eval Z F = 0} ∩ Metric.sphere 0 1 ⊆ {Z | Z ≠ 0 ∧ eval Z F = 0} := by
    rintro Z ⟨h1, h2⟩
    refine ⟨?_, h1⟩
    rintro rfl
    simp at h2
  obtain ⟨M, hM⟩ := hcompact.exists_bound_of_continuousOn ((volDensity_continuousOn hom hvol hK ha hsm).mono hsub)
  refine ⟨max M 0, fun Z => ?_⟩
  by_cases hZ : Z ≠ 0 ∧ eval Z F = 0
  · have hnz : (‖Z‖⁻¹ : ℂ) ≠ 0 := by simpa using hZ.1
    rw [← volDensity_smul _ hnz]
    refine le_trans (hM _ ⟨eval_smul_zero hom _ _ hZ.2, ?_⟩) (le_max_left _ _)
    rw [mem_sphere_zero_iff_norm, norm_smul, norm_inv, Complex.norm_real, norm_norm, inv_mul_cancel₀ (norm_ne_zero_iff.2 hZ.1)]
  · rw [volDensity_off hom hZ, abs_zero]
    exact le_max_right _ _

end Density

end Cyjax
