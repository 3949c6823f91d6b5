import Verif.Lemmas.ConeConnected
import Verif.Lemmas.Pluriharmonic
import Verif.Lemmas.EtaMeasure
import Verif.Lemmas.CyMeasure
import Verif.Props.LocalCoordinates

/-! # Constant `eta` and vanishing curvature (for C138) -/

namespace Cyjax

open MeasureTheory MvPolynomial Cyjax.Spec Cyjax.Polynomial Cyjax.Variety Cyjax.Donaldson Cyjax.Projective Set Filter Topology
open scoped ENNReal ComplexOrder ContDiff

variable {n : ℕ}

/-- Holomorphic coordinates of the hypersurface near a point of patch `p`. -/
structure Chart (F : MvPolynomial (Fin (n + 2)) ℂ) (p : Fin (n + 2)) (d : Fin (n + 1)) (φ : (Fin n → ℂ) → Fin (n + 1) → ℂ)
    (x : Fin n → ℂ) : Prop where
  par : Parametrises (dehom p F) d φ x
  ne : eval (φ x) (pderiv d (dehom p F)) ≠ 0
  smooth : ContDiffAt ℂ 2 φ x

variable {F : MvPolynomial (Fin (n + 2)) ℂ} {p : Fin (n + 2)} {d : Fin (n + 1)} {φ : (Fin n → ℂ) → Fin (n + 1) → ℂ}
  {x : Fin n → ℂ}

theorem Chart.eventually (hc : Chart F p d φ x) : ∀ᶠ y in 𝓝 x, Chart F p d φ y := by
  filter_upwards [hc.par.eventually hc.ne, hc.smooth.eventually (by norm_num)] with y h1 h2
  exact ⟨h1.1, h1.2, h2⟩

theorem Chart.zero (hc : Chart F p d φ x) : eval (affineToHom (φ x) (p : ℕ)) F = 0 := by
  rw [← eval_dehom]
  exact hc.par.self_of_nhds.2.2

theorem affine_ne_zero (z : Fin (n + 1) → ℂ) (p : Fin (n + 2)) : affineToHom z (p : ℕ) ≠ 0 := fun h => by
  have := affineToHom_same z p
  rw [h] at this
  simp at this

theorem Chart.regular (hc : Chart F p d φ x) :
    affineToHom (φ x) (p : ℕ) = hpoint p d 1 (φ x d) x ∧ hpoint p d 1 (φ x d) x ∈ regularSet p d F := by
  have h1 : affineToHom (φ x) (p : ℕ) = hpoint p d 1 (φ x d) x := by
    refine ext_hpoint p d ?_ ?_ fun k => ?_
    · rw [affineToHom_same, hpoint_p]
    · rw [affineToHom_succAbove, hpoint_d]
    · rw [affineToHom_succAbove, hpoint_w, hc.par.self_of_nhds.2.1 k]
  refine ⟨h1, ?_, ?_⟩
  · rw [← h1]
    exact hc.zero
  · rw [← h1, ← eval_pderiv_dehom]
    exact hc.ne

/-- Every point has such coordinates, and they reach every nearby point. -/
theorem exists_chart (z : Fin (n + 1) → ℂ) (h0 : eval (affineToHom z (p : ℕ)) F = 0)
    (hd : eval z (pderiv d (dehom p F)) ≠ 0) : ∃ φ, Chart F p d φ (fun r => z (d.succAbove r)) ∧
      φ (fun r => z (d.succAbove r)) = z ∧
      ∀ᶠ w in 𝓝 z, eval (affineToHom w (p : ℕ)) F = 0 → φ (fun r => w (d.succAbove r)) = w := by
  obtain ⟨φ, h1, h2, h3, h4⟩ := parametrises_exists (dehom p F) d z (by rw [eval_dehom]; exact h0) hd
  refine ⟨φ, ⟨h1, by rw [h3]; exact hd, h2⟩, h3, ?_⟩
  filter_upwards [h4] with w hw h0w
  exact hw (by rw [eval_dehom]; exact h0w)

/-- The coordinates are given by the implicit function: they are analytic and reach every nearby point. -/
theorem Chart.implicit (hc : Chart F p d φ x) : ContDiffAt ℂ ω φ x ∧
    ∀ᶠ w in 𝓝 (φ x), eval (affineToHom w (p : ℕ)) F = 0 → φ (fun r => w (d.succAbove r)) = w := by
  have hx : (fun r => φ x (d.succAbove r)) = x := funext fun r => hc.par.self_of_nhds.2.1 r
  obtain ⟨φ', -, h2, -, h4⟩ := parametrises_analytic (dehom p F) d (φ x) hc.par.self_of_nhds.2.2 hc.ne
  rw [hx] at h2
  have hev : φ =ᶠ[𝓝 x] φ' := by
    filter_upwards [hc.smooth.continuousAt.eventually h4, hc.par] with y hy1 hy2
    rw [← hy1 hy2.2.2]
    congr 1
    exact funext fun r => hy2.2.1 r
  refine ⟨h2.congr_of_eventuallyEq hev, ?_⟩
  have hproj : Continuous fun w : Fin (n + 1) → ℂ => fun r => w (d.succAbove r) := by fun_prop
  have h5 : ∀ᶠ w in 𝓝 (φ x), φ (fun r => w (d.succAbove r)) = φ' (fun r => w (d.succAbove r)) := by
    have := hproj.tendsto (φ x)
    rw [hx] at this
    exact this.eventually hev
  filter_upwards [h4, h5] with w h6 h7 h8
  rw [h7, h6 (by rw [eval_dehom]; exact h8)]

section Metric

variable {A : AlgebraicMetric (n + 1)} {ps : List ℂ} (hsm : SmoothHypersurface F)
  (hF : Hypersurface A.variety (.vec ps) (n + 1) (n + 2) F) (hB : SpansModulo F A.sections.degree A.sections.rows)
  (hk : A.sections.degree ≠ 0) (h : A.H) (hh : h.PosDef)

include hsm hF hB hk hh

theorem eta_affine_value (p : Fin (n + 2)) (z : Fin (n + 1) → ℂ) (h0 : eval (affineToHom z (p : ℕ)) F = 0) :
    0 < etaAt A h ps (affineToHom z (p : ℕ)) ∧
    A.eta h (List.ofFn z) (.vec ps) (some (p : ℕ)) none none = .ok (etaAt A h ps (affineToHom z (p : ℕ)) : ℂ) ∧
    ∀ d : Fin (n + 1), eval z (pderiv d (dehom p F)) ≠ 0 →
      A.eta h (List.ofFn z) (.vec ps) (some (p : ℕ)) (some (d : ℕ)) none = .ok (etaAt A h ps (affineToHom z (p : ℕ)) : ℂ) := by
  have hne := affine_ne_zero z p
  obtain ⟨hpos, hval⟩ := etaAt_pos hF h hB hh hsm hk _ hne h0
  obtain ⟨v, h1, h2⟩ := C106_calabi_yau hF h hh hB (affineToHom z (p : ℕ)) h0 (hsm _ hne h0) rfl hne
  have h3 := h1 1 one_ne_zero
  simp only [one_mul] at h3
  rw [hval] at h3
  injection h3 with h3
  obtain ⟨h4, h5⟩ := h2 p (by rw [affineToHom_same]; exact one_ne_zero)
  rw [C15_roundtrip] at h4 h5
  rw [← h3] at h4 h5
  exact ⟨hpos, h4, fun d hd => h5 _ (hF.grad p z) d hd⟩

/-- The logarithm of `eta` in local coordinates is smooth. -/
theorem Chart.log_smooth {l : WithTop ℕ∞} (hc : Chart F p d φ x) :
    ContDiffAt ℝ l (fun y => Real.log (etaAt A h ps (affineToHom (φ y) (p : ℕ)))) x := by
  have h1 := eta_smooth (l := l) hF h hh hB hk p d (φ x) (by rw [hF.defining, hc.zero]) _ (hF.grad p (φ x)) hc.ne
  have h2 : ContDiffAt ℝ l (fun y => onOk (fun η => ((Real.log ‖η‖ : ℝ) : ℂ)) (A.eta h (List.ofFn (φ y)) (.vec ps) (some (p : ℕ)) (some (d : ℕ)) none)) x :=
    ContDiffAt.comp (g := fun w => onOk (fun η => ((Real.log ‖η‖ : ℝ) : ℂ)) (A.eta h (List.ofFn w) (.vec ps) (some (p : ℕ)) (some (d : ℕ)) none)) x h1
      ((hc.implicit.1.restrict_scalars ℝ).of_le le_top)
  have h3 := Complex.reCLM.contDiff.contDiffAt.comp x h2
  refine h3.congr_of_eventuallyEq ?_
  filter_upwards [hc.eventually] with y hy
  obtain ⟨e1, -, e3⟩ := eta_affine_value hsm hF hB hk h hh p (φ y) hy.zero
  rw [Function.comp_apply, e3 d hy.ne]
  simp [onOk, abs_of_pos e1]

/-- The Ricci tensor in local coordinates. -/
theorem Chart.ricci (hc : Chart F p d φ x) :
    ∃ R, A.ricci h (List.ofFn (φ x)) (.vec ps) (some (p : ℕ)) (some (d : ℕ)) none = .ok (R, (p : ℕ), ((d : ℕ) : ℤ)) ∧
      ∀ r s, R r s = -dzbar (fun v => dz (fun y =>
          ((Real.log (etaAt A h ps (affineToHom (φ y) (p : ℕ))) : ℝ) : ℂ)) r v) s x := by
  have hloc : LocalCoordinates A.variety (.vec ps) (p : ℕ) d φ x := by
    filter_upwards [hc.par] with y hy
    refine ⟨hy.1, hy.2.1, ?_⟩
    rw [hF.defining p, ← eval_dehom, hy.2.2]
  obtain ⟨R, h1, h2⟩ := C108_eta hF h hh hB hk p d φ x hloc _ (hF.grad p (φ x)) hc.ne
  refine ⟨R, h1, fun r s => ?_⟩
  rw [h2, levi_congr]
  filter_upwards [hc.eventually] with y hy
  obtain ⟨e1, e2, -⟩ := eta_affine_value hsm hF hB hk h hh p (φ y) hy.zero
  rw [e2]
  simp [onOk, abs_of_pos e1]

omit hB hk hh hsm in
/-- Homogeneous coordinates and affine coordinates of the same point. -/
theorem etaAt_affine (Z : Fin (n + 2) → ℂ) (p : Fin (n + 2)) (hp : Z p ≠ 0) :
    etaAt A h ps (affineToHom (homToAffine Z (p : ℕ)) (p : ℕ)) = etaAt A h ps Z := by
  rw [C16_roundtrip Z p hp, ← etaAt_smul hF h (Z p)⁻¹ (inv_ne_zero hp) Z]
  congr 1
  funext i
  simp [div_eq_inv_mul]

omit hB hk hh in
/-- Every point of the hypersurface lies in a chart, and all points nearby are seen in it. -/
theorem near_chart (Z₀ : Fin (n + 2) → ℂ) (hZ : Z₀ ≠ 0) (h0 : eval Z₀ F = 0) :
    ∃ (p : Fin (n + 2)) (d : Fin (n + 1)) (φ : (Fin n → ℂ) → Fin (n + 1) → ℂ) (x : Fin n → ℂ)
      (κ : (Fin (n + 2) → ℂ) → Fin n → ℂ), Chart F p d φ x ∧ ContinuousAt κ Z₀ ∧ κ Z₀ = x ∧
      ∀ᶠ Z in 𝓝 Z₀, eval Z F = 0 → etaAt A h ps Z = etaAt A h ps (affineToHom (φ (κ Z)) (p : ℕ)) := by
  obtain ⟨p, hp⟩ : ∃ p, Z₀ p ≠ 0 := by
    by_contra! hcon
    exact hZ (funext hcon)
  have haff : ∀ Z : Fin (n + 2) → ℂ, Z p ≠ 0 → eval Z F = 0 → eval (affineToHom (homToAffine Z (p : ℕ)) (p : ℕ)) F = 0 := by
    intro Z hZp hZ0
    rw [C16_roundtrip Z p hZp, show (fun i => Z i / Z p) = fun i => (Z p)⁻¹ * Z i from funext fun i => by ring,
      eval_smul_homogeneous hF.homogeneous, hZ0, mul_zero]
  obtain ⟨d, hd⟩ := smooth_affine hF.homogeneous Z₀ h0 (hsm Z₀ hZ h0) p hp
  obtain ⟨φ, hc, hφ, hnear⟩ := exists_chart (homToAffine Z₀ (p : ℕ)) (haff Z₀ hp h0) hd
  have hcont : ContinuousAt (fun Z : Fin (n + 2) → ℂ => homToAffine Z (p : ℕ)) Z₀ := by
    refine continuousAt_pi.2 fun k => ?_
    simp only [homToAffine_apply]
    exact (continuous_apply _).continuousAt.div₀ (continuous_apply _).continuousAt hp
  refine ⟨p, d, φ, _, fun Z r => homToAffine Z (p : ℕ) (d.succAbove r), hc, ?_, rfl, ?_⟩
  · exact continuousAt_pi.2 fun r => (continuous_apply _).continuousAt.comp hcont
  · filter_upwards [hcont.eventually hnear, (continuous_apply p).continuousAt.eventually_ne hp] with Z h1 h2 h3
    rw [h1 (haff Z h2 h3), etaAt_affine hF h Z p h2]

/-- `eta` is continuous on the hypersurface. -/
theorem continuousOn_etaAt : ContinuousOn (fun Z => Real.log (etaAt A h ps Z)) {Z | Z ≠ 0 ∧ eval Z F = 0} := by
  intro Z₀ hZ₀
  obtain ⟨p, d, φ, x, κ, hc, hκ, hx, hnear⟩ := near_chart hsm hF h Z₀ hZ₀.1 hZ₀.2
  have h1 := (hc.log_smooth (l := 0) hsm hF hB hk h hh).continuousAt
  rw [← hx] at h1
  have h2 : ContinuousAt (fun Z => Real.log (etaAt A h ps (affineToHom (φ (κ Z)) (p : ℕ)))) Z₀ :=
    ContinuousAt.comp (g := fun y => Real.log (etaAt A h ps (affineToHom (φ y) (p : ℕ)))) h1 hκ
  refine h2.continuousWithinAt.congr_of_eventuallyEq ?_ ?_
  · filter_upwards [mem_nhdsWithin_of_mem_nhds hnear, self_mem_nhdsWithin] with Z h3 h4
    rw [h3 h4.2]
  · rw [hnear.self_of_nhds hZ₀.2]

/-- If `eta` is constant almost everywhere, then it is constant. -/
theorem const_of_ae {c : ℝ} (hc : ∀ (p : Fin (n + 2)) (d : Fin (n + 1)), ∀ᵐ Z ∂cyMeasure p d F, etaAt A h ps Z = c)
    (Z₀ : Fin (n + 2) → ℂ) (hZ : Z₀ ≠ 0) (h0 : eval Z₀ F = 0) : etaAt A h ps Z₀ = c := by
  obtain ⟨p, d, φ, x, κ, hch, hκ, hx, hnear⟩ := near_chart hsm hF h Z₀ hZ h0
  have hms : MeasurableSet {Z | etaAt A h ps Z = c} := measurableSet_eq_fun (measurable_etaAt hF h hB) measurable_const
  have hmρ : Measurable fun Z : Fin (n + 2) → ℂ => 1 / ‖eval Z (pderiv (p.succAbove d) F)‖ ^ 2 := by
    have := (MvPolynomial.continuous_eval (pderiv (p.succAbove d) F)).measurable
    fun_prop
  have hae : ∀ᵐ w : Fin n → ℂ, ∀ y : ℂ, hpoint p d 1 y w ∈ regularSet p d F → etaAt A h ps (hpoint p d 1 y w) = c := by
    filter_upwards [Measure.ae_ae_of_ae_bind (measurable_sheet p d F hmρ).aemeasurable (hc p d)] with w hw y hy
    have h1 := (Measure.ae_sum_iff' hms).1 hw y
    rw [indicator_of_mem hy] at h1
    have hpos : ENNReal.ofReal (1 / ‖eval (hpoint p d 1 y w) (pderiv (p.succAbove d) F)‖ ^ 2) ≠ 0 := by
      have := norm_pos_iff.2 hy.2
      rw [Ne, ENNReal.ofReal_eq_zero, not_le]
      positivity
    rw [Measure.ae_ennreal_smul_measure_iff hpos, ae_dirac_iff hms] at h1
    exact h1
  have hdense := Measure.dense_of_ae hae
  have hcont := (hch.log_smooth (l := 0) hsm hF hB hk h hh).continuousAt
  obtain ⟨hpos, -⟩ := eta_affine_value hsm hF hB hk h hh p (φ x) hch.zero
  have hlog : Real.log (etaAt A h ps (affineToHom (φ x) (p : ℕ))) = Real.log c := by
    by_contra hne
    obtain ⟨w, ⟨hw1, hw2⟩, hw3⟩ := mem_closure_iff_nhds.1 (hdense x) _ ((hcont.eventually_ne hne).and hch.eventually)
    obtain ⟨e1, e2⟩ := hw2.regular
    refine hw1 ?_
    rw [e1, hw3 _ e2]
  have hcpos : 0 < c := by
    obtain ⟨w, hw2, hw3⟩ := mem_closure_iff_nhds.1 (hdense x) _ hch.eventually
    obtain ⟨e1, e2⟩ := Chart.regular hw2
    rw [← hw3 _ e2, ← e1]
    exact (eta_affine_value hsm hF hB hk h hh p (φ w) (Chart.zero hw2)).1
  rw [hnear.self_of_nhds h0, hx]
  exact Real.log_injOn_pos hpos hcpos hlog

/-- If `eta` is constant, then the curvature vanishes. -/
theorem flat_of_const {c : ℝ} (hc : ∀ Z, Z ≠ 0 → eval Z F = 0 → etaAt A h ps Z = c) (p : Fin (n + 2)) (d : Fin (n + 1))
    (z : Fin (n + 1) → ℂ) (h0 : eval (affineToHom z (p : ℕ)) F = 0) (hd : eval z (pderiv d (dehom p F)) ≠ 0) :
    A.ricci h (List.ofFn z) (.vec ps) (some (p : ℕ)) (some (d : ℕ)) none = .ok (0, (p : ℕ), ((d : ℕ) : ℤ)) := by
  obtain ⟨φ, hch, hφ, -⟩ := exists_chart z h0 hd
  obtain ⟨R, h1, h2⟩ := hch.ricci hsm hF hB hk h hh
  rw [hφ] at h1
  have h3 : R = 0 := by
    ext r s
    rw [h2, levi_congr (g := fun _ => ((Real.log c : ℝ) : ℂ))]
    · simp [dz, dzbar]
    · filter_upwards [hch.eventually] with y hy
      rw [hc _ (affine_ne_zero _ _) hy.zero]
  rw [h1, h3]

/-- A local maximum principle for `log eta` (or its negative) on the charts makes `eta` constant. -/
theorem const_of_local (hn : n ≠ 0) (σ : ℝ) (hσ : σ ≠ 0)
    (hloc : ∀ (p : Fin (n + 2)) (d : Fin (n + 1)) (φ : (Fin n → ℂ) → Fin (n + 1) → ℂ) (x : Fin n → ℂ), Chart F p d φ x →
      (∀ᶠ y in 𝓝 x, σ * Real.log (etaAt A h ps (affineToHom (φ y) (p : ℕ))) ≤
        σ * Real.log (etaAt A h ps (affineToHom (φ x) (p : ℕ)))) →
      ∀ᶠ y in 𝓝 x, σ * Real.log (etaAt A h ps (affineToHom (φ y) (p : ℕ))) =
        σ * Real.log (etaAt A h ps (affineToHom (φ x) (p : ℕ)))) :
    ∃ c, ∀ Z, Z ≠ 0 → eval Z F = 0 → etaAt A h ps Z = c := by
  have hom := hF.homogeneous
  set X : Set (Fin (n + 2) → ℂ) := {Z | Z ≠ 0 ∧ eval Z F = 0} with hX
  set L : (Fin (n + 2) → ℂ) → ℝ := fun Z => σ * Real.log (etaAt A h ps Z) with hL
  have hcont : ContinuousOn L X := continuousOn_const.mul (continuousOn_etaAt hsm hF hB hk h hh)
  rcases X.eq_empty_or_nonempty with hemp | ⟨Z₁, hZ₁⟩
  · refine ⟨0, fun Z hZ h0 => ?_⟩
    have : Z ∈ X := ⟨hZ, h0⟩
    rw [hemp] at this
    exact absurd this (notMem_empty _)
  have hscale : ∀ Z ∈ X, (‖Z‖⁻¹ : ℂ) • Z ∈ X ∩ Metric.sphere 0 1 ∧ L ((‖Z‖⁻¹ : ℂ) • Z) = L Z := by
    intro Z hZ
    have hnz : (‖Z‖ : ℂ) ≠ 0 := by exact_mod_cast norm_ne_zero_iff.2 hZ.1
    refine ⟨⟨⟨smul_ne_zero (inv_ne_zero hnz) hZ.1, ?_⟩, ?_⟩, ?_⟩
    · have := eval_smul_homogeneous hom (‖Z‖⁻¹ : ℂ) Z
      rw [hZ.2, mul_zero] at this
      exact this
    · rw [mem_sphere_zero_iff_norm, norm_smul, norm_inv, Complex.norm_real, norm_norm,
        inv_mul_cancel₀ (norm_ne_zero_iff.2 hZ.1)]
    · simp only [hL]
      rw [etaAt_smul hF h _ (inv_ne_zero hnz)]
  have hcompact : IsCompact (X ∩ Metric.sphere 0 1) := by
    have heq : X ∩ Metric.sphere 0 1 = {Z | eval Z F = 0} ∩ Metric.sphere 0 1 := by
      ext Z
      refine ⟨fun hZ => ⟨hZ.1.2, hZ.2⟩, fun hZ => ⟨⟨fun h0 => ?_, hZ.1⟩, hZ.2⟩⟩
      have := hZ.2
      rw [h0] at this
      simp at this
    rw [heq]
    exact (isCompact_sphere 0 1).inter_left (isClosed_singleton.preimage (MvPolynomial.continuous_eval F))
  obtain ⟨M, hM, hmax⟩ := hcompact.exists_isMaxOn ⟨_, (hscale Z₁ hZ₁).1⟩ (hcont.mono inter_subset_left)
  have hle : ∀ Z ∈ X, L Z ≤ L M := fun Z hZ => by
    rw [← (hscale Z hZ).2]
    exact hmax (hscale Z hZ).1
  have hlocal : ∀ Z₀ ∈ X, L Z₀ = L M → ∀ᶠ Z in 𝓝 Z₀, eval Z F = 0 → L Z = L M := by
    intro Z₀ hZ₀ hLZ
    obtain ⟨p, d, φ, x, κ, hch, hκ, hx, hnear⟩ := near_chart hsm hF h Z₀ hZ₀.1 hZ₀.2
    have hLx : σ * Real.log (etaAt A h ps (affineToHom (φ x) (p : ℕ))) = L M := by
      rw [← hLZ, ← hx]
      simp only [hL]
      rw [hnear.self_of_nhds hZ₀.2]
    have key := hloc p d φ x hch (hch.eventually.mono fun y hy => by
      rw [hLx]
      exact hle _ ⟨affine_ne_zero _ _, hy.zero⟩)
    have hκ' : Tendsto κ (𝓝 Z₀) (𝓝 x) := by rw [← hx]; exact hκ
    filter_upwards [hκ'.eventually key, hnear] with Z h1 h2 h3
    simp only [hL]
    rw [h2 h3, h1, hLx]
  have hpre : PreconnectedSpace X := isPreconnected_iff_preconnectedSpace.1
    (cone_connected (smooth_irreducible (by omega) hom (by omega) hsm) hom (by omega))
  have hclopen : IsClopen {Z : X | L Z = L M} := by
    refine ⟨isClosed_eq (continuousOn_iff_continuous_domRestrict.1 hcont) continuous_const, ?_⟩
    rw [isOpen_iff_mem_nhds]
    intro Z hZ
    filter_upwards [continuous_subtype_val.continuousAt.eventually (hlocal Z Z.2 hZ)] with Z' hZ'
    exact hZ' Z'.2.2
  have huniv : {Z : X | L Z = L M} = univ := by
    refine (isClopen_iff.1 hclopen).resolve_left fun hemp => ?_
    have : (⟨M, hM.1⟩ : X) ∈ {Z : X | L Z = L M} := rfl
    rw [hemp] at this
    exact this
  refine ⟨etaAt A h ps M, fun Z hZ h0 => ?_⟩
  have h1 : (⟨Z, hZ, h0⟩ : X) ∈ {Z : X | L Z = L M} := by rw [huniv]; trivial
  exact Real.log_injOn_pos (etaAt_pos hF h hB hh hsm hk Z hZ h0).1 (etaAt_pos hF h hB hh hsm hk M hM.1.1 hM.1.2).1
    (mul_left_cancel₀ hσ h1)

/-- If the curvature vanishes, then `eta` is constant. -/
theorem const_of_flat (hn : n ≠ 0)
    (hflat : ∀ (p : Fin (n + 2)) (d : Fin (n + 1)) (z : Fin (n + 1) → ℂ), eval (affineToHom z (p : ℕ)) F = 0 →
      eval z (pderiv d (dehom p F)) ≠ 0 →
      A.ricci h (List.ofFn z) (.vec ps) (some (p : ℕ)) (some (d : ℕ)) none = .ok (0, (p : ℕ), ((d : ℕ) : ℤ))) :
    ∃ c, ∀ Z, Z ≠ 0 → eval Z F = 0 → etaAt A h ps Z = c := by
  refine const_of_local hsm hF hB hk h hh hn 1 one_ne_zero fun p d φ x hch hmax => ?_
  simp only [one_mul] at hmax ⊢
  exact levi_max (u := fun y => Real.log (etaAt A h ps (affineToHom (φ y) (p : ℕ)))) (x := x)
    (hch.eventually.mono fun y hy => hy.log_smooth hsm hF hB hk h hh)
    (hch.eventually.mono fun y hy r s => by
      obtain ⟨R, h1, h2⟩ := hy.ricci hsm hF hB hk h hh
      rw [hflat p d (φ y) hy.zero hy.ne] at h1
      injection h1 with h1
      have h3 : (0 : Matrix (Fin n) (Fin n) ℂ) = R := congrArg Prod.fst h1
      have h4 := h2 r s
      rw [← h3, Matrix.zero_apply] at h4
      exact neg_eq_zero.1 h4.symm) hmax

end Metric

end Cyjax
