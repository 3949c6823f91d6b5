import Verif.Lemmas.ChartChange
import Mathlib.Analysis.SpecialFunctions.SmoothTransition
import Verif.Lemmas.SheetMeasure

/-! # The integral of the volume density depends only on the class of the potential (for C153) -/

namespace Cyjax

open MeasureTheory MvPolynomial Cyjax.Spec Cyjax.Polynomial Cyjax.Variety Cyjax.Donaldson Cyjax.Projective Set Filter Topology
open scoped ContDiff ENNReal

variable {n e : ℕ} {F : MvPolynomial (Fin (n + 2)) ℂ}

/-! ## Closure properties -/

theorem ChartSmooth.add {l : WithTop ℕ∞} {K K' : (Fin (n + 2) → ℂ) → ℝ} (h : ChartSmooth F l K) (h' : ChartSmooth F l K') :
    ChartSmooth F l (fun Z => K Z + K' Z) := fun p d φ x hc => (h p d φ x hc).add (h' p d φ x hc)

theorem ChartSmooth.sub {l : WithTop ℕ∞} {K K' : (Fin (n + 2) → ℂ) → ℝ} (h : ChartSmooth F l K) (h' : ChartSmooth F l K') :
    ChartSmooth F l (fun Z => K Z - K' Z) := fun p d φ x hc => (h p d φ x hc).sub (h' p d φ x hc)

theorem ChartSmooth.mul {l : WithTop ℕ∞} {K K' : (Fin (n + 2) → ℂ) → ℝ} (h : ChartSmooth F l K) (h' : ChartSmooth F l K') :
    ChartSmooth F l (fun Z => K Z * K' Z) := fun p d φ x hc => (h p d φ x hc).mul (h' p d φ x hc)

theorem ChartSmooth.const {l : WithTop ℕ∞} (a : ℝ) : ChartSmooth F l (fun _ => a) := fun _ _ _ _ _ => contDiffAt_const

theorem ChartSmooth.sum {l : WithTop ℕ∞} {ι : Type*} (s : Finset ι) {K : ι → (Fin (n + 2) → ℂ) → ℝ} (h : ∀ i ∈ s, ChartSmooth F l (K i)) :
    ChartSmooth F l (fun Z => ∑ i ∈ s, K i Z) := fun p d φ x hc => ContDiffAt.sum fun i hi => h i hi p d φ x hc

theorem ChartSmooth.inv {l : WithTop ℕ∞} {K : (Fin (n + 2) → ℂ) → ℝ} (h : ChartSmooth F l K)
    (h0 : ∀ Z, Z ≠ 0 → eval Z F = 0 → K Z ≠ 0) : ChartSmooth F l (fun Z => (K Z)⁻¹) := fun p d φ x hc =>
  (h p d φ x hc).inv (h0 _ (affine_ne_zero _ _) hc.zero)

theorem ChartSmooth.of_le {l l' : WithTop ℕ∞} {K : (Fin (n + 2) → ℂ) → ℝ} (h : ChartSmooth F l' K) (hl : l ≤ l') :
    ChartSmooth F l K := fun p d φ x hc => (h p d φ x hc).of_le hl

theorem ChartSmooth.of_smooth {l : WithTop ℕ∞} {K : (Fin (n + 2) → ℂ) → ℝ} (h : ∀ Z, Z ≠ 0 → ContDiffAt ℝ l K Z) :
    ChartSmooth F l K := by
  intro p d φ x hc
  refine ContDiffAt.comp (g := K) x (h _ (affine_ne_zero _ _)) ?_
  rw [contDiffAt_pi]
  exact fun i => ((hc.hom_smooth i).restrict_scalars ℝ).of_le le_top

/-- Only the values on the hypersurface matter. -/
theorem volDensity_congr {K K' : (Fin (n + 2) → ℂ) → ℝ} (h : ∀ Z, Z ≠ 0 → eval Z F = 0 → K Z = K' Z) :
    volDensity F K = volDensity F K' := by
  funext Z
  unfold volDensity
  have : IsVol F K Z = IsVol F K' Z := by
    have hv : ∀ (p : Fin (n + 2)) (d : Fin (n + 1)) (φ : (Fin n → ℂ) → Fin (n + 1) → ℂ) (x : Fin n → ℂ), Chart F p d φ x →
        chartVol F K p d φ x = chartVol F K' p d φ x := by
      intro p d φ x hc
      unfold chartVol chartLevi
      congr 3
      ext r s
      refine levi_congr ?_ r s
      filter_upwards [hc.eventually] with y hy
      rw [h _ (affine_ne_zero _ _) hy.zero]
    funext v
    refine propext ⟨?_, ?_⟩
    · rintro ⟨p, d, φ, x, c', h1, h2, h3, h4⟩
      exact ⟨p, d, φ, x, c', h1, h2, h3, by rw [h4, hv p d φ x h2]⟩
    · rintro ⟨p, d, φ, x, c', h1, h2, h3, h4⟩
      exact ⟨p, d, φ, x, c', h1, h2, h3, by rw [h4, hv p d φ x h2]⟩
  rw [this]

/-! ## Integrals of functions supported in one chart -/

theorem cy_localise {p : Fin (n + 2)} {d : Fin (n + 1)} {φ : (Fin n → ℂ) → Fin (n + 1) → ℂ} {U : Set (Fin n → ℂ)}
    (hU : ∀ y ∈ U, Chart F p d φ y) {g : (Fin (n + 2) → ℂ) → ℝ} (hg : Measurable g)
    (h0 : ∀ Z, eval Z F = 0 → Z p = 1 → g Z ≠ 0 → ∃ y ∈ U, Z = affineToHom (φ y) (p : ℕ)) :
    ∫⁻ Z, ENNReal.ofReal (g Z) ∂cyMeasure p d F = ∫⁻ w, ENNReal.ofReal (U.indicator (fun w => g (affineToHom (φ w) (p : ℕ)) *
      (1 / ‖eval (affineToHom (φ w) (p : ℕ)) (pderiv (p.succAbove d) F)‖ ^ 2)) w) := by
  have hρ : Measurable fun Z : Fin (n + 2) → ℂ => 1 / ‖eval Z (pderiv (p.succAbove d) F)‖ ^ 2 :=
    measurable_const.div (((MvPolynomial.continuous_eval _).norm.pow 2).measurable)
  rw [cyMeasure, lintegral_sheetMeasure p d F hρ hg.ennreal_ofReal]
  refine lintegral_congr fun w => ?_
  have hkey : ∀ y, hpoint p d 1 y w ∈ regularSet p d F → g (hpoint p d 1 y w) ≠ 0 → w ∈ U ∧ y = φ w d := by
    intro y hy hg0
    obtain ⟨w', hw', he⟩ := h0 _ hy.1 (hpoint_p p d 1 y w) hg0
    have h1 := (hU w' hw').regular.1
    rw [h1] at he
    have hw : w = w' := by
      funext k
      have := congrFun he (p.succAbove (d.succAbove k))
      rwa [hpoint_w, hpoint_w] at this
    subst hw
    refine ⟨hw', ?_⟩
    have := congrFun he (p.succAbove d)
    rwa [hpoint_d, hpoint_d] at this
  by_cases hw : w ∈ U
  · obtain ⟨h1, h2⟩ := (hU w hw).regular
    rw [indicator_of_mem hw, tsum_eq_single (φ w d), indicator_of_mem h2, h1, ENNReal.ofReal_mul' (by positivity)]
    intro y hy
    by_cases hr : hpoint p d 1 y w ∈ regularSet p d F
    · rw [indicator_of_mem hr]
      have : g (hpoint p d 1 y w) = 0 := by
        by_contra hne
        exact hy (hkey y hr hne).2
      rw [this, ENNReal.ofReal_zero, zero_mul]
    · rw [indicator_of_notMem hr]
  · rw [indicator_of_notMem hw, ENNReal.ofReal_zero, ENNReal.tsum_eq_zero]
    intro y
    by_cases hr : hpoint p d 1 y w ∈ regularSet p d F
    · rw [indicator_of_mem hr]
      have : g (hpoint p d 1 y w) = 0 := by
        by_contra hne
        exact hw (hkey y hr hne).1
      rw [this, ENNReal.ofReal_zero, zero_mul]
    · rw [indicator_of_notMem hr]

theorem cy_localise_integral {p : Fin (n + 2)} {d : Fin (n + 1)} {φ : (Fin n → ℂ) → Fin (n + 1) → ℂ} {U : Set (Fin n → ℂ)}
    (hU : ∀ y ∈ U, Chart F p d φ y) {g : (Fin (n + 2) → ℂ) → ℝ} (hg : Measurable g)
    (h0 : ∀ Z, eval Z F = 0 → Z p = 1 → g Z ≠ 0 → ∃ y ∈ U, Z = affineToHom (φ y) (p : ℕ))
    (hi : Integrable g (cyMeasure p d F))
    (hi' : Integrable (U.indicator fun w => g (affineToHom (φ w) (p : ℕ)) *
      (1 / ‖eval (affineToHom (φ w) (p : ℕ)) (pderiv (p.succAbove d) F)‖ ^ 2))) :
    ∫ Z, g Z ∂cyMeasure p d F = ∫ w, U.indicator (fun w => g (affineToHom (φ w) (p : ℕ)) *
      (1 / ‖eval (affineToHom (φ w) (p : ℕ)) (pderiv (p.succAbove d) F)‖ ^ 2)) w := by
  rw [integral_eq_lintegral_pos_part_sub_lintegral_neg_part hi, integral_eq_lintegral_pos_part_sub_lintegral_neg_part hi',
    cy_localise hU hg h0, cy_localise (g := fun Z => -g Z) hU hg.neg fun Z h1 h2 h3 => h0 Z h1 h2 (neg_ne_zero.1 h3)]
  congr 4
  funext w
  by_cases hw : w ∈ U
  · rw [indicator_of_mem hw, indicator_of_mem hw, neg_mul]
  · rw [indicator_of_notMem hw, indicator_of_notMem hw, neg_zero]

/-! ## A change of the potential in one chart -/

section Change

variable (hom : F.IsHomogeneous e) (hsm : SmoothHypersurface F) (hvol : HasVolume F)
  (hfin : ∀ (p : Fin (n + 2)) (d : Fin (n + 1)), cyMeasure p d F univ ≠ ⊤)

include hom hsm hvol hfin

theorem volDensity_integrable {K : (Fin (n + 2) → ℂ) → ℝ} {a : ℝ} (hK : ChartSmooth F 2 K) (ha : LogHomogeneous F a K)
    (p : Fin (n + 2)) (d : Fin (n + 1)) : Integrable (volDensity F K) (cyMeasure p d F) := by
  obtain ⟨M, hM⟩ := volDensity_bounded hom hvol hK ha hsm
  have : IsFiniteMeasure (cyMeasure p d F) := ⟨lt_top_iff_ne_top.2 (hfin p d)⟩
  exact Integrable.of_bound (volDensity_measurable hom hvol hK ha hsm).aestronglyMeasurable M (Eventually.of_forall hM)

theorem volDensity_change {p : Fin (n + 2)} {d : Fin (n + 1)} {φ : (Fin n → ℂ) → Fin (n + 1) → ℂ} {U C : Set (Fin n → ℂ)}
    (hUo : IsOpen U) (hU : ∀ y ∈ U, Chart F p d φ y) (hC : IsCompact C) (hCU : C ⊆ U) {K u : (Fin (n + 2) → ℂ) → ℝ} {a : ℝ}
    (hK : ChartSmooth F 3 K) (ha : LogHomogeneous F a K) (hu : ChartSmooth F 3 u) (hu0 : LogHomogeneous F 0 u)
    (hs : ∀ Z, Z ≠ 0 → eval Z F = 0 → u Z ≠ 0 → Z p ≠ 0 ∧ ∃ y ∈ C, (Z p)⁻¹ • Z = affineToHom (φ y) (p : ℕ)) :
    ∫ Z, volDensity F (fun Z => K Z + u Z) Z ∂cyMeasure p d F = ∫ Z, volDensity F K Z ∂cyMeasure p d F := by
  classical
  have hK2 := hK.of_le (l := 2) (by norm_num)
  have hKu := hK.add hu
  have hKu2 := hKu.of_le (l := 2) (by norm_num)
  have hau : LogHomogeneous F a (fun Z => K Z + u Z) := by
    intro Z hZ h0 c hc
    dsimp only
    rw [ha Z hZ h0 c hc, hu0 Z hZ h0 c hc]
    ring
  have hi1 := volDensity_integrable hom hsm hvol hfin hKu2 hau p d
  have hi2 := volDensity_integrable hom hsm hvol hfin hK2 ha p d
  rw [← sub_eq_zero, ← integral_sub hi1 hi2]
  -- the difference vanishes outside of the chart
  have hsupp : ∀ Z, eval Z F = 0 → Z p = 1 → volDensity F (fun Z => K Z + u Z) Z - volDensity F K Z ≠ 0 →
      ∃ y ∈ U, Z = affineToHom (φ y) (p : ℕ) := by
    intro Z h0 hp
    contrapose!
    intro hno
    have hZ : Z ≠ 0 := by
      rintro rfl
      simp at hp
    have hcl : IsClosed ((fun y => affineToHom (φ y) (p : ℕ)) '' C) := by
      refine (hC.image_of_continuousOn fun y hy => ?_).isClosed
      exact (continuousAt_pi.2 fun i => ((hU y (hCU hy)).hom_smooth i).continuousAt).continuousWithinAt
    obtain ⟨d', hd'⟩ := smooth_affine hom Z h0 (hsm Z hZ h0) p (by rw [hp]; exact one_ne_zero)
    have haff : affineToHom (homToAffine Z (p : ℕ)) (p : ℕ) = Z := by
      rw [affine_homogeneous _ _ (by rw [hp]; exact one_ne_zero), hp, inv_one, one_smul]
    obtain ⟨φ', hc', hφ', -⟩ := exists_chart (homToAffine Z (p : ℕ)) (by rw [haff]; exact h0) hd'
    have hx' : affineToHom (φ' fun r => homToAffine Z (p : ℕ) (d'.succAbove r)) (p : ℕ) = (1 : ℂ) • Z := by
      rw [hφ', haff, one_smul]
    rw [volDensity_eq hom hvol hKu2 hau hc' one_ne_zero hx', volDensity_eq hom hvol hK2 ha hc' one_ne_zero hx', sub_eq_zero]
    have hev : ∀ᶠ y in 𝓝 (fun r => homToAffine Z (p : ℕ) (d'.succAbove r)), u (affineToHom (φ' y) (p : ℕ)) = 0 := by
      have hcont : ContinuousAt (fun y => affineToHom (φ' y) (p : ℕ)) (fun r => homToAffine Z (p : ℕ) (d'.succAbove r)) :=
        continuousAt_pi.2 fun i => (hc'.hom_smooth i).continuousAt
      have hnot : affineToHom (φ' fun r => homToAffine Z (p : ℕ) (d'.succAbove r)) (p : ℕ) ∈
          ((fun y => affineToHom (φ y) (p : ℕ)) '' C)ᶜ := by
        rw [hx', one_smul]
        rintro ⟨y, hy, he⟩
        exact hno y (hCU hy) he.symm
      filter_upwards [hcont (hcl.isOpen_compl.mem_nhds hnot), hc'.eventually] with y h1 h2
      by_contra hne
      obtain ⟨-, y', hy', he⟩ := hs _ (affine_ne_zero _ _) h2.zero hne
      rw [affineToHom_same, inv_one, one_smul] at he
      exact h1 ⟨y', hy', he.symm⟩
    unfold chartVol chartLevi
    congr 3
    ext r s
    refine levi_congr ?_ r s
    filter_upwards [hev] with y hy
    rw [hy, add_zero]
  -- the functions in the coordinates
  set κ : (Fin n → ℂ) → ℂ := fun y => ((K (affineToHom (φ y) (p : ℕ)) : ℝ) : ℂ) with hκdef
  set v : (Fin n → ℂ) → ℂ := U.indicator fun y => ((u (affineToHom (φ y) (p : ℕ)) : ℝ) : ℂ) with hvdef
  have hvU : ∀ y ∈ U, v y = ((u (affineToHom (φ y) (p : ℕ)) : ℝ) : ℂ) := fun y hy => indicator_of_mem hy _
  have hv0 : ∀ y, y ∉ C → v y = 0 := by
    intro y hyC
    by_cases hyU : y ∈ U
    · rw [hvU y hyU]
      by_contra hne
      have hne' : u (affineToHom (φ y) (p : ℕ)) ≠ 0 := fun h => hne (by rw [h, Complex.ofReal_zero])
      obtain ⟨-, y', hy', he⟩ := hs _ (affine_ne_zero _ _) (hU y hyU).zero hne'
      rw [affineToHom_same, inv_one, one_smul] at he
      have h1 : φ y = φ y' := by
        have := congrArg (fun Z => homToAffine Z (p : ℕ)) he
        simpa only [C15_roundtrip] using this
      have h2 : y = y' := by
        funext r
        rw [← (hU y hyU).par.self_of_nhds.2.1 r, ← (hU y' (hCU hy')).par.self_of_nhds.2.1 r, h1]
      exact hyC (h2 ▸ hy')
    · exact indicator_of_notMem hyU _
  have hvs : tsupport v ⊆ U := by
    refine (closure_minimal (fun y hy => ?_) hC.isClosed).trans hCU
    by_contra hyC
    exact hy (hv0 y hyC)
  have hev : ∀ y ∈ U, v =ᶠ[𝓝 y] fun y => ((u (affineToHom (φ y) (p : ℕ)) : ℝ) : ℂ) := by
    intro y hy
    filter_upwards [hUo.mem_nhds hy] with w hw using hvU w hw
  have hκ3 : ∀ y ∈ U, ContDiffAt ℝ 3 κ y := fun y hy =>
    Complex.ofRealCLM.contDiff.contDiffAt.comp y (hK p d φ y (hU y hy))
  have hv3 : ∀ y ∈ U, ContDiffAt ℝ 3 v y := by
    intro y hy
    refine ContDiffAt.congr_of_eventuallyEq ?_ (hev y hy)
    exact Complex.ofRealCLM.contDiff.contDiffAt.comp y (hu p d φ y (hU y hy))
  obtain ⟨hint, hzero⟩ := integral_levi_change hκ3 hv3 (HasCompactSupport.intro hC hv0) hvs
  have hfun : (U.indicator fun w => (volDensity F (fun Z => K Z + u Z) (affineToHom (φ w) (p : ℕ)) -
      volDensity F K (affineToHom (φ w) (p : ℕ))) *
      (1 / ‖eval (affineToHom (φ w) (p : ℕ)) (pderiv (p.succAbove d) F)‖ ^ 2)) =
      fun w => (U.indicator (fun y => (levi (fun y => κ y + v y) y).det - (levi κ y).det) w).re := by
    funext w
    by_cases hw : w ∈ U
    · rw [indicator_of_mem hw, indicator_of_mem hw]
      have hc := hU w hw
      rw [volDensity_eq hom hvol hKu2 hau hc one_ne_zero (one_smul _ _).symm,
        volDensity_eq hom hvol hK2 ha hc one_ne_zero (one_smul _ _).symm]
      have hne : ‖eval (affineToHom (φ w) (p : ℕ)) (pderiv (p.succAbove d) F)‖ ^ 2 ≠ 0 := by
        obtain ⟨h1, h2⟩ := hc.regular
        rw [h1]
        exact pow_ne_zero 2 (norm_ne_zero_iff.2 h2.2)
      have hl : chartLevi (fun Z => K Z + u Z) p φ w = levi (fun y => κ y + v y) w := by
        ext r s
        refine levi_congr ?_ r s
        filter_upwards [hev w hw] with y hy
        rw [hy, hκdef, Complex.ofReal_add]
      unfold chartVol
      rw [hl, ← mul_sub, mul_one_div, mul_div_cancel_left₀ _ hne, Complex.sub_re]
      rfl
    · rw [indicator_of_notMem hw, indicator_of_notMem hw, Complex.zero_re]
  rw [cy_localise_integral (g := fun Z => volDensity F (fun Z => K Z + u Z) Z - volDensity F K Z) hU
    ((volDensity_measurable hom hvol hKu2 hau hsm).sub (volDensity_measurable hom hvol hK2 ha hsm)) hsupp (hi1.sub hi2)
    (by rw [hfun]; exact hint.re), hfun]
  have := integral_re hint
  rw [hzero] at this
  exact this

end Change

/-! ## Bumps -/

/-- A function on projective space that is positive at the point `b` with `b_p = 1` and vanishes unless all affine
coordinates differ by less than `ε`. -/
noncomputable def bump (p : Fin (n + 2)) (b : Fin (n + 2) → ℂ) (ε : ℝ) (Z : Fin (n + 2) → ℂ) : ℝ :=
  Real.smoothTransition ((ε ^ 2 * ‖Z p‖ ^ 2 - ∑ i, ‖Z i - b i * Z p‖ ^ 2) / ∑ i, ‖Z i‖ ^ 2)

theorem sum_norm_pos {Z : Fin (n + 2) → ℂ} (hZ : Z ≠ 0) : 0 < ∑ i, ‖Z i‖ ^ 2 := by
  obtain ⟨i, hi⟩ := Function.ne_iff.1 hZ
  exact Finset.sum_pos' (fun _ _ => by positivity) ⟨i, Finset.mem_univ _, by have := norm_pos_iff.2 hi; positivity⟩

theorem bump_smooth (p : Fin (n + 2)) (b : Fin (n + 2) → ℂ) (ε : ℝ) (Z : Fin (n + 2) → ℂ) (hZ : Z ≠ 0) :
    ContDiffAt ℝ 3 (bump p b ε) Z := by
  have hx : ∀ i : Fin (n + 2), ContDiff ℝ 3 fun Z : Fin (n + 2) → ℂ => Z i := fun i => contDiff_apply ℝ ℂ i
  refine (Real.smoothTransition.contDiff (n := 3)).contDiffAt.comp Z (ContDiffAt.div ?_ ?_ (sum_norm_pos hZ).ne')
  · refine (((contDiff_const.mul ((hx p).norm_sq ℝ)).sub (ContDiff.sum fun i _ => ?_))).contDiffAt
    exact ((hx i).sub (contDiff_const.mul (hx p))).norm_sq ℝ
  · exact (ContDiff.sum fun i _ => (hx i).norm_sq ℝ).contDiffAt

theorem bump_smul (p : Fin (n + 2)) (b : Fin (n + 2) → ℂ) (ε : ℝ) (c : ℂ) (hc : c ≠ 0) (Z : Fin (n + 2) → ℂ) :
    bump p b ε (c • Z) = bump p b ε Z := by
  unfold bump
  congr 1
  have h1 : ∀ i, ‖(c • Z) i - b i * (c • Z) p‖ ^ 2 = ‖c‖ ^ 2 * ‖Z i - b i * Z p‖ ^ 2 := by
    intro i
    rw [← mul_pow, ← norm_mul, Pi.smul_apply, Pi.smul_apply, smul_eq_mul, smul_eq_mul]
    congr 2
    ring
  have h2 : ∀ i, ‖(c • Z) i‖ ^ 2 = ‖c‖ ^ 2 * ‖Z i‖ ^ 2 := by
    intro i
    rw [Pi.smul_apply, smul_eq_mul, norm_mul, mul_pow]
  simp only [h1, h2, ← Finset.mul_sum]
  rw [mul_left_comm, ← mul_sub, mul_div_mul_left _ _ (pow_ne_zero 2 (norm_ne_zero_iff.2 hc))]

theorem bump_nonneg (p : Fin (n + 2)) (b : Fin (n + 2) → ℂ) (ε : ℝ) (Z : Fin (n + 2) → ℂ) : 0 ≤ bump p b ε Z :=
  Real.smoothTransition.nonneg _

theorem bump_pos (p : Fin (n + 2)) (b : Fin (n + 2) → ℂ) (hb : b p = 1) {ε : ℝ} (hε : ε ≠ 0) : 0 < bump p b ε b := by
  have hne : b ≠ 0 := by
    rintro rfl
    simp at hb
  refine Real.smoothTransition.pos_of_pos (div_pos ?_ (sum_norm_pos hne))
  simp only [hb, mul_one, sub_self, norm_zero, norm_one]
  simp only [ne_eq, OfNat.ofNat_ne_zero, not_false_eq_true, zero_pow, Finset.sum_const_zero, one_pow, mul_one, sub_zero]
  positivity

theorem bump_support (p : Fin (n + 2)) (b : Fin (n + 2) → ℂ) {ε : ℝ} (hε : 0 < ε) {Z : Fin (n + 2) → ℂ} (hZ : Z ≠ 0)
    (h : bump p b ε Z ≠ 0) : Z p ≠ 0 ∧ (Z p)⁻¹ • Z ∈ Metric.ball b ε := by
  have h1 : ∑ i, ‖Z i - b i * Z p‖ ^ 2 < ε ^ 2 * ‖Z p‖ ^ 2 := by
    by_contra hcon
    refine h (Real.smoothTransition.zero_of_nonpos (div_nonpos_of_nonpos_of_nonneg ?_ (sum_norm_pos hZ).le))
    linarith
  have hp : Z p ≠ 0 := by
    intro hp
    rw [hp, norm_zero] at h1
    have : 0 ≤ ∑ i, ‖Z i - b i * 0‖ ^ 2 := Finset.sum_nonneg fun _ _ => by positivity
    linarith [show ε ^ 2 * 0 ^ 2 = 0 by ring]
  refine ⟨hp, ?_⟩
  rw [mem_ball_iff_norm, pi_norm_lt_iff hε]
  intro i
  have h2 : ‖Z i - b i * Z p‖ ^ 2 ≤ ∑ i, ‖Z i - b i * Z p‖ ^ 2 :=
    Finset.single_le_sum (f := fun i => ‖Z i - b i * Z p‖ ^ 2) (fun _ _ => by positivity) (Finset.mem_univ i)
  have h3 : ‖Z i - b i * Z p‖ < ε * ‖Z p‖ := by
    refine lt_of_pow_lt_pow_left₀ 2 (by positivity) ?_
    rw [mul_pow]
    linarith
  have h4 : ((Z p)⁻¹ • Z - b) i = (Z p)⁻¹ * (Z i - b i * Z p) := by
    rw [Pi.sub_apply, Pi.smul_apply, smul_eq_mul, mul_sub, mul_comm (b i), inv_mul_cancel_left₀ hp]
  rw [h4, norm_mul, norm_inv, inv_mul_lt_iff₀ (norm_pos_iff.2 hp), mul_comm ‖Z p‖]
  exact h3

/-! ## The partition -/

/-- A bump that is supported in one chart. -/
theorem bump_chart (hom : F.IsHomogeneous e) (hsm : SmoothHypersurface F) (Z₀ : Fin (n + 2) → ℂ) (hZ : Z₀ ≠ 0) (h0 : eval Z₀ F = 0) :
    ∃ (p : Fin (n + 2)) (d : Fin (n + 1)) (φ : (Fin n → ℂ) → Fin (n + 1) → ℂ) (U C : Set (Fin n → ℂ)) (f : (Fin (n + 2) → ℂ) → ℝ),
      IsOpen U ∧ (∀ y ∈ U, Chart F p d φ y) ∧ IsCompact C ∧ C ⊆ U ∧ (∀ Z, Z ≠ 0 → ContDiffAt ℝ 3 f Z) ∧
      (∀ c : ℂ, c ≠ 0 → ∀ Z, f (c • Z) = f Z) ∧ (∀ Z, 0 ≤ f Z) ∧ 0 < f Z₀ ∧
      ∀ Z, Z ≠ 0 → eval Z F = 0 → f Z ≠ 0 → Z p ≠ 0 ∧ ∃ y ∈ C, (Z p)⁻¹ • Z = affineToHom (φ y) (p : ℕ) := by
  obtain ⟨p, d, φ, hp, hc, hnear⟩ := chart_at hom hsm Z₀ hZ h0
  set x : Fin n → ℂ := fun r => homToAffine Z₀ (p : ℕ) (d.succAbove r) with hx
  set b : Fin (n + 2) → ℂ := (Z₀ p)⁻¹ • Z₀ with hb
  have hbp : b p = 1 := by rw [hb, Pi.smul_apply, smul_eq_mul, inv_mul_cancel₀ hp]
  -- the chart contains a closed ball
  have hUo : IsOpen (interior {y | Chart F p d φ y}) := isOpen_interior
  have hxU : x ∈ interior {y | Chart F p d φ y} := mem_interior_iff_mem_nhds.2 hc.eventually
  obtain ⟨r, hr, hrU⟩ := Metric.nhds_basis_closedBall.mem_iff.1 (hUo.mem_nhds hxU)
  -- a neighbourhood of the point is seen in the chart
  have hκ : ContinuousAt (fun Z : Fin (n + 2) → ℂ => fun r => homToAffine Z (p : ℕ) (d.succAbove r)) Z₀ :=
    continuousAt_pi.2 fun r => (continuous_apply _).continuousAt.comp (continuousAt_homToAffine Z₀ p hp)
  have hN : ∀ᶠ Z in 𝓝 Z₀, (eval Z F = 0 → affineToHom (φ fun r => homToAffine Z (p : ℕ) (d.succAbove r)) (p : ℕ) = (Z p)⁻¹ • Z) ∧
      (fun r => homToAffine Z (p : ℕ) (d.succAbove r)) ∈ Metric.closedBall x r :=
    hnear.and (hκ (Metric.closedBall_mem_nhds x hr))
  have hN' : ∀ᶠ W in 𝓝 b, (eval (Z₀ p • W) F = 0 →
      affineToHom (φ fun r => homToAffine (Z₀ p • W) (p : ℕ) (d.succAbove r)) (p : ℕ) = ((Z₀ p • W) p)⁻¹ • (Z₀ p • W)) ∧
      (fun r => homToAffine (Z₀ p • W) (p : ℕ) (d.succAbove r)) ∈ Metric.closedBall x r := by
    have h1 : Tendsto (fun W : Fin (n + 2) → ℂ => Z₀ p • W) (𝓝 b) (𝓝 Z₀) := by
      have := (continuous_const_smul (Z₀ p)).tendsto b
      rwa [hb, smul_smul, mul_inv_cancel₀ hp, one_smul] at this
    exact h1.eventually hN
  obtain ⟨ε, hε, hball⟩ := Metric.eventually_nhds_iff_ball.1 hN'
  refine ⟨p, d, φ, _, Metric.closedBall x r, bump p b ε, hUo, fun y hy => interior_subset hy, isCompact_closedBall x r, hrU,
    bump_smooth p b ε, fun c hc Z => bump_smul p b ε c hc Z, bump_nonneg p b ε, ?_, ?_⟩
  · have := bump_pos p b hbp hε.ne'
    rwa [show bump p b ε b = bump p b ε Z₀ by rw [hb]; exact bump_smul p _ ε _ (inv_ne_zero hp) Z₀] at this
  · intro Z hZ1 hZ0 hne
    obtain ⟨h1, h2⟩ := bump_support p b hε hZ1 hne
    obtain ⟨h3, h4⟩ := hball _ h2
    have hz : Z₀ p • (Z p)⁻¹ • Z = (Z₀ p * (Z p)⁻¹) • Z := smul_smul _ _ _
    have hne' : Z₀ p * (Z p)⁻¹ ≠ 0 := mul_ne_zero hp (inv_ne_zero h1)
    rw [hz] at h3 h4
    refine ⟨h1, _, h4, ?_⟩
    rw [h3 (eval_smul_zero hom _ _ hZ0), Pi.smul_apply, smul_smul, smul_eq_mul]
    congr 1
    field_simp

section Global

variable (hom : F.IsHomogeneous e) (hsm : SmoothHypersurface F) (hvol : HasVolume F)
  (hfin : ∀ (p : Fin (n + 2)) (d : Fin (n + 1)), cyMeasure p d F univ ≠ ⊤)
  (hinv : ∀ (p : Fin (n + 2)) (d : Fin (n + 1)) (p' : Fin (n + 2)) (d' : Fin (n + 1)) (f : (Fin (n + 2) → ℂ) → ℝ≥0∞), Measurable f →
    (∀ c : ℂ, c ≠ 0 → ∀ Z, f (c • Z) = f Z) → ∫⁻ Z, f Z ∂cyMeasure p d F = ∫⁻ Z, f Z ∂cyMeasure p' d' F)

include hom hsm hvol hfin hinv

theorem volDensity_patch {K : (Fin (n + 2) → ℂ) → ℝ} {a : ℝ} (hK : ChartSmooth F 2 K) (ha : LogHomogeneous F a K)
    (p p' : Fin (n + 2)) (d d' : Fin (n + 1)) :
    ∫ Z, volDensity F K Z ∂cyMeasure p d F = ∫ Z, volDensity F K Z ∂cyMeasure p' d' F := by
  have hm := volDensity_measurable hom hvol hK ha hsm
  rw [integral_eq_lintegral_pos_part_sub_lintegral_neg_part (volDensity_integrable hom hsm hvol hfin hK ha p d),
    integral_eq_lintegral_pos_part_sub_lintegral_neg_part (volDensity_integrable hom hsm hvol hfin hK ha p' d'),
    hinv p d p' d' (fun Z => ENNReal.ofReal (volDensity F K Z)) hm.ennreal_ofReal fun c hc Z => by rw [volDensity_smul c hc],
    hinv p d p' d' (fun Z => ENNReal.ofReal (-volDensity F K Z)) hm.neg.ennreal_ofReal fun c hc Z => by rw [volDensity_smul c hc]]

/-- The integral of the volume density is the same for all potentials with the same scaling. -/
theorem volDensity_integral {K K' : (Fin (n + 2) → ℂ) → ℝ} {a : ℝ} (hK : ChartSmooth F 3 K) (ha : LogHomogeneous F a K)
    (hK' : ChartSmooth F 3 K') (ha' : LogHomogeneous F a K') (p : Fin (n + 2)) (d : Fin (n + 1)) :
    ∫ Z, volDensity F K' Z ∂cyMeasure p d F = ∫ Z, volDensity F K Z ∂cyMeasure p d F := by
  classical
  have hX : ∀ Z : Fin (n + 2) → ℂ, Z ∈ {Z : Fin (n + 2) → ℂ | eval Z F = 0} ∩ Metric.sphere 0 1 → Z ≠ 0 ∧ eval Z F = 0 := by
    rintro Z ⟨h1, h2⟩
    refine ⟨?_, h1⟩
    rintro rfl
    simp at h2
  have hcompact : IsCompact ({Z : Fin (n + 2) → ℂ | eval Z F = 0} ∩ Metric.sphere 0 1) :=
    (isCompact_sphere 0 1).inter_left (isClosed_singleton.preimage (MvPolynomial.continuous_eval F))
  have hb := fun Z₀ : {Z : Fin (n + 2) → ℂ // Z ∈ {Z : Fin (n + 2) → ℂ | eval Z F = 0} ∩ Metric.sphere 0 1} =>
    bump_chart hom hsm Z₀.1 (hX _ Z₀.2).1 (hX _ Z₀.2).2
  choose P D Φ U C f h1 h2 h3 h4 h5 h6 h7 h8 h9 using hb
  obtain ⟨t, ht⟩ := hcompact.elim_finite_subcover_image (b := univ) (c := fun Z₀ => {Z | Z ≠ 0 ∧ 0 < f Z₀ Z}) (fun Z₀ _ => by
      rw [isOpen_iff_mem_nhds]
      rintro Z ⟨hZ1, hZ2⟩
      filter_upwards [isOpen_ne.mem_nhds hZ1, (h5 Z₀ Z hZ1).continuousAt.eventually (lt_mem_nhds hZ2)] with W hW1 hW2
      exact ⟨hW1, hW2⟩) (fun Z hZ => mem_iUnion₂.2 ⟨⟨Z, hZ⟩, mem_univ _, (hX Z hZ).1, h8 ⟨Z, hZ⟩⟩)
  obtain ⟨-, htf, hcov⟩ := ht
  set T := htf.toFinset with hT
  set S : (Fin (n + 2) → ℂ) → ℝ := fun Z => ∑ i ∈ T, f i Z with hS
  have hSpos : ∀ Z, Z ≠ 0 → eval Z F = 0 → 0 < S Z := by
    intro Z hZ h0
    have hnz : (‖Z‖⁻¹ : ℂ) ≠ 0 := by simpa using hZ
    have hmem : (‖Z‖⁻¹ : ℂ) • Z ∈ {Z : Fin (n + 2) → ℂ | eval Z F = 0} ∩ Metric.sphere 0 1 := by
      refine ⟨eval_smul_zero hom _ _ h0, ?_⟩
      rw [mem_sphere_zero_iff_norm, norm_smul, norm_inv, Complex.norm_real, norm_norm, inv_mul_cancel₀ (norm_ne_zero_iff.2 hZ)]
    obtain ⟨i, hi, -, hpos⟩ := mem_iUnion₂.1 (hcov hmem)
    rw [h6 i _ hnz] at hpos
    exact Finset.sum_pos' (fun j _ => h7 j Z) ⟨i, htf.mem_toFinset.2 hi, hpos⟩
  have hSsmooth : ChartSmooth F 3 S := ChartSmooth.sum T fun i _ => ChartSmooth.of_smooth (h5 i)
  have hSinv := hSsmooth.inv fun Z hZ h0 => (hSpos Z hZ h0).ne'
  have hSsmul : ∀ c : ℂ, c ≠ 0 → ∀ Z, S (c • Z) = S Z := fun c hc Z => Finset.sum_congr rfl fun i _ => h6 i c hc Z
  -- the difference of the potentials, cut into pieces
  set u := fun i => fun Z => f i Z * (S Z)⁻¹ * (K' Z - K Z) with hu
  have hus : ∀ i, ChartSmooth F 3 (u i) := fun i => ((ChartSmooth.of_smooth (h5 i)).mul hSinv).mul (hK'.sub hK)
  have hu0 : ∀ i, LogHomogeneous F 0 (u i) := by
    intro i Z hZ h0 c hc
    simp only [hu]
    rw [h6 i c hc, hSsmul c hc, ha Z hZ h0 c hc, ha' Z hZ h0 c hc]
    ring
  have hstep : ∀ s : Finset _, s ⊆ T → ChartSmooth F 3 (fun Z => K Z + ∑ i ∈ s, u i Z) ∧
      LogHomogeneous F a (fun Z => K Z + ∑ i ∈ s, u i Z) ∧
      ∫ Z, volDensity F (fun Z => K Z + ∑ i ∈ s, u i Z) Z ∂cyMeasure p d F = ∫ Z, volDensity F K Z ∂cyMeasure p d F := by
    intro s
    have hsmooth : ∀ s : Finset _, ChartSmooth F 3 (fun Z => K Z + ∑ i ∈ s, u i Z) := fun s =>
      hK.add (ChartSmooth.sum s fun i _ => hus i)
    have hlog : ∀ s : Finset _, LogHomogeneous F a (fun Z => K Z + ∑ i ∈ s, u i Z) := by
      intro s Z hZ h0 c hc
      dsimp only
      rw [ha Z hZ h0 c hc, Finset.sum_congr rfl fun i _ => hu0 i Z hZ h0 c hc]
      simp only [zero_mul, add_zero]
      ring
    induction s using Finset.induction_on with
    | empty =>
      intro _
      refine ⟨hsmooth _, hlog _, ?_⟩
      simp only [Finset.sum_empty, add_zero]
    | insert i s hi ih =>
      intro hsub
      refine ⟨hsmooth _, hlog _, ?_⟩
      rw [← (ih ((Finset.subset_insert i s).trans hsub)).2.2]
      have e1 : (fun Z => K Z + ∑ j ∈ insert i s, u j Z) = fun Z => (K Z + ∑ j ∈ s, u j Z) + u i Z := by
        funext Z
        rw [Finset.sum_insert hi]
        ring
      rw [volDensity_patch hom hsm hvol hfin hinv ((hsmooth (insert i s)).of_le (by norm_num)) (hlog _) p (P i) d (D i),
        volDensity_patch hom hsm hvol hfin hinv ((hsmooth s).of_le (by norm_num)) (hlog _) p (P i) d (D i), e1]
      refine volDensity_change hom hsm hvol hfin (h1 i) (h2 i) (h3 i) (h4 i) (hsmooth s) (hlog s) (hus i) (hu0 i) ?_
      intro Z hZ h0 hne
      exact h9 i Z hZ h0 fun hf => hne (by simp only [hu, hf, zero_mul])
  rw [← (hstep T subset_rfl).2.2]
  refine congrArg (fun g => ∫ Z, g Z ∂cyMeasure p d F) (volDensity_congr fun Z hZ h0 => ?_)
  have : ∑ i ∈ T, u i Z = K' Z - K Z := by
    simp only [hu]
    rw [← Finset.sum_mul, ← Finset.sum_mul, show ∑ i ∈ T, f i Z = S Z from rfl, mul_inv_cancel₀ (hSpos Z hZ h0).ne', one_mul]
  rw [this]
  ring

end Global

end Cyjax
