import Verif.Lemmas.RicciFlat
import Verif.Props.AccuracyLimit
import Verif.Props.CurvatureGlobal

/-! # C138: the accuracy measures Ricci-flatness -/

namespace Cyjax

open MeasureTheory ProbabilityTheory MvPolynomial Cyjax.Spec Cyjax.Polynomial Cyjax.Variety Cyjax.Donaldson Cyjax.Projective Set
  Filter Topology
open scoped ENNReal ComplexOrder

variable {n : ℕ} {F : MvPolynomial (Fin (n + 2)) ℂ} {A : AlgebraicMetric (n + 1)} {ps : List ℂ} {o : SymOrder}
  (ho : o.Valid) {roots : List ℂ → List ℂ} (hr : CompleteRoots roots) (hsm : SmoothHypersurface F) (hn : n ≠ 0)
  (p : Fin (n + 2)) (d : Fin (n + 1)) (hS : Samplable A.variety (n + 1) (n + 2) ps)
  (hF : Hypersurface A.variety (.vec ps) (n + 1) (n + 2) F) (hB : SpansModulo F A.sections.degree A.sections.rows)
  (hk : A.sections.degree ≠ 0) (h : A.H) (hh : h.PosDef)

include hsm hn hS hF hB hk hh

/-- **C138.** The accuracy is zero exactly if `eta` returns the same number at every point of the hypersurface. -/
theorem C138_constant :
    accuracy (cyMeasure p d F) (etaAt A h ps) = 0 ↔
      ∃ c : ℂ, ∀ Z, Z ≠ 0 → eval Z F = 0 → A.eta h (List.ofFn Z) (.vec ps) none none none = .ok c := by
  rw [(C133_accuracy hsm hn p d hS hF hB hk h hh).2.2.2.2]
  constructor
  · rintro ⟨c, hc⟩
    have hms : MeasurableSet {Z | etaAt A h ps Z ≠ c} :=
      (measurableSet_eq_fun (measurable_etaAt hF h hB) measurable_const).compl
    have hall : ∀ (q : Fin (n + 2)) (d' : Fin (n + 1)), ∀ᵐ Z ∂cyMeasure q d' F, etaAt A h ps Z = c := by
      intro q d'
      have h1 := (C130_measure hsm hn p d hS hF).2.2 q d' (indicator {Z | etaAt A h ps Z ≠ c} 1)
        (measurable_one.indicator hms) (fun a ha Z => by
          have h2 : a • Z ∈ {Z | etaAt A h ps Z ≠ c} ↔ Z ∈ {Z | etaAt A h ps Z ≠ c} := by
            rw [mem_ofPred_eq, mem_ofPred_eq, etaAt_smul hF h a ha Z]
          simp only [indicator_apply, h2, Pi.one_apply])
      rw [lintegral_indicator_one hms, lintegral_indicator_one hms] at h1
      rw [ae_iff]
      refine h1.symm.trans ?_
      exact ae_iff.1 hc
    refine ⟨(c : ℂ), fun Z hZ h0 => ?_⟩
    rw [(etaAt_pos hF h hB hh hsm hk Z hZ h0).2, const_of_ae hsm hF hB hk h hh hall Z hZ h0]
  · rintro ⟨c, hc⟩
    refine ⟨c.re, ?_⟩
    have hcyae : ∀ᵐ Z ∂cyMeasure p d F, Z ≠ 0 ∧ Z ∈ regularSet p d F := by
      rw [cyMeasure_withDensity p d hF.homogeneous]
      exact (withDensity_absolutelyContinuous _ _).ae_le (ae_fsMeasure hF.homogeneous p d)
    filter_upwards [hcyae] with Z hZ
    rw [etaAt, hc Z hZ.1 hZ.2.1]
    rfl

/-- **C138.** The accuracy is zero exactly if the metric is Ricci-flat: `ricci` returns the zero matrix at every point of the
hypersurface, in every patch and for every admissible dependent coordinate. -/
theorem C138_flat :
    accuracy (cyMeasure p d F) (etaAt A h ps) = 0 ↔
      ∀ (q : Fin (n + 2)) (d' : Fin (n + 1)) (z G : Fin (n + 1) → ℂ),
        defining A.variety (List.ofFn z) (.vec ps) (some (.index q)) = .ok 0 →
        gradDefining A.variety z (.vec ps) (some (.index q)) = .ok G → G d' ≠ 0 →
        A.ricci h (List.ofFn z) (.vec ps) (some (q : ℕ)) (some (d' : ℕ)) none = .ok (0, (q : ℕ), ((d' : ℕ) : ℤ)) := by
  rw [C138_constant hsm hn p d hS hF hB hk h hh]
  constructor
  · rintro ⟨c, hc⟩ q d' z G h0 hG hd
    have h1 := (hF.defining q z).symm.trans h0
    injection h1 with h1
    have h2 := hG.symm.trans (hF.grad q z)
    injection h2 with h2
    refine flat_of_const hsm hF hB hk h hh (c := c.re) (fun Z hZ h0 => ?_) q d' z h1 ?_
    · rw [etaAt, hc Z hZ h0]
      rfl
    · rw [h2] at hd
      exact hd
  · intro hflat
    obtain ⟨c, hc⟩ := const_of_flat hsm hF hB hk h hh hn fun q d' z h0 hd =>
      hflat q d' z _ (by rw [hF.defining, h0]) (hF.grad q z) hd
    exact ⟨(c : ℂ), fun Z hZ h0 => by rw [(etaAt_pos hF h hB hh hsm hk Z hZ h0).2, hc Z hZ h0]⟩

omit hn hS in
/-- The code's choice of patch and dependent coordinate for homogeneous coordinates. -/
private theorem auto_choice (Z : Fin (n + 2) → ℂ) (hZ : Z ≠ 0) (h0 : eval Z F = 0) :
    ∃ (q : Fin (n + 2)) (d' : Fin (n + 1)), Z q ≠ 0 ∧
      eval (affineToHom (homToAffine Z (q : ℕ)) (q : ℕ)) F = 0 ∧
      eval (homToAffine Z (q : ℕ)) (pderiv d' (dehom q F)) ≠ 0 ∧
      A.ricci h (List.ofFn Z) (.vec ps) none none none =
        A.ricci h (List.ofFn (homToAffine Z (q : ℕ))) (.vec ps) (some (q : ℕ)) (some (d' : ℕ)) none ∧
      A.ricciScalar h (List.ofFn Z) (.vec ps) none none none =
        A.ricciScalar h (List.ofFn (homToAffine Z (q : ℕ))) (.vec ps) (some (q : ℕ)) (some (d' : ℕ)) none := by
  have hq0 : Z (homToAffineAuto Z).2 ≠ 0 := (C17_bounded Z hZ 0).1
  obtain ⟨-, -, -, e1, e2⟩ := C103_homogeneous A hF.dim h (.vec ps) none none Z
  rw [(C17_patch Z).2.2] at e1 e2
  obtain ⟨d₀, hd₀, -, -, -, e3, e4⟩ := C104_default A hF.dim h (.vec ps) (homToAffineAuto Z).2
    (homToAffine Z ((homToAffineAuto Z).2 : ℕ)) _ (hF.grad _ _)
  refine ⟨(homToAffineAuto Z).2, d₀, hq0, ?_, ?_, e1.trans e3.symm, e2.trans e4.symm⟩
  · rw [C16_roundtrip Z _ hq0, show (fun i => Z i / Z (homToAffineAuto Z).2) = fun i => (Z (homToAffineAuto Z).2)⁻¹ * Z i from
      funext fun i => by ring, eval_smul_homogeneous hF.homogeneous, h0, mul_zero]
  · obtain ⟨k, hk'⟩ := smooth_affine hF.homogeneous Z h0 (hsm Z hZ h0) _ hq0
    intro h3
    have := hd₀ k
    rw [h3, norm_zero] at this
    exact hk' (norm_le_zero_iff.1 this)

omit hsm hn hS in
/-- A Ricci matrix that vanishes for one dependent coordinate vanishes for the others. -/
private theorem zero_dependent (q : Fin (n + 2)) (d₁ d₂ : Fin (n + 1)) (z G : Fin (n + 1) → ℂ)
    (h0 : defining A.variety (List.ofFn z) (.vec ps) (some (.index q)) = .ok 0)
    (hG : gradDefining A.variety z (.vec ps) (some (.index q)) = .ok G) (hd : G d₁ ≠ 0)
    (hd2 : eval z (pderiv d₂ (dehom q F)) ≠ 0) {i : ℕ} {j : ℤ}
    (hz : A.ricci h (List.ofFn z) (.vec ps) (some (q : ℕ)) (some (d₂ : ℕ)) none = .ok (0, i, j)) :
    A.ricci h (List.ofFn z) (.vec ps) (some (q : ℕ)) (some (d₁ : ℕ)) none = .ok (0, (q : ℕ), ((d₁ : ℕ) : ℤ)) := by
  obtain ⟨r1, r2, r3⟩ := regular hF h hh hB hk q z d₁ G hG h0 hd
  obtain ⟨-, -, M, R, R', -, hR, hR', hRR⟩ := C100_curvature (sectionsJet A.sections (q : ℕ))
    (sectionsJet_isJet _ (spans_le hB) q) h hh.isHermitian A.degree (dehom q F) d₁ d₂ z r1 r2 hd2 r3
  obtain ⟨R1, -, k1, -, k2, -⟩ := ricci_val hF h q z d₁ (some (d₁ : ℕ)) rfl r2
  obtain ⟨R2, -, k3, -, k4, -⟩ := ricci_val hF h q z d₂ (some (d₂ : ℕ)) rfl hd2
  have h4 := Except.ok.inj (k4.symm.trans hz)
  have h5 : R2 = 0 := congrArg Prod.fst h4
  have h6 : R' = R2 := Except.ok.inj (hR'.symm.trans k3)
  have h7 : R = R1 := Except.ok.inj (hR.symm.trans k1)
  rw [k2, ← h7, hRR, h6, h5, mul_zero, zero_mul]

omit hsm hn hS in
/-- A Ricci matrix that vanishes in one patch vanishes in the others. -/
private theorem zero_patch (q q' : Fin (n + 2)) (hne : q ≠ q') (d₁ d₂ : Fin (n + 1)) (z G : Fin (n + 1) → ℂ)
    (hq' : affineToHom z (q : ℕ) q' ≠ 0)
    (h0 : defining A.variety (List.ofFn z) (.vec ps) (some (.index q)) = .ok 0)
    (hG : gradDefining A.variety z (.vec ps) (some (.index q)) = .ok G) (hd : G d₁ ≠ 0)
    (hd2 : eval (homToAffine (affineToHom z (q : ℕ)) (q' : ℕ)) (pderiv d₂ (dehom q' F)) ≠ 0) {i : ℕ} {j : ℤ}
    (hz : A.ricci h (List.ofFn (homToAffine (affineToHom z (q : ℕ)) (q' : ℕ))) (.vec ps) (some (q' : ℕ)) (some (d₂ : ℕ)) none =
      .ok (0, i, j)) :
    A.ricci h (List.ofFn z) (.vec ps) (some (q : ℕ)) (some (d₁ : ℕ)) none = .ok (0, (q : ℕ), ((d₁ : ℕ) : ℤ)) := by
  have hcc : changeChart z (q : ℕ) (q' : ℕ) = homToAffine (affineToHom z (q : ℕ)) (q' : ℕ) := C19_change_chart z q q' hne
  rw [← hcc] at hz hd2
  obtain ⟨-, -, M, -, -, R, R', -, -, -, -, -, k1, k2, -, k3⟩ := C109_tensor hF h hh hB hk q q' hne d₁ d₂ z hq' h0 G _ hG hd
    (hF.grad q' _) hd2
  have h5 : R' = 0 := congrArg Prod.fst (Except.ok.inj (k2.symm.trans hz))
  rw [k1, k3, h5, mul_zero, zero_mul]

omit hsm hn hS in
/-- Where the Ricci matrix vanishes so does the Ricci scalar. -/
private theorem zero_scalar (q : Fin (n + 2)) (d₁ : Fin (n + 1)) (z : Fin (n + 1) → ℂ) (h0 : eval (affineToHom z (q : ℕ)) F = 0)
    (hd : eval z (pderiv d₁ (dehom q F)) ≠ 0) {i : ℕ} {j : ℤ}
    (hz : A.ricci h (List.ofFn z) (.vec ps) (some (q : ℕ)) (some (d₁ : ℕ)) none = .ok (0, i, j)) :
    A.ricciScalar h (List.ofFn z) (.vec ps) (some (q : ℕ)) (some (d₁ : ℕ)) none = .ok 0 := by
  obtain ⟨r1, r2, r3⟩ := regular hF h hh hB hk q z d₁ _ (hF.grad q z) (by rw [hF.defining, h0]) hd
  obtain ⟨R, c, hR, hc, hR', hc'⟩ := ricci_val hF h q z d₁ (some (d₁ : ℕ)) rfl r2
  have h5 : R = 0 := congrArg Prod.fst (Except.ok.inj (hR'.symm.trans hz))
  rw [hc']
  unfold Graph.ricciScalar at hc
  rw [hR] at hc
  have h6 := Except.ok.inj hc
  rw [← h6, h5]
  refine congrArg Except.ok ?_
  unfold Donaldson.ricciScalar
  simp

/-- **C138.** It is enough to look at the matrices returned for homogeneous coordinates, where patch and dependent coordinate
are chosen by the code. Then also the Ricci scalar is zero. -/
theorem C138_homogeneous :
    (accuracy (cyMeasure p d F) (etaAt A h ps) = 0 ↔
      ∀ Z, Z ≠ 0 → eval Z F = 0 → ∃ i j, A.ricci h (List.ofFn Z) (.vec ps) none none none = .ok (0, i, j)) ∧
    (accuracy (cyMeasure p d F) (etaAt A h ps) = 0 →
      ∀ Z, Z ≠ 0 → eval Z F = 0 → A.ricciScalar h (List.ofFn Z) (.vec ps) none none none = .ok 0) := by
  rw [C138_flat hsm hn p d hS hF hB hk h hh]
  refine ⟨⟨fun hflat Z hZ h0 => ?_, fun hall q d' z G h0 hG hd => ?_⟩, fun hflat Z hZ h0 => ?_⟩
  · obtain ⟨q, d', -, h1, h2, h3, -⟩ := auto_choice hsm hF hB hk h hh Z hZ h0
    exact ⟨_, _, h3.trans (hflat q d' _ _ (by rw [hF.defining, h1]) (hF.grad q _) h2)⟩
  · have h1 := Except.ok.inj ((hF.defining q z).symm.trans h0)
    obtain ⟨q', d'', hq', e1, e2, e3, -⟩ := auto_choice hsm hF hB hk h hh (affineToHom z (q : ℕ)) (affine_ne_zero _ _) h1
    obtain ⟨i, j, h0'⟩ := hall (affineToHom z (q : ℕ)) (affine_ne_zero _ _) h1
    have h4 := e3.symm.trans h0'
    rcases eq_or_ne q q' with rfl | hne
    · rw [C15_roundtrip] at h4 e2
      exact zero_dependent hF hB hk h hh q d' d'' z G h0 hG hd e2 h4
    · exact zero_patch hF hB hk h hh q q' hne d' d'' z G hq' h0 hG hd e2 h4
  · obtain ⟨q, d', -, h1, h2, -, h3⟩ := auto_choice hsm hF hB hk h hh Z hZ h0
    have h4 := hflat q d' _ _ (by rw [hF.defining, h1]) (hF.grad q _) h2
    exact h3.trans (zero_scalar hF hB hk h hh q d' _ h1 h2 h4)

include ho hr

/-- **C138.** The result of `sigma_accuracy` converges to zero in probability, as the number of points grows, exactly if the
metric is Ricci-flat. -/
theorem C138_sigma_accuracy :
    (∀ ε > 0, Tendsto (fun count : ℕ => normalsLaw (n + 2) (sampleCount count (n + 2))
      {x | ε ≤ |resultOrZero (A.sigmaAccuracy h o roots ps count (asLists (lineDraws x)))|}) atTop (𝓝 0)) ↔
      ∀ Z, Z ≠ 0 → eval Z F = 0 → ∃ i j, A.ricci h (List.ofFn Z) (.vec ps) none none none = .ok (0, i, j) := by
  rw [← (C138_homogeneous hsm hn 0 0 hS hF hB hk h hh).1]
  have herr := (C133_error ho hr hsm hn 0 0 hS hF hB hk h hh).2
  obtain ⟨-, -, hs0, -, -⟩ := C133_accuracy hsm hn 0 0 hS hF hB hk h hh
  set σ := accuracy (cyMeasure 0 0 F) (etaAt A h ps) with hσ
  constructor
  · intro hlim
    by_contra hne
    have hpos : 0 < σ := lt_of_le_of_ne hs0 (Ne.symm hne)
    have h1 := (hlim (σ / 2) (by positivity)).add (herr (σ / 2) (by positivity))
    rw [add_zero] at h1
    have h2 : ∀ count : ℕ, (1 : ℝ≥0∞) ≤ normalsLaw (n + 2) (sampleCount count (n + 2))
        {x | σ / 2 ≤ |resultOrZero (A.sigmaAccuracy h o roots ps count (asLists (lineDraws x)))|} +
        normalsLaw (n + 2) (sampleCount count (n + 2))
        {x | σ / 2 ≤ |resultOrZero (A.sigmaAccuracy h o roots ps count (asLists (lineDraws x))) - σ|} := by
      intro count
      rw [← measure_univ (μ := normalsLaw (n + 2) (sampleCount count (n + 2)))]
      refine (measure_mono fun x _ => ?_).trans (measure_union_le _ _)
      by_contra hcon
      rw [mem_union, not_or, mem_ofPred_eq, mem_ofPred_eq, not_le, not_le] at hcon
      have h3 := abs_lt.1 hcon.1
      have h4 := abs_lt.1 hcon.2
      linarith
    have h5 := ge_of_tendsto' h1 h2
    exact absurd h5 (by norm_num)
  · intro h0 ε hε
    have := herr ε hε
    rw [h0] at this
    simpa using this

omit hsm hn hS hF hB hk hh ho hr in
/-- The hypotheses of C138 hold for the Dwork quintic with `psi = 2`, all sections of degree 2 and `h = 1`. -/
example : ∃ (A : AlgebraicMetric 4) (F : MvPolynomial (Fin 5) ℂ) (h : A.H),
    A = ⟨.dwork 5 (.flag true), monomialBasisFull 4 2⟩ ∧
      (accuracy (cyMeasure (n := 3) 0 0 F) (etaAt (n := 3) A h [2]) = 0 ↔
        ∀ Z : Fin 5 → ℂ, Z ≠ 0 → eval Z F = 0 → ∃ i j, A.ricci h (List.ofFn Z) (.vec [2]) none none none = .ok (0, i, j)) := by
  obtain ⟨F, hF, hsm⟩ := C114_quintic 2 []
  exact ⟨⟨.dwork 5 (.flag true), monomialBasisFull 4 2⟩, F, 1, rfl,
    (C138_homogeneous (n := 3) (A := ⟨.dwork 5 (.flag true), monomialBasisFull 4 2⟩)
      (hsm.2 (by norm_num)) (by norm_num) 0 0 (.dwork 4 (.flag true) (by simp [DworkFactor.value]) 2) hF
      (C105_sections F 2).1 two_ne_zero 1 Matrix.PosDef.one).1⟩

end Cyjax
