import Verif.Props.UniformLoss

/-! # The accuracy and the loss as functions of the matrix -/

namespace Cyjax

open MeasureTheory ProbabilityTheory MvPolynomial Cyjax.Spec Cyjax.Polynomial Cyjax.Variety Cyjax.Donaldson Cyjax.Projective Cyjax.Ml Set
  Filter Topology
open scoped ENNReal ComplexOrder

/-- Two values of `eta` relative to the mean. -/
theorem ratio_close {a a' V K K' m M δ : ℝ} (hm : 0 < m) (hV : 0 < V) (hK : m * V ≤ K) (hK' : m * V ≤ K') (ha : |a| ≤ M)
    (hd : |a - a'| ≤ δ) (hKd : |K - K'| ≤ δ * V) : |a * V / K - a' * V / K'| ≤ δ * (m⁻¹ + M * m⁻¹ ^ 2) := by
  have hmV : 0 < m * V := by positivity
  have hK0 : 0 < K := hmV.trans_le hK
  have hK0' : 0 < K' := hmV.trans_le hK'
  have hδ : 0 ≤ δ := (abs_nonneg _).trans hd
  have hM : 0 ≤ M := (abs_nonneg _).trans ha
  have r1 : V / K ≤ m⁻¹ := by
    rw [div_le_iff₀ hK0, inv_mul_eq_div, le_div_iff₀ hm]
    linarith
  have r2 : V / K' ≤ m⁻¹ := by
    rw [div_le_iff₀ hK0', inv_mul_eq_div, le_div_iff₀ hm]
    linarith
  have e : a * V / K - a' * V / K' = (a - a') * (V / K') + a * (V / K) * ((K' - K) / K') := by
    field_simp
    ring
  rw [e]
  refine (abs_add_le _ _).trans ?_
  have h1 : |(a - a') * (V / K')| ≤ δ * m⁻¹ := by
    rw [abs_mul, abs_of_pos (by positivity : 0 < V / K')]
    exact mul_le_mul hd r2 (by positivity) hδ
  have h2 : |(K' - K) / K'| ≤ δ * m⁻¹ := by
    rw [abs_div, abs_of_pos hK0', abs_sub_comm]
    calc |K - K'| / K' ≤ δ * V / K' := div_le_div_of_nonneg_right hKd hK0'.le
      _ = δ * (V / K') := by ring
      _ ≤ _ := mul_le_mul_of_nonneg_left r2 hδ
  have h3 : |a * (V / K) * ((K' - K) / K')| ≤ M * m⁻¹ * (δ * m⁻¹) := by
    rw [abs_mul, abs_mul, abs_of_pos (by positivity : 0 < V / K)]
    exact mul_le_mul (mul_le_mul ha r1 (by positivity) hM) h2 (abs_nonneg _) (by positivity)
  have e2 : δ * (m⁻¹ + M * m⁻¹ ^ 2) = δ * m⁻¹ + M * m⁻¹ * (δ * m⁻¹) := by ring
  linarith

/-- The relative deviation of a function on weighted points. -/
noncomputable def listDeviation {X : Type*} (Zs : List X) (w η : X → ℝ) : ℝ :=
  (Zs.map fun Z => |1 - η Z * (Zs.map w).sum / (Zs.map fun Z => η Z * w Z).sum| * w Z).sum / (Zs.map w).sum

theorem listDeviation_close {X : Type*} {Zs : List X} (hne : Zs ≠ []) {w η η' : X → ℝ} {m M δ : ℝ} (hm : 0 < m) (hw : ∀ Z ∈ Zs, 0 < w Z)
    (hη : ∀ Z ∈ Zs, m ≤ η Z ∧ |η Z| ≤ M) (hη' : ∀ Z ∈ Zs, m ≤ η' Z) (hd : ∀ Z ∈ Zs, |η Z - η' Z| ≤ δ) :
    |listDeviation Zs w η - listDeviation Zs w η'| ≤ δ * (m⁻¹ + M * m⁻¹ ^ 2) := by
  have hW : 0 < (Zs.map w).sum := List.sum_pos _ (by
    intro y hy
    obtain ⟨Z, hZ, rfl⟩ := List.mem_map.1 hy
    exact hw Z hZ) (by simpa using hne)
  have hlow : ∀ g : X → ℝ, (∀ Z ∈ Zs, m ≤ g Z) → m * (Zs.map w).sum ≤ (Zs.map fun Z => g Z * w Z).sum := fun g hg => by
    rw [← List.sum_map_mul_left]
    exact List.sum_le_sum fun Z hZ => mul_le_mul_of_nonneg_right (hg Z hZ) (hw Z hZ).le
  have hE := hlow η fun Z hZ => (hη Z hZ).1
  have hE' := hlow η' hη'
  have hEd := list_sum_close Zs (fun Z => η Z * w Z) (fun Z => η' Z * w Z) w δ fun Z hZ => by
    rw [← sub_mul, abs_mul, abs_of_pos (hw Z hZ)]
    exact mul_le_mul_of_nonneg_right (hd Z hZ) (hw Z hZ).le
  unfold listDeviation
  rw [← sub_div, abs_div, abs_of_pos hW, div_le_iff₀ hW]
  refine list_sum_close Zs _ _ w _ fun Z hZ => ?_
  rw [← sub_mul, abs_mul, abs_of_pos (hw Z hZ)]
  refine mul_le_mul_of_nonneg_right ((abs_abs_sub_abs_le_abs_sub _ _).trans ?_) (hw Z hZ).le
  rw [sub_sub_sub_cancel_left, abs_sub_comm]
  exact ratio_close hm hW hE hE' (hη Z hZ).2 (hd Z hZ) hEd

theorem accuracy_close {X : Type*} [MeasurableSpace X] {μ : Measure X} [IsFiniteMeasure μ] (hμ : μ univ ≠ 0) {η η' : X → ℝ} {m M δ : ℝ}
    (hm : 0 < m) (hi : Integrable η μ) (hi' : Integrable η' μ) (hη : ∀ᵐ x ∂μ, m ≤ η x ∧ |η x| ≤ M) (hη' : ∀ᵐ x ∂μ, m ≤ η' x)
    (hd : ∀ᵐ x ∂μ, |η x - η' x| ≤ δ) : |accuracy μ η - accuracy μ η'| ≤ δ * (m⁻¹ + M * m⁻¹ ^ 2) := by
  obtain ⟨V, hVd⟩ : ∃ V, V = (μ univ).toReal := ⟨_, rfl⟩
  have hV : 0 < V := by rw [hVd]; exact ENNReal.toReal_pos hμ (measure_ne_top _ _)
  have hlow : ∀ g : X → ℝ, Integrable g μ → (∀ᵐ x ∂μ, m ≤ g x) → m * V ≤ ∫ x, g x ∂μ := fun g hgi hg => by
    have := integral_mono_ae (integrable_const (μ := μ) m) hgi hg
    rwa [integral_const, smul_eq_mul, Measure.real, ← hVd, mul_comm] at this
  have hE := hlow η hi (hη.mono fun x hx => hx.1)
  have hE' := hlow η' hi' hη'
  have hEd : |(∫ x, η x ∂μ) - ∫ x, η' x ∂μ| ≤ δ * V := by
    rw [← integral_sub hi hi', ← Real.norm_eq_abs, hVd]
    exact norm_integral_le_of_norm_le_const hd
  unfold accuracy
  rw [← hVd]
  generalize ∫ x, η x ∂μ = K at *
  generalize ∫ x, η' x ∂μ = K' at *
  have i1 : Integrable (fun x => |1 - η x * V / K|) μ := ((integrable_const 1).sub ((hi.mul_const V).div_const K)).abs
  have i2 : Integrable (fun x => |1 - η' x * V / K'|) μ := ((integrable_const 1).sub ((hi'.mul_const V).div_const K')).abs
  rw [← sub_div, abs_div, abs_of_pos hV, div_le_iff₀ hV, ← integral_sub i1 i2, ← Real.norm_eq_abs, hVd]
  refine norm_integral_le_of_norm_le_const ?_
  rw [← hVd]
  filter_upwards [hη, hd] with x h1 h2
  rw [Real.norm_eq_abs]
  refine (abs_abs_sub_abs_le_abs_sub _ _).trans ?_
  rw [sub_sub_sub_cancel_left, abs_sub_comm]
  exact ratio_close hm hV hE hE' h1.2 h2 hEd

section Metric

variable {n : ℕ} {F : MvPolynomial (Fin (n + 2)) ℂ} {A : AlgebraicMetric (n + 1)} {ps : List ℂ} {o : SymOrder}
  (ho : o.Valid) {roots : List ℂ → List ℂ} (hr : CompleteRoots roots) (hsm : SmoothHypersurface F) (hn : n ≠ 0)
  (p : Fin (n + 2)) (d : Fin (n + 1)) (hS : Samplable A.variety (n + 1) (n + 2) ps)
  (hF : Hypersurface A.variety (.vec ps) (n + 1) (n + 2) F) (hB : SpansModulo F A.sections.degree A.sections.rows)
  (hk : A.sections.degree ≠ 0)

include hsm hn hS hF hB hk

omit hn hS in
/-- Near a positive definite matrix `eta` has common bounds, and changes little. -/
theorem eta_bounds_near (h₀ : A.H) (hh₀ : h₀.PosDef) : ∃ m > 0, ∃ M, ∀ δ > 0, ∀ᶠ h : A.H in 𝓝 h₀, ∀ Z : Fin (n + 2) → ℂ, Z ≠ 0 → eval Z F = 0 →
    m ≤ etaAt A h₀ ps Z ∧ |etaAt A h₀ ps Z| ≤ M ∧ m ≤ etaAt A h ps Z ∧ |etaAt A h₀ ps Z - etaAt A h ps Z| ≤ δ := by
  obtain ⟨M, hM⟩ := etaAt_bounded hF h₀ hB hh₀ hsm
  obtain ⟨m, hm, hlow⟩ := etaAt_lower hsm hF hB hk h₀ hh₀
  refine ⟨m / 2, by positivity, M, fun δ hδ => ?_⟩
  filter_upwards [etaAt_near_h hsm hF hB h₀ hh₀ (min δ (m / 2)) (by positivity)] with h hh Z hZ h0
  have h1 := hlow Z hZ h0
  have h2 := hh Z hZ h0
  have h3 := (abs_le.1 (h2.trans (min_le_right _ _))).1
  refine ⟨by linarith, hM Z hZ h0, by linarith, ?_⟩
  rw [abs_sub_comm]
  exact h2.trans (min_le_left _ _)

/-- The accuracy of a nearby matrix. -/
theorem accuracy_near (h₀ : A.H) (hh₀ : h₀.PosDef) (ε : ℝ) (hε : 0 < ε) : ∀ᶠ h : A.H in 𝓝 h₀, h.PosDef →
    |accuracy (cyMeasure p d F) (etaAt A h₀ ps) - accuracy (cyMeasure p d F) (etaAt A h ps)| ≤ ε := by
  obtain ⟨hfin0, hne0, -⟩ := C130_measure hsm hn p d hS hF
  have hfin : IsFiniteMeasure (cyMeasure p d F) := ⟨hfin0.lt_top⟩
  have hcyae : ∀ᵐ Z ∂cyMeasure p d F, Z ≠ 0 ∧ Z ∈ regularSet p d F := by
    rw [cyMeasure_withDensity p d hF.homogeneous]
    exact (withDensity_absolutelyContinuous _ _).ae_le (ae_fsMeasure hF.homogeneous p d)
  obtain ⟨m, hm, M, hnear⟩ := eta_bounds_near hsm hF hB hk h₀ hh₀
  obtain ⟨c, hc⟩ : ∃ c, c = m⁻¹ + |M| * m⁻¹ ^ 2 := ⟨_, rfl⟩
  have hc0 : 0 < c := by rw [hc]; positivity
  filter_upwards [hnear (ε / c) (by positivity)] with h hh hpd
  have := accuracy_close (μ := cyMeasure p d F) hne0 (m := m) (M := |M|) (δ := ε / c) hm
    (C133_accuracy hsm hn p d hS hF hB hk h₀ hh₀).1 (C133_accuracy hsm hn p d hS hF hB hk h hpd).1
    (hcyae.mono fun Z hZ => ⟨(hh Z hZ.1 hZ.2.1).1, (hh Z hZ.1 hZ.2.1).2.1.trans (le_abs_self M)⟩)
    (hcyae.mono fun Z hZ => (hh Z hZ.1 hZ.2.1).2.2.1) (hcyae.mono fun Z hZ => (hh Z hZ.1 hZ.2.1).2.2.2)
  rwa [← hc, div_mul_cancel₀ _ hc0.ne'] at this

include ho hr

/-- The result of `sigma_accuracy` and of the loss, from the sampled points. -/
theorem sampled_values (count : ℕ) (hcount : count ≠ 0) : ∀ᵐ x ∂normalsLaw (n + 2) (sampleCount count (n + 2)),
    ∃ Zs : List (Fin (n + 2) → ℂ), Zs ≠ [] ∧ Zs.length = count ∧ (∀ Z ∈ Zs, (Z ≠ 0 ∧ eval Z F = 0) ∧ 0 < pointWeight (n + 2) F Z) ∧
      ∀ h : A.H, h.PosDef →
        A.sigmaAccuracy h o roots ps count (asLists (lineDraws x)) = .ok (listDeviation Zs (pointWeight (n + 2) F) (etaAt A h ps)) ∧
        sampledLoss A o roots ps count x h =
          ((Zs.map (pointWeight (n + 2) F)).sum / count) ^ 2 * ((Zs.map fun Z => etaAt A h ps Z ^ 2 * pointWeight (n + 2) F Z).sum / count) /
            ((Zs.map fun Z => etaAt A h ps Z * pointWeight (n + 2) F Z).sum / count) ^ 2 - (Zs.map (pointWeight (n + 2) F)).sum / count := by
  have hom := hF.homogeneous
  have he0 : n + 2 ≠ 0 := by omega
  have hirr := smooth_irreducible (by omega) hom he0 hsm
  have hc2 := (sampleCount_mul count (n + 2) (by omega)).1
  obtain ⟨pts, hpts⟩ := sample_sums hS hF hsm hirr ho hr he0 (sampleCount count (n + 2))
  filter_upwards [hpts, ae_admissible (count := sampleCount count (n + 2)) F (smooth_ne_zero hsm) hom] with x hx hadm
  have hL0 : sampleCount count (n + 2) ≠ 0 := fun h0 => by
    rw [h0, zero_mul] at hc2
    omega
  have hdr : lineDraws x ≠ [] := by
    rw [← List.length_pos_iff, lineDraws, List.length_ofFn]
    exact Nat.pos_of_ne_zero hL0
  obtain ⟨-, hw, -, haff⟩ := hx.2.2.1 count
  have hlen : ((pts x).take count).length = count := by rw [List.length_take, hx.1, min_eq_left hc2]
  have hmem : ∀ Z ∈ (pts x).take count, Z ≠ 0 ∧ eval Z F = 0 := fun Z hZ => hx.2.1 Z (List.mem_of_mem_take hZ)
  have hne : (pts x).take count ≠ [] := fun h0 => hcount (by rw [← hlen, h0]; rfl)
  have hwpos : ∀ Z ∈ (pts x).take count, 0 < pointWeight (n + 2) F Z := fun Z hZ =>
    pointWeight_pos (e := n + 2) Z (hmem Z hZ).1 (hsm Z (hmem Z hZ).1 (hmem Z hZ).2)
  refine ⟨(pts x).take count, hne, hlen, fun Z hZ => ⟨hmem Z hZ, hwpos Z hZ⟩, fun h hh => ⟨?_, ?_⟩⟩
  · obtain ⟨Zs, η', w', σ', g1, -, g3, g4, g5, -⟩ := C110_sigma hS hF hsm he0 hB hk h hh ho hr.exact count hcount (lineDraws x) hdr hadm.2
    have hZs : Zs = (pts x).take count := by
      refine List.map_injective_iff.2 List.ofFn_injective (Except.ok.inj (g1.symm.trans ?_))
      exact hom_of_weights hw
    have hη' : ∀ Z ∈ Zs, η' Z = etaAt A h ps Z := by
      intro Z hZ
      have h1 := (g3 Z hZ).2.2.2.2.1
      have h2 := (etaAt_pos hF h hB hh hsm hk Z (g3 Z hZ).1 (g3 Z hZ).2.1).2
      exact_mod_cast Except.ok.inj (h1.symm.trans h2)
    have hw' : ∀ Z ∈ Zs, w' Z = pointWeight (n + 2) F Z := by
      intro Z hZ
      have h1 := (g3 Z hZ).2.2.2.2.2
      have h2 := weight_auto hF Z (g3 Z hZ).1 (g3 Z hZ).2.1 (hsm Z (g3 Z hZ).1 (g3 Z hZ).2.1)
      exact Except.ok.inj (h1.symm.trans h2)
    have e1 : Zs.map w' = Zs.map (pointWeight (n + 2) F) := List.map_congr_left hw'
    have e2 : (Zs.map fun Z => η' Z * w' Z) = Zs.map fun Z => etaAt A h ps Z * pointWeight (n + 2) F Z :=
      List.map_congr_left fun Z hZ => by rw [hη' Z hZ, hw' Z hZ]
    rw [e1, e2, List.map_congr_left (g := fun Z => |1 - etaAt A h ps Z * (Zs.map (pointWeight (n + 2) F)).sum /
      (Zs.map fun Z => etaAt A h ps Z * pointWeight (n + 2) F Z).sum| * pointWeight (n + 2) F Z)
      fun Z hZ => by rw [hη' Z hZ, hw' Z hZ]] at g5
    rw [g4, g5, ← hZs]
    rfl
  · unfold sampledLoss
    have hrow : sampleRow n A.variety o roots (fun _ : Unit => asLists (lineDraws x)) count () ps =
        .ok ⟨ps, ((pts x).take count).map homToAffineAuto, ((pts x).take count).map (pointWeight (n + 2) F)⟩ := by
      unfold sampleRow
      rw [haff]
      rfl
    rw [hrow]
    change resultOrZero (varianceEtaLossRow A h _) = _
    rw [row_loss hsm hF hB hk h hh _ hne hmem (pointWeight (n + 2) F) hwpos, hlen]
    rfl

end Metric

end Cyjax
