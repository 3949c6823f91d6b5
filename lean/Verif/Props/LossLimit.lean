import Verif.Lemmas.LossLimit
import Verif.Props.RicciFlat

/-! # C174: convergence of the training loss -/

namespace Cyjax

open MeasureTheory ProbabilityTheory MvPolynomial Cyjax.Spec Cyjax.Polynomial Cyjax.Variety Cyjax.Donaldson Cyjax.Projective Cyjax.Ml Set
  Filter Topology
open scoped ENNReal ComplexOrder

variable {n : ℕ} {F : MvPolynomial (Fin (n + 2)) ℂ} {A : AlgebraicMetric (n + 1)} {ps : List ℂ} {o : SymOrder}
  (ho : o.Valid) {roots : List ℂ → List ℂ} (hr : CompleteRoots roots) (hsm : SmoothHypersurface F) (hn : n ≠ 0)
  (p : Fin (n + 2)) (d : Fin (n + 1)) (hS : Samplable A.variety (n + 1) (n + 2) ps)
  (hF : Hypersurface A.variety (.vec ps) (n + 1) (n + 2) F) (hB : SpansModulo F A.sections.degree A.sections.rows)
  (hk : A.sections.degree ≠ 0) (h : A.H) (hh : h.PosDef)

include hsm hn hS hF hB hk hh

/-- The integrals of `eta` and of its square. -/
theorem eta_integrals :
    ∃ V K S : ℝ, 0 < V ∧ 0 < K ∧ 0 ≤ S ∧ V = (cyMeasure p d F univ).toReal ∧ K = (∫ Z, etaAt A h ps Z ∂cyMeasure p d F) ∧
      S = (∫ Z, etaAt A h ps Z ^ 2 ∂cyMeasure p d F) ∧
      etaVariance (cyMeasure p d F) (etaAt A h ps) = V ^ 2 * S / K ^ 2 - V ∧
      Integrable (fun Z => (1 - etaAt A h ps Z * V / K) ^ 2) (cyMeasure p d F) ∧
      Integrable (fun Z => |1 - etaAt A h ps Z * V / K|) (cyMeasure p d F) := by
  obtain ⟨hfin0, hne0, -⟩ := C130_measure hsm hn p d hS hF
  obtain ⟨hη, hK, -⟩ := C133_accuracy hsm hn p d hS hF hB hk h hh
  have hfin : IsFiniteMeasure (cyMeasure p d F) := ⟨hfin0.lt_top⟩
  have hcyae : ∀ᵐ Z ∂cyMeasure p d F, Z ≠ 0 ∧ Z ∈ regularSet p d F := by
    rw [cyMeasure_withDensity p d hF.homogeneous]
    exact (withDensity_absolutelyContinuous _ _).ae_le (ae_fsMeasure hF.homogeneous p d)
  obtain ⟨M, hM⟩ := etaAt_bounded hF h hB hh hsm
  have hη2 : Integrable (fun Z => etaAt A h ps Z ^ 2) (cyMeasure p d F) := by
    refine (integrable_const (M ^ 2)).mono' ((measurable_etaAt hF h hB).pow_const 2).aestronglyMeasurable ?_
    filter_upwards [hcyae] with Z hZ
    rw [Real.norm_eq_abs, abs_pow]
    exact pow_le_pow_left₀ (abs_nonneg _) (hM Z hZ.1 hZ.2.1) 2
  obtain ⟨V, hV⟩ : ∃ V, V = (cyMeasure p d F univ).toReal := ⟨_, rfl⟩
  obtain ⟨K, hKd⟩ : ∃ K, K = (∫ Z, etaAt A h ps Z ∂cyMeasure p d F) := ⟨_, rfl⟩
  obtain ⟨S, hSd⟩ : ∃ S, S = (∫ Z, etaAt A h ps Z ^ 2 ∂cyMeasure p d F) := ⟨_, rfl⟩
  have hV0 : 0 < V := by rw [hV]; exact ENNReal.toReal_pos hne0 hfin0
  rw [← hKd] at hK
  have hsq : (fun Z => (1 - etaAt A h ps Z * V / K) ^ 2) =
      fun Z => 1 - 2 * V / K * etaAt A h ps Z + (V / K) ^ 2 * etaAt A h ps Z ^ 2 := by
    funext Z
    field_simp
    ring
  have hi1 : Integrable (fun Z => 1 - 2 * V / K * etaAt A h ps Z) (cyMeasure p d F) :=
    (integrable_const 1).sub (hη.const_mul _)
  refine ⟨V, K, S, hV0, hK, ?_, hV, hKd, hSd, ?_, ?_, ?_⟩
  · rw [hSd]
    exact integral_nonneg fun _ => sq_nonneg _
  · unfold etaVariance
    rw [← hV, ← hKd, hsq, integral_add hi1 (hη2.const_mul _), integral_sub (integrable_const 1) (hη.const_mul _),
      integral_const_mul, integral_const_mul, integral_const, ← hKd, ← hSd, smul_eq_mul, mul_one, Measure.real, ← hV]
    field_simp
    ring
  · rw [hsq]
    exact hi1.add (hη2.const_mul _)
  · exact ((integrable_const 1).sub ((hη.mul_const V).div_const K)).abs

/-- **C174.** The variance of `eta` over the hypersurface is not negative, it bounds the squared accuracy times the volume, and both are
zero at the same time. -/
theorem C174_variance :
    accuracy (cyMeasure p d F) (etaAt A h ps) ^ 2 * (cyMeasure p d F univ).toReal ≤ etaVariance (cyMeasure p d F) (etaAt A h ps) ∧
    0 ≤ etaVariance (cyMeasure p d F) (etaAt A h ps) ∧
    (etaVariance (cyMeasure p d F) (etaAt A h ps) = 0 ↔ accuracy (cyMeasure p d F) (etaAt A h ps) = 0) := by
  obtain ⟨V, K, S, hV, hK, -, eV, eK, -, -, i2, i1⟩ := eta_integrals hsm hn p d hS hF hB hk h hh
  obtain ⟨hfin0, hne0, -⟩ := C130_measure hsm hn p d hS hF
  have hfin : IsFiniteMeasure (cyMeasure p d F) := ⟨hfin0.lt_top⟩
  unfold accuracy etaVariance
  rw [← eV, ← eK]
  have h0 : 0 ≤ ∫ Z, (1 - etaAt A h ps Z * V / K) ^ 2 ∂cyMeasure p d F := integral_nonneg fun _ => sq_nonneg _
  refine ⟨?_, h0, ?_⟩
  · obtain ⟨s, hs⟩ : ∃ s, s = (∫ Z, |1 - etaAt A h ps Z * V / K| ∂cyMeasure p d F) / V := ⟨_, rfl⟩
    have h1 : 0 ≤ ∫ Z, (|1 - etaAt A h ps Z * V / K| - s) ^ 2 ∂cyMeasure p d F := integral_nonneg fun _ => sq_nonneg _
    have h2 : (fun Z => (|1 - etaAt A h ps Z * V / K| - s) ^ 2) =
        fun Z => (1 - etaAt A h ps Z * V / K) ^ 2 - 2 * s * |1 - etaAt A h ps Z * V / K| + s ^ 2 := by
      funext Z
      rw [sub_sq, sq_abs]
      ring
    have h3 : ∫ Z, |1 - etaAt A h ps Z * V / K| ∂cyMeasure p d F = s * V := by
      rw [hs, div_mul_cancel₀ _ hV.ne']
    have i3 : Integrable (fun Z => (1 - etaAt A h ps Z * V / K) ^ 2 - 2 * s * |1 - etaAt A h ps Z * V / K|) (cyMeasure p d F) :=
      i2.sub (i1.const_mul _)
    rw [h2, integral_add i3 (integrable_const _), integral_sub i2 (i1.const_mul _), integral_const_mul,
      integral_const, h3, smul_eq_mul, Measure.real, ← eV] at h1
    rw [← hs]
    linarith
  · rw [integral_eq_zero_iff_of_nonneg (fun _ => sq_nonneg _) i2, div_eq_zero_iff, or_iff_left hV.ne',
      integral_eq_zero_iff_of_nonneg (fun _ => abs_nonneg _) i1]
    constructor
    · intro h1
      filter_upwards [h1] with Z hZ
      have : 1 - etaAt A h ps Z * V / K = 0 := pow_eq_zero_iff two_ne_zero |>.1 hZ
      rw [this, abs_zero]
      rfl
    · intro h1
      filter_upwards [h1] with Z hZ
      have : 1 - etaAt A h ps Z * V / K = 0 := abs_eq_zero.1 hZ
      rw [this]
      simp

include ho hr

/-- An error of the loss comes from an error of one of three means of bounded functions. -/
theorem loss_cover : ∃ κ > 0, ∃ f : Fin 3 → (Fin (n + 2) → ℂ) → ℝ, ∃ M : Fin 3 → ℝ,
    (∀ k, Measurable (f k) ∧ (∀ c : ℂ, c ≠ 0 → ∀ Z, f k (c • Z) = f k Z) ∧ ∀ Z, Z ≠ 0 → eval Z F = 0 → |f k Z| ≤ M k) ∧
    ∀ count : ℕ, count ≠ 0 → ∀ ε > 0, normalsLaw (n + 2) (sampleCount count (n + 2))
      {x | ε ≤ |resultOrZero (sampleRow n A.variety o roots (fun _ : Unit => asLists (lineDraws x)) count () ps >>=
        varianceEtaLossRow A h) - etaVariance (cyMeasure p d F) (etaAt A h ps) / (n + 2)|} ≤
      ∑ k, normalsLaw (n + 2) (sampleCount count (n + 2))
        {x | κ * ε ≤ |weightedMean (f k) (sampleIntersectOpt n A.variety o roots ps count (asLists (lineDraws x)) false true) -
          (∫ Z, f k Z ∂cyMeasure p d F) / (n + 2)|} := by
  have hom := hF.homogeneous
  have he0 : n + 2 ≠ 0 := by omega
  have hirr := smooth_irreducible (by omega) hom he0 hsm
  obtain ⟨V, K, S, hV, hK, hS0, eV, eK, eS, eΛ, -, -⟩ := eta_integrals hsm hn p d hS hF hB hk h hh
  obtain ⟨hfin0, hne0, -⟩ := C130_measure hsm hn p d hS hF
  have hfin : IsFiniteMeasure (cyMeasure p d F) := ⟨hfin0.lt_top⟩
  obtain ⟨M, hM⟩ := etaAt_bounded hF h hB hh hsm
  obtain ⟨m, hm, hlow⟩ := etaAt_lower hsm hF hB hk h hh
  have hn2 : (0 : ℝ) < n + 2 := by positivity
  have hηpos : ∀ Z, Z ≠ 0 → eval Z F = 0 → 0 < etaAt A h ps Z := fun Z hZ h0 => (etaAt_pos hF h hB hh hsm hk Z hZ h0).1
  have hwpos : ∀ Z, Z ≠ 0 → eval Z F = 0 → 0 < pointWeight (n + 2) F Z := fun Z hZ h0 =>
    pointWeight_pos (e := n + 2) Z hZ (hsm Z hZ h0)
  have hηm : Measurable (etaAt A h ps) := measurable_etaAt hF h hB
  have hηi : ∀ c : ℂ, c ≠ 0 → ∀ Z, etaAt A h ps (c • Z) = etaAt A h ps Z := etaAt_smul hF h
  have hmVK : m * V ≤ K := by
    have hcyae : ∀ᵐ Z ∂cyMeasure p d F, Z ≠ 0 ∧ Z ∈ regularSet p d F := by
      rw [cyMeasure_withDensity p d hF.homogeneous]
      exact (withDensity_absolutelyContinuous _ _).ae_le (ae_fsMeasure hF.homogeneous p d)
    have := integral_mono_ae (integrable_const (μ := cyMeasure p d F) m) (C133_accuracy hsm hn p d hS hF hB hk h hh).1
      (hcyae.mono fun Z hZ => hlow Z hZ.1 hZ.2.1)
    rwa [integral_const, smul_eq_mul, Measure.real, ← eV, ← eK, mul_comm] at this
  obtain ⟨Q, hQ⟩ : ∃ Q, Q = 1 + m⁻¹ ^ 2 + (m⁻¹ + 1) * (2 * m⁻¹) * (S / (n + 2) / (K / (n + 2))) := ⟨_, rfl⟩
  have hQ0 : 0 < Q := by rw [hQ]; positivity
  refine ⟨1 / (2 * Q), by positivity, ![fun _ => 1, etaAt A h ps, fun Z => etaAt A h ps Z ^ 2], ![1, M, M ^ 2], fun k => ?_,
    fun count hc ε hε => ?_⟩
  · fin_cases k
    · exact ⟨measurable_const, fun _ _ _ => rfl, fun _ _ _ => by simp⟩
    · exact ⟨hηm, hηi, hM⟩
    · refine ⟨hηm.pow_const 2, fun c hc Z => ?_, fun Z hZ h0 => ?_⟩
      · change etaAt A h ps (c • Z) ^ 2 = etaAt A h ps Z ^ 2
        rw [hηi c hc]
      · change |etaAt A h ps Z ^ 2| ≤ M ^ 2
        rw [abs_pow]
        exact pow_le_pow_left₀ (abs_nonneg _) (hM Z hZ h0) 2
  · obtain ⟨pts, hpts⟩ := sample_sums hS hF hsm hirr ho hr he0 (sampleCount count (n + 2))
    have hc2 := (sampleCount_mul count (n + 2) (by omega)).1
    have hct : (0 : ℝ) < count := by exact_mod_cast Nat.pos_of_ne_zero hc
    have e1 : (∫ _, (1 : ℝ) ∂cyMeasure p d F) / ((n : ℝ) + 2) = V / (n + 2) := by
      rw [integral_const, smul_eq_mul, mul_one, Measure.real, eV]
    rw [Fin.sum_univ_three]
    change _ ≤ normalsLaw (n + 2) (sampleCount count (n + 2)) {x | _ ≤ |weightedMean (fun _ => 1) _ - (∫ _, (1 : ℝ) ∂cyMeasure p d F) / ((n : ℝ) + 2)|} +
      normalsLaw (n + 2) (sampleCount count (n + 2)) {x | _ ≤ |weightedMean (etaAt A h ps) _ - (∫ Z, etaAt A h ps Z ∂cyMeasure p d F) / ((n : ℝ) + 2)|} +
      normalsLaw (n + 2) (sampleCount count (n + 2)) {x | _ ≤ |weightedMean (fun Z => etaAt A h ps Z ^ 2) _ -
        (∫ Z, etaAt A h ps Z ^ 2 ∂cyMeasure p d F) / ((n : ℝ) + 2)|}
    rw [e1, ← eK, ← eS]
    refine le_trans (measure_mono_ae ?_) ((measure_union_le _ _).trans (add_le_add (measure_union_le _ _) le_rfl))
    filter_upwards [hpts] with x hx hbad
    obtain ⟨Zs, hZs⟩ : ∃ Zs, Zs = (pts x).take count := ⟨_, rfl⟩
    obtain ⟨-, hw, -, haff⟩ := hx.2.2.1 count
    rw [← hZs] at hw haff
    have hlen : Zs.length = count := by rw [hZs, List.length_take, hx.1, min_eq_left hc2]
    have hmem : ∀ Z ∈ Zs, Z ≠ 0 ∧ eval Z F = 0 := fun Z hZ => hx.2.1 Z (List.mem_of_mem_take (by rw [← hZs]; exact hZ))
    have hne : Zs ≠ [] := fun h0 => hc (by rw [← hlen, h0]; rfl)
    have hrow : sampleRow n A.variety o roots (fun _ : Unit => asLists (lineDraws x)) count () ps =
        .ok ⟨ps, Zs.map homToAffineAuto, Zs.map (pointWeight (n + 2) F)⟩ := by
      unfold sampleRow
      rw [haff]
      rfl
    change ε ≤ |resultOrZero (_ >>= _) - _| at hbad
    rw [hrow] at hbad
    change ε ≤ |resultOrZero (varianceEtaLossRow A h _) - _| at hbad
    rw [row_loss hsm hF hB hk h hh Zs hne hmem (pointWeight (n + 2) F) fun Z hZ => hwpos Z (hmem Z hZ).1 (hmem Z hZ).2, hlen] at hbad
    simp only [resultOrZero] at hbad
    by_contra hcon
    change ¬ (_ ∨ _) at hcon
    rw [not_or] at hcon
    obtain ⟨hcon, c3⟩ := hcon
    change ¬ (_ ∨ _) at hcon
    rw [not_or] at hcon
    obtain ⟨c1, c2⟩ := hcon
    change ¬ (1 / (2 * Q) * ε ≤ _) at c1 c2 c3
    rw [not_le, hw, weightedMean_eq, hlen] at c1 c2 c3
    simp only [one_mul] at c1
    have hsumpos : ∀ g : (Fin (n + 2) → ℂ) → ℝ, (∀ Z ∈ Zs, 0 < g Z) → 0 < (Zs.map g).sum := fun g hg =>
      List.sum_pos _ (by
        intro y hy
        obtain ⟨Z, hZ, rfl⟩ := List.mem_map.1 hy
        exact hg Z hZ) (by simpa using hne)
    have hWpos := hsumpos (pointWeight (n + 2) F) fun Z hZ => hwpos Z (hmem Z hZ).1 (hmem Z hZ).2
    have hEpos := hsumpos (fun Z => etaAt A h ps Z * pointWeight (n + 2) F Z) fun Z hZ =>
      mul_pos (hηpos Z (hmem Z hZ).1 (hmem Z hZ).2) (hwpos Z (hmem Z hZ).1 (hmem Z hZ).2)
    have hWE : m * (Zs.map (pointWeight (n + 2) F)).sum ≤ (Zs.map fun Z => etaAt A h ps Z * pointWeight (n + 2) F Z).sum := by
      rw [← List.sum_map_mul_left]
      exact List.sum_le_sum fun Z hZ => mul_le_mul_of_nonneg_right (hlow Z (hmem Z hZ).1 (hmem Z hZ).2)
        (hwpos Z (hmem Z hZ).1 (hmem Z hZ).2).le
    have hfinal := loss_close _ _ _ (V / (n + 2)) (K / (n + 2)) (S / (n + 2)) m (1 / (2 * Q) * ε) hm (div_pos hEpos hct)
      (div_pos hV hn2) (div_pos hK hn2) (div_nonneg hS0 hn2.le) (div_pos hWpos hct)
      (by rw [← mul_div_assoc]; exact div_le_div_of_nonneg_right hWE hct.le)
      (by rw [← mul_div_assoc]; exact div_le_div_of_nonneg_right hmVK hn2.le) c1.le c2.le c3.le
    rw [← hQ] at hfinal
    have e2 : (V / ((n : ℝ) + 2)) ^ 2 * (S / (n + 2)) / (K / (n + 2)) ^ 2 - V / (n + 2) =
        etaVariance (cyMeasure p d F) (etaAt A h ps) / (n + 2) := by
      rw [eΛ]
      field_simp
    rw [e2] at hfinal
    have e3 : 1 / (2 * Q) * ε * Q = ε / 2 := by field_simp
    rw [e3] at hfinal
    linarith

/-- **C174.** The loss of `variance_eta_loss` on `count` sampled points is close to `∫ (1 - η V/K)² |Ω|² / (n + 2)`: the probability
of an error of at least `ε` is at most `C / (count ε²)`, so it converges to this value in probability. -/
theorem C174_error :
    (∃ C : ℝ, ∀ count : ℕ, count ≠ 0 → ∀ ε > 0, normalsLaw (n + 2) (sampleCount count (n + 2))
      {x | ε ≤ |resultOrZero (sampleRow n A.variety o roots (fun _ : Unit => asLists (lineDraws x)) count () ps >>=
        varianceEtaLossRow A h) - etaVariance (cyMeasure p d F) (etaAt A h ps) / (n + 2)|} ≤ ENNReal.ofReal (C / (count * ε ^ 2))) ∧
    ∀ ε > 0, Tendsto (fun count : ℕ => normalsLaw (n + 2) (sampleCount count (n + 2))
      {x | ε ≤ |resultOrZero (sampleRow n A.variety o roots (fun _ : Unit => asLists (lineDraws x)) count () ps >>=
        varianceEtaLossRow A h) - etaVariance (cyMeasure p d F) (etaAt A h ps) / (n + 2)|}) atTop (𝓝 0) := by
  obtain ⟨κ, hκ, f, M, hf, hcov⟩ := loss_cover ho hr hsm hn p d hS hF hB hk h hh
  have he := fun k => (C132_error ho hr hsm hn p d hS hF (hf k).1 (hf k).2.1 (hf k).2.2).1
  choose C hC using he
  have hC' : ∀ count : ℕ, count ≠ 0 → ∀ ε > 0, normalsLaw (n + 2) (sampleCount count (n + 2))
      {x | ε ≤ |resultOrZero (sampleRow n A.variety o roots (fun _ : Unit => asLists (lineDraws x)) count () ps >>=
        varianceEtaLossRow A h) - etaVariance (cyMeasure p d F) (etaAt A h ps) / (n + 2)|} ≤
      ENNReal.ofReal ((∑ k, max (C k) 0) / κ ^ 2 / (count * ε ^ 2)) := by
    intro count hc ε hε
    refine (hcov count hc ε hε).trans ?_
    have hct : (0 : ℝ) < count := by exact_mod_cast Nat.pos_of_ne_zero hc
    have e1 : (∑ k, max (C k) 0) / κ ^ 2 / (count * ε ^ 2) = ∑ k, max (C k) 0 / (count * (κ * ε) ^ 2) := by
      rw [← Finset.sum_div]
      field_simp
    rw [e1, ENNReal.ofReal_sum_of_nonneg fun k _ => by positivity]
    refine Finset.sum_le_sum fun k _ => (hC k count hc (κ * ε) (by positivity)).trans (ENNReal.ofReal_le_ofReal ?_)
    exact div_le_div_of_nonneg_right (le_max_left _ _) (by positivity)
  refine ⟨⟨_, hC'⟩, fun ε hε => ?_⟩
  refine tendsto_of_tendsto_of_tendsto_of_le_of_le' tendsto_const_nhds (inverse_square_tendsto ((∑ k, max (C k) 0) / κ ^ 2) ε hε)
    (Eventually.of_forall fun _ => zero_le) ?_
  filter_upwards [eventually_ne_atTop 0] with count hc
  exact hC' count hc ε hε

/-- **C174.** The loss on sampled points converges to zero in probability, as the number of points grows, exactly if the metric is
Ricci-flat. -/
theorem C174_flat :
    (∀ ε > 0, Tendsto (fun count : ℕ => normalsLaw (n + 2) (sampleCount count (n + 2))
      {x | ε ≤ |resultOrZero (sampleRow n A.variety o roots (fun _ : Unit => asLists (lineDraws x)) count () ps >>=
        varianceEtaLossRow A h)|}) atTop (𝓝 0)) ↔
      ∀ Z, Z ≠ 0 → eval Z F = 0 → ∃ i j, A.ricci h (List.ofFn Z) (.vec ps) none none none = .ok (0, i, j) := by
  rw [← (C138_homogeneous hsm hn 0 0 hS hF hB hk h hh).1]
  have herr := (C174_error ho hr hsm hn 0 0 hS hF hB hk h hh).2
  obtain ⟨-, hs0, hz⟩ := C174_variance hsm hn 0 0 hS hF hB hk h hh
  rw [← hz]
  have hn2 : (0 : ℝ) < n + 2 := by positivity
  obtain ⟨σ, hσ⟩ : ∃ σ, σ = etaVariance (cyMeasure 0 0 F) (etaAt A h ps) / (n + 2) := ⟨_, rfl⟩
  have hσ0 : etaVariance (cyMeasure 0 0 F) (etaAt A h ps) = 0 ↔ σ = 0 := by
    rw [hσ, div_eq_zero_iff, or_iff_left hn2.ne']
  have hσp : 0 ≤ σ := by rw [hσ]; exact div_nonneg hs0 hn2.le
  rw [← hσ] at herr
  rw [hσ0]
  constructor
  · intro hlim
    by_contra hne
    have hpos : 0 < σ := lt_of_le_of_ne hσp (Ne.symm hne)
    have h1 := (hlim (σ / 2) (by positivity)).add (herr (σ / 2) (by positivity))
    rw [add_zero] at h1
    have h5 := ge_of_tendsto' h1 (b := 1) (fun count => by
      rw [← measure_univ (μ := normalsLaw (n + 2) (sampleCount count (n + 2)))]
      refine (measure_mono fun x _ => ?_).trans (measure_union_le _ _)
      by_contra hcon
      rw [mem_union, not_or, mem_ofPred_eq, mem_ofPred_eq, not_le, not_le] at hcon
      have h3 := abs_lt.1 hcon.1
      have h4 := abs_lt.1 hcon.2
      linarith)
    exact absurd h5 (by norm_num)
  · intro h0 ε hε
    have := herr ε hε
    rw [h0] at this
    simpa using this

omit hsm hn hS hF hB hk hh ho hr in
/-- The hypotheses of C174 hold for the Dwork quintic with `psi = 2`, all sections of degree 2 and `h = 1`. -/
example : ∃ (A : AlgebraicMetric 4) (F : MvPolynomial (Fin 5) ℂ) (h : A.H),
    A = ⟨.dwork 5 (.flag true), monomialBasisFull 4 2⟩ ∧ ∀ ε > 0,
      Tendsto (fun count : ℕ => normalsLaw 5 (sampleCount count 5)
        {x | ε ≤ |resultOrZero (sampleRow 3 A.variety someOrder someRoots (fun _ : Unit => asLists (lineDraws x)) count () [2] >>=
          varianceEtaLossRow A h) - etaVariance (cyMeasure (n := 3) 0 0 F) (etaAt (n := 3) A h [2]) / ((3 : ℕ) + 2)|}) atTop (𝓝 0) := by
  obtain ⟨F, hF, hsm⟩ := C114_quintic 2 []
  exact ⟨⟨.dwork 5 (.flag true), monomialBasisFull 4 2⟩, F, 1, rfl,
    (C174_error (n := 3) (A := ⟨.dwork 5 (.flag true), monomialBasisFull 4 2⟩) someOrder_valid someRoots_complete
      (hsm.2 (by norm_num)) (by norm_num) 0 0 (.dwork 4 (.flag true) (by simp [DworkFactor.value]) 2) hF
      (C105_sections F 2).1 two_ne_zero 1 Matrix.PosDef.one).2⟩

end Cyjax
