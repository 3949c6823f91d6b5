import Verif.Lemmas.UniformAccuracy

/-! # C180: the accuracy of a matrix chosen with the sampled points, and existence of minima -/

namespace Cyjax

open MeasureTheory ProbabilityTheory MvPolynomial Cyjax.Spec Cyjax.Polynomial Cyjax.Variety Cyjax.Donaldson Cyjax.Projective Cyjax.Ml Set
  Filter Topology
open scoped ENNReal ComplexOrder

variable {n : ℕ} {F : MvPolynomial (Fin (n + 2)) ℂ} {A : AlgebraicMetric (n + 1)} {ps : List ℂ} {o : SymOrder}
  (ho : o.Valid) {roots : List ℂ → List ℂ} (hr : CompleteRoots roots) (hsm : SmoothHypersurface F) (hn : n ≠ 0)
  (p : Fin (n + 2)) (d : Fin (n + 1)) (hS : Samplable A.variety (n + 1) (n + 2) ps)
  (hF : Hypersurface A.variety (.vec ps) (n + 1) (n + 2) F) (hB : SpansModulo F A.sections.degree A.sections.rows)
  (hk : A.sections.degree ≠ 0)

section Continuous

include hsm hn hS hF hB hk

/-- **C180.** The accuracy and the limit of the loss are continuous functions of the matrix, as long as it is positive definite. -/
theorem C180_continuous : ContinuousOn (fun h : A.H => accuracy (cyMeasure p d F) (etaAt A h ps)) {h | h.PosDef} ∧
    ContinuousOn (limitLoss p d F A ps) {h : A.H | h.PosDef} := by
  obtain ⟨hfin0, hne0, -⟩ := C130_measure hsm hn p d hS hF
  have hfin : IsFiniteMeasure (cyMeasure p d F) := ⟨hfin0.lt_top⟩
  have hcyae : ∀ᵐ Z ∂cyMeasure p d F, Z ≠ 0 ∧ Z ∈ regularSet p d F := by
    rw [cyMeasure_withDensity p d hF.homogeneous]
    exact (withDensity_absolutelyContinuous _ _).ae_le (ae_fsMeasure hF.homogeneous p d)
  have hsqi : ∀ (g : A.H) (_ : g.PosDef), Integrable (fun Z => etaAt A g ps Z ^ 2) (cyMeasure p d F) := by
    intro g hg
    obtain ⟨B, hBd⟩ := etaAt_bounded hF g hB hg hsm
    refine (integrable_const (B ^ 2)).mono' ((measurable_etaAt hF g hB).pow_const 2).aestronglyMeasurable ?_
    filter_upwards [hcyae] with Z hZ
    rw [Real.norm_eq_abs, abs_pow]
    exact pow_le_pow_left₀ (abs_nonneg _) (hBd Z hZ.1 hZ.2.1) 2
  refine ⟨fun h₀ hh₀ => ?_, fun h₀ hh₀ => ?_⟩
  · refine Metric.tendsto_nhds.2 fun ε hε => ?_
    filter_upwards [mem_nhdsWithin_of_mem_nhds (accuracy_near hsm hn p d hS hF hB hk h₀ hh₀ (ε / 2) (by positivity)),
      self_mem_nhdsWithin] with h h1 h2
    rw [dist_comm, Real.dist_eq]
    exact (h1 h2).trans_lt (by linarith)
  · have hcg : (𝓝[{h : A.H | h.PosDef}] h₀).IsCountablyGenerated := by
      have : FirstCountableTopology A.H :=
        inferInstanceAs (FirstCountableTopology (Fin A.sections.size → Fin A.sections.size → ℂ))
      infer_instance
    obtain ⟨m, hm, M, hnear⟩ := eta_bounds_near hsm hF hB hk h₀ hh₀
    have hK : Tendsto (fun h : A.H => ∫ Z, etaAt A h ps Z ∂cyMeasure p d F) (𝓝[{h | h.PosDef}] h₀)
        (𝓝 (∫ Z, etaAt A h₀ ps Z ∂cyMeasure p d F)) := by
      refine tendsto_integral_filter_of_norm_le_const ?_ ⟨|M| + 1, ?_⟩ ?_
      · exact Eventually.of_forall fun h => (measurable_etaAt hF h hB).aestronglyMeasurable
      · filter_upwards [mem_nhdsWithin_of_mem_nhds (hnear 1 one_pos)] with h h1
        filter_upwards [hcyae] with Z hZ
        obtain ⟨-, h2, -, h3⟩ := h1 Z hZ.1 hZ.2.1
        rw [Real.norm_eq_abs]
        have h4 := abs_sub_abs_le_abs_sub (etaAt A h ps Z) (etaAt A h₀ ps Z)
        rw [abs_sub_comm] at h3
        linarith [le_abs_self M]
      · filter_upwards [hcyae] with Z hZ
        refine Metric.tendsto_nhds.2 fun ε hε => ?_
        filter_upwards [mem_nhdsWithin_of_mem_nhds (hnear (ε / 2) (by positivity))] with h h1
        rw [dist_comm, Real.dist_eq]
        exact (h1 Z hZ.1 hZ.2.1).2.2.2.trans_lt (by linarith)
    have hS2 : Tendsto (fun h : A.H => ∫ Z, etaAt A h ps Z ^ 2 ∂cyMeasure p d F) (𝓝[{h | h.PosDef}] h₀)
        (𝓝 (∫ Z, etaAt A h₀ ps Z ^ 2 ∂cyMeasure p d F)) := by
      refine tendsto_integral_filter_of_norm_le_const ?_ ⟨(|M| + 1) ^ 2, ?_⟩ ?_
      · exact Eventually.of_forall fun h => ((measurable_etaAt hF h hB).pow_const 2).aestronglyMeasurable
      · filter_upwards [mem_nhdsWithin_of_mem_nhds (hnear 1 one_pos)] with h h1
        filter_upwards [hcyae] with Z hZ
        obtain ⟨-, h2, -, h3⟩ := h1 Z hZ.1 hZ.2.1
        rw [Real.norm_eq_abs, abs_pow]
        have h4 := abs_sub_abs_le_abs_sub (etaAt A h ps Z) (etaAt A h₀ ps Z)
        rw [abs_sub_comm] at h3
        exact pow_le_pow_left₀ (abs_nonneg _) (by linarith [le_abs_self M]) 2
      · filter_upwards [hcyae] with Z hZ
        refine Tendsto.pow ?_ 2
        refine Metric.tendsto_nhds.2 fun ε hε => ?_
        filter_upwards [mem_nhdsWithin_of_mem_nhds (hnear (ε / 2) (by positivity))] with h h1
        rw [dist_comm, Real.dist_eq]
        exact (h1 Z hZ.1 hZ.2.1).2.2.2.trans_lt (by linarith)
    obtain ⟨V₀, K₀, S₀, hV, hK₀, -, eV, eK, eS, eΛ, -, -⟩ := eta_integrals hsm hn p d hS hF hB hk h₀ hh₀
    have hlim : Tendsto (fun h : A.H => (V₀ ^ 2 * (∫ Z, etaAt A h ps Z ^ 2 ∂cyMeasure p d F) /
        (∫ Z, etaAt A h ps Z ∂cyMeasure p d F) ^ 2 - V₀) / ((n : ℝ) + 2)) (𝓝[{h | h.PosDef}] h₀) (𝓝 (limitLoss p d F A ps h₀)) := by
      have e : limitLoss p d F A ps h₀ = (V₀ ^ 2 * (∫ Z, etaAt A h₀ ps Z ^ 2 ∂cyMeasure p d F) /
          (∫ Z, etaAt A h₀ ps Z ∂cyMeasure p d F) ^ 2 - V₀) / ((n : ℝ) + 2) := by
        unfold limitLoss
        rw [eΛ, ← eK, ← eS]
      rw [e]
      refine Tendsto.div_const (Tendsto.sub_const (Tendsto.div (hS2.const_mul _) (hK.pow 2) ?_) _) _
      rw [← eK]
      exact pow_ne_zero 2 hK₀.ne'
    refine hlim.congr' ?_
    filter_upwards [self_mem_nhdsWithin] with h hh
    obtain ⟨V₁, K₁, S₁, -, -, -, eV₁, eK₁, eS₁, eΛ₁, -, -⟩ := eta_integrals hsm hn p d hS hF hB hk h hh
    unfold limitLoss
    rw [eΛ₁, ← eK₁, ← eS₁, eV₁, ← eV]

include ho hr

/-- **C180.** So are the loss and the accuracy on sampled points, for almost all draws. -/
theorem C180_continuous_sampled (count : ℕ) (hcount : count ≠ 0) : ∀ᵐ x ∂normalsLaw (n + 2) (sampleCount count (n + 2)),
    ContinuousOn (sampledLoss A o roots ps count x) {h : A.H | h.PosDef} ∧
    ContinuousOn (fun h : A.H => resultOrZero (A.sigmaAccuracy h o roots ps count (asLists (lineDraws x)))) {h | h.PosDef} := by
  filter_upwards [sampled_values ho hr hsm hn hS hF hB hk count hcount] with x hx
  obtain ⟨Zs, hne, hlen, hmem, hval⟩ := hx
  have hct : (0 : ℝ) < count := by exact_mod_cast Nat.pos_of_ne_zero hcount
  have hη : ∀ h₀ : A.H, h₀.PosDef → ∀ Z ∈ Zs, Tendsto (fun h : A.H => etaAt A h ps Z) (𝓝[{h | h.PosDef}] h₀) (𝓝 (etaAt A h₀ ps Z)) := by
    intro h₀ hh₀ Z hZ
    obtain ⟨m, hm, M, hnear⟩ := eta_bounds_near hsm hF hB hk h₀ hh₀
    refine Metric.tendsto_nhds.2 fun ε hε => ?_
    filter_upwards [mem_nhdsWithin_of_mem_nhds (hnear (ε / 2) (by positivity))] with h h1
    rw [dist_comm, Real.dist_eq]
    exact (h1 Z (hmem Z hZ).1.1 (hmem Z hZ).1.2).2.2.2.trans_lt (by linarith)
  have hsum : ∀ (h₀ : A.H) (f : A.H → (Fin (n + 2) → ℂ) → ℝ),
      (∀ Z ∈ Zs, Tendsto (fun h => f h Z) (𝓝[{h | h.PosDef}] h₀) (𝓝 (f h₀ Z))) →
      Tendsto (fun h => (Zs.map (f h)).sum) (𝓝[{h | h.PosDef}] h₀) (𝓝 ((Zs.map (f h₀)).sum)) := by
    intro h₀ f hf
    exact tendsto_list_sum (f := fun Z h => f h Z) (a := f h₀) Zs hf
  refine ⟨fun h₀ hh₀ => ?_, fun h₀ hh₀ => ?_⟩
  · have hE : 0 < (Zs.map fun Z => etaAt A h₀ ps Z * pointWeight (n + 2) F Z).sum := List.sum_pos _ (by
      intro y hy
      obtain ⟨Z, hZ, rfl⟩ := List.mem_map.1 hy
      exact mul_pos (etaAt_pos hF h₀ hB hh₀ hsm hk Z (hmem Z hZ).1.1 (hmem Z hZ).1.2).1 (hmem Z hZ).2) (by simpa using hne)
    have h1 := hsum h₀ (fun h Z => etaAt A h ps Z * pointWeight (n + 2) F Z) fun Z hZ => (hη h₀ hh₀ Z hZ).mul_const _
    have h2 := hsum h₀ (fun h Z => etaAt A h ps Z ^ 2 * pointWeight (n + 2) F Z) fun Z hZ => ((hη h₀ hh₀ Z hZ).pow 2).mul_const _
    have h3 := (((h2.div_const (count : ℝ)).const_mul (((Zs.map (pointWeight (n + 2) F)).sum / count) ^ 2)).div
      ((h1.div_const (count : ℝ)).pow 2) (by positivity)).sub_const ((Zs.map (pointWeight (n + 2) F)).sum / count)
    change Tendsto _ _ (𝓝 (sampledLoss A o roots ps count x h₀))
    rw [(hval h₀ hh₀).2]
    refine h3.congr' ?_
    filter_upwards [self_mem_nhdsWithin] with h hh
    exact (hval h hh).2.symm
  · obtain ⟨m, hm, M, hnear⟩ := eta_bounds_near hsm hF hB hk h₀ hh₀
    obtain ⟨c, hc⟩ : ∃ c, c = m⁻¹ + |M| * m⁻¹ ^ 2 := ⟨_, rfl⟩
    have hc0 : 0 < c := by rw [hc]; positivity
    refine Metric.tendsto_nhds.2 fun ε hε => ?_
    filter_upwards [mem_nhdsWithin_of_mem_nhds (hnear (ε / 2 / c) (by positivity)), self_mem_nhdsWithin] with h h1 hh
    rw [(hval h hh).1, (hval h₀ hh₀).1, dist_comm, Real.dist_eq]
    have := listDeviation_close hne (w := pointWeight (n + 2) F) (η := etaAt A h₀ ps) (η' := etaAt A h ps) (m := m) (M := |M|)
      (δ := ε / 2 / c) hm (fun Z hZ => (hmem Z hZ).2)
      (fun Z hZ => ⟨(h1 Z (hmem Z hZ).1.1 (hmem Z hZ).1.2).1, (h1 Z (hmem Z hZ).1.1 (hmem Z hZ).1.2).2.1.trans (le_abs_self M)⟩)
      (fun Z hZ => (h1 Z (hmem Z hZ).1.1 (hmem Z hZ).1.2).2.2.1) fun Z hZ => (h1 Z (hmem Z hZ).1.1 (hmem Z hZ).1.2).2.2.2
    rw [← hc, div_mul_cancel₀ _ hc0.ne'] at this
    exact this.trans_lt (by linarith)

end Continuous

section Compact

variable {K : Set A.H} (hK : IsCompact K) (hpos : ∀ h ∈ K, h.PosDef)

include ho hr hsm hn hS hF hB hk hK hpos

/-- **C180.** `sigma_accuracy` is close to the accuracy for all matrices of a compact set at once, except with a probability that decays
exponentially with the number of points. So the accuracy is right also for a matrix that was chosen with the same points. -/
theorem C180_uniform (ε : ℝ) (hε : 0 < ε) : ∃ B > 0, ∃ c > 0, ∀ count : ℕ, count ≠ 0 → normalsLaw (n + 2) (sampleCount count (n + 2))
    {x | ∃ h ∈ K, ε ≤ |resultOrZero (A.sigmaAccuracy h o roots ps count (asLists (lineDraws x))) -
      accuracy (cyMeasure p d F) (etaAt A h ps)|} ≤ ENNReal.ofReal (B * Real.exp (count * -c)) := by
  have hloc : ∀ h₀ : A.H, ∃ U ∈ 𝓝 h₀, ∃ c > 0, h₀ ∈ K → ∀ count : ℕ, count ≠ 0 →
      normalsLaw (n + 2) (sampleCount count (n + 2))
        {x | ∃ h ∈ U, h.PosDef ∧ ε ≤ |resultOrZero (A.sigmaAccuracy h o roots ps count (asLists (lineDraws x))) -
          accuracy (cyMeasure p d F) (etaAt A h ps)|} ≤ ENNReal.ofReal (6 * Real.exp (count * -c)) := by
    intro h₀
    by_cases h0 : h₀ ∈ K
    · have hh₀ := hpos h₀ h0
      obtain ⟨C, hC, hb⟩ := C141_sigma ho hr hsm hn p d hS hF hB hk h₀ hh₀
      obtain ⟨m, hm, M, hnear⟩ := eta_bounds_near hsm hF hB hk h₀ hh₀
      obtain ⟨q, hq⟩ : ∃ q, q = m⁻¹ + |M| * m⁻¹ ^ 2 := ⟨_, rfl⟩
      have hq0 : 0 < q := by rw [hq]; positivity
      have hU := (hnear (ε / 4 / q) (by positivity)).and (accuracy_near hsm hn p d hS hF hB hk h₀ hh₀ (ε / 4) (by positivity))
      refine ⟨_, hU, (ε / 4) ^ 2 / C, by positivity, fun _ count hcount => le_trans (measure_mono_ae ?_)
        ((hb count hcount (ε / 4) (by positivity)).trans (le_of_eq ?_))⟩
      · filter_upwards [sampled_values ho hr hsm hn hS hF hB hk count hcount] with x hx hbad
        obtain ⟨Zs, hne, hlen, hmem, hval⟩ := hx
        obtain ⟨h, ⟨h1, h2⟩, hh, hbad⟩ := hbad
        by_contra hcon
        change ¬ (ε / 4 ≤ |_|) at hcon
        rw [not_le, (hval h₀ hh₀).1] at hcon
        rw [(hval h hh).1] at hbad
        have h3 := listDeviation_close hne (w := pointWeight (n + 2) F) (η := etaAt A h₀ ps) (η' := etaAt A h ps) (m := m) (M := |M|)
          (δ := ε / 4 / q) hm (fun Z hZ => (hmem Z hZ).2)
          (fun Z hZ => ⟨(h1 Z (hmem Z hZ).1.1 (hmem Z hZ).1.2).1, (h1 Z (hmem Z hZ).1.1 (hmem Z hZ).1.2).2.1.trans (le_abs_self M)⟩)
          (fun Z hZ => (h1 Z (hmem Z hZ).1.1 (hmem Z hZ).1.2).2.2.1) fun Z hZ => (h1 Z (hmem Z hZ).1.1 (hmem Z hZ).1.2).2.2.2
        rw [← hq, div_mul_cancel₀ _ hq0.ne'] at h3
        have h4 := abs_le.1 h3
        have h5 := abs_le.1 (h2 hh)
        have h6 := abs_lt.1 hcon
        simp only [resultOrZero] at hbad h6
        refine absurd hbad (not_le.2 (abs_lt.2 ⟨?_, ?_⟩)) <;> linarith [h4.1, h4.2, h5.1, h5.2, h6.1, h6.2]
      · congr 3
        ring
    · exact ⟨univ, univ_mem, 1, one_pos, fun h => absurd h h0⟩
  choose U hU c hc0 hc using hloc
  obtain ⟨T, hTK, hT⟩ := hK.elim_nhds_subcover U fun h _ => hU h
  rcases T.eq_empty_or_nonempty with rfl | hne
  · refine ⟨1, one_pos, 1, one_pos, fun count _ => ?_⟩
    have : {x : Fin 2 → Fin (sampleCount count (n + 2)) → Fin (2 * (n + 2)) → ℝ | ∃ h ∈ K, ε ≤ |resultOrZero (A.sigmaAccuracy h o roots ps count (asLists (lineDraws x))) -
      accuracy (cyMeasure p d F) (etaAt A h ps)|} = ∅ := by
      refine eq_empty_of_forall_notMem fun x => ?_
      rintro ⟨h, hh, -⟩
      simpa using hT hh
    rw [this, measure_empty]
    exact zero_le
  · obtain ⟨g, hg, hmin⟩ := T.exists_min_image c hne
    refine ⟨T.card * 6, by have := hne.card_pos; positivity, c g, hc0 g, fun count hcount => ?_⟩
    have hsub : {x : Fin 2 → Fin (sampleCount count (n + 2)) → Fin (2 * (n + 2)) → ℝ | ∃ h ∈ K, ε ≤ |resultOrZero (A.sigmaAccuracy h o roots ps count (asLists (lineDraws x))) -
          accuracy (cyMeasure p d F) (etaAt A h ps)|} ⊆
        ⋃ h₀ ∈ T, {x | ∃ h ∈ U h₀, h.PosDef ∧ ε ≤ |resultOrZero (A.sigmaAccuracy h o roots ps count (asLists (lineDraws x))) -
          accuracy (cyMeasure p d F) (etaAt A h ps)|} := by
      rintro x ⟨h, hh, hx⟩
      obtain ⟨h₀, h1, h2⟩ := mem_iUnion₂.1 (hT hh)
      exact mem_iUnion₂.2 ⟨h₀, h1, h, h2, hpos h hh, hx⟩
    refine (measure_mono hsub).trans ((measure_biUnion_finset_le _ _).trans ?_)
    refine (Finset.sum_le_sum (g := fun _ => ENNReal.ofReal (6 * Real.exp (count * -c g))) fun h₀ h1 =>
      (hc h₀ (hTK h₀ h1) count hcount).trans (ENNReal.ofReal_le_ofReal ?_)).trans (le_of_eq ?_)
    · refine mul_le_mul_of_nonneg_left (Real.exp_le_exp.2 ?_) (by norm_num)
      exact mul_le_mul_of_nonneg_left (neg_le_neg (hmin h₀ h1)) (by positivity)
    · rw [Finset.sum_const, nsmul_eq_mul, mul_assoc, ENNReal.ofReal_mul (p := (T.card : ℝ)) (Nat.cast_nonneg _), ENNReal.ofReal_natCast]

/-- **C180.** On a compact set the limit of the loss has a minimum, and so has the loss on the sampled points, for almost all draws. -/
theorem C180_minimum (hne : K.Nonempty) :
    (∃ h ∈ K, ∀ h' ∈ K, limitLoss p d F A ps h ≤ limitLoss p d F A ps h') ∧
    ∀ count : ℕ, count ≠ 0 → ∀ᵐ x ∂normalsLaw (n + 2) (sampleCount count (n + 2)), ∃ h ∈ K, ∀ h' ∈ K,
      sampledLoss A o roots ps count x h ≤ sampledLoss A o roots ps count x h' := by
  refine ⟨?_, fun count hcount => ?_⟩
  · obtain ⟨h, hh, hmin⟩ := hK.exists_isMinOn hne ((C180_continuous hsm hn p d hS hF hB hk).2.mono hpos)
    exact ⟨h, hh, fun h' hh' => hmin hh'⟩
  · filter_upwards [C180_continuous_sampled ho hr hsm hn hS hF hB hk count hcount] with x hx
    obtain ⟨h, hh, hmin⟩ := hK.exists_isMinOn hne (hx.1.mono hpos)
    exact ⟨h, hh, fun h' hh' => hmin hh'⟩

end Compact

/-- The hypotheses of C180 hold for the Dwork quintic with `psi = 2`, all sections of degree 2 and all diagonal matrices with entries
between 1 and 2. -/
example : ∃ (A : AlgebraicMetric 4) (F : MvPolynomial (Fin 5) ℂ) (K : Set A.H), A = ⟨.dwork 5 (.flag true), monomialBasisFull 4 2⟩ ∧
    K = (fun v : Fin A.sections.size → ℝ => Matrix.diagonal fun i => (v i : ℂ)) '' Icc 1 2 ∧
    (∃ h ∈ K, ∀ h' ∈ K, limitLoss (n := 3) 0 0 F A [2] h ≤ limitLoss (n := 3) 0 0 F A [2] h') ∧
    ∀ ε > 0, ∃ B > 0, ∃ c > 0, ∀ count : ℕ, count ≠ 0 → normalsLaw 5 (sampleCount count 5)
      {x | ∃ h ∈ K, ε ≤ |resultOrZero (A.sigmaAccuracy h someOrder someRoots [2] count (asLists (lineDraws x))) -
        accuracy (cyMeasure (n := 3) 0 0 F) (etaAt (n := 3) A h [2])|} ≤ ENNReal.ofReal (B * Real.exp (count * -c)) := by
  obtain ⟨F, hF, hsm⟩ := C114_quintic 2 []
  let A : AlgebraicMetric 4 := ⟨.dwork 5 (.flag true), monomialBasisFull 4 2⟩
  have hK : IsCompact ((fun v : Fin A.sections.size → ℝ => (Matrix.diagonal fun i => (v i : ℂ) : A.H)) '' Icc 1 2) :=
    isCompact_Icc.image (continuous_pi fun i => Complex.continuous_ofReal.comp (continuous_apply i)).matrix_diagonal
  have hpos : ∀ h ∈ (fun v : Fin A.sections.size → ℝ => (Matrix.diagonal fun i => (v i : ℂ) : A.H)) '' Icc 1 2, h.PosDef := by
    rintro _ ⟨v, hv, rfl⟩
    refine Matrix.PosDef.diagonal fun i => ?_
    have : (1 : ℝ) ≤ v i := hv.1 i
    exact_mod_cast (by linarith : (0 : ℝ) < v i)
  have hS : Samplable (.dwork 5 (.flag true)) 4 5 [2] := .dwork 4 (.flag true) (by simp [DworkFactor.value]) 2
  refine ⟨A, F, _, rfl, rfl, (C180_minimum (n := 3) (A := A) someOrder_valid someRoots_complete (hsm.2 (by norm_num)) (by norm_num) 0 0 hS hF
      (C105_sections F 2).1 two_ne_zero hK hpos ?_).1, fun ε hε =>
    C180_uniform (n := 3) (A := A) someOrder_valid someRoots_complete (hsm.2 (by norm_num)) (by norm_num) 0 0 hS hF
      (C105_sections F 2).1 two_ne_zero hK hpos ε hε⟩
  exact (nonempty_Icc.2 (by intro i; norm_num)).image _

end Cyjax
