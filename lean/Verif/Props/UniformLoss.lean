import Verif.Lemmas.UniformLoss
import Verif.Lemmas.UniformNetwork

/-! # C179: training on sampled points -/

namespace Cyjax

open MeasureTheory ProbabilityTheory MvPolynomial Cyjax.Spec Cyjax.Polynomial Cyjax.Variety Cyjax.Donaldson Cyjax.Projective Cyjax.Ml Set
  Filter Topology
open scoped ENNReal ComplexOrder

universe u v

section Single

variable {n : ℕ} {F : MvPolynomial (Fin (n + 2)) ℂ} {A : AlgebraicMetric (n + 1)} {ps : List ℂ} {o : SymOrder}
  (ho : o.Valid) {roots : List ℂ → List ℂ} (hr : CompleteRoots roots) (hsm : SmoothHypersurface F) (hn : n ≠ 0)
  (p : Fin (n + 2)) (d : Fin (n + 1)) (hS : Samplable A.variety (n + 1) (n + 2) ps)
  (hF : Hypersurface A.variety (.vec ps) (n + 1) (n + 2) F) (hB : SpansModulo F A.sections.degree A.sections.rows)
  (hk : A.sections.degree ≠ 0) {K : Set A.H} (hK : IsCompact K) (hpos : ∀ h ∈ K, h.PosDef)

include ho hr hsm hn hS hF hB hk hK hpos

/-- **C179.** On a compact set of positive definite matrices, the loss on the sampled points is close to its limit for all matrices at the
same time, except with a probability that decays exponentially with the number of points. -/
theorem C179_uniform (ε : ℝ) (hε : 0 < ε) : ∃ B > 0, ∃ c > 0, ∀ count : ℕ, count ≠ 0 → normalsLaw (n + 2) (sampleCount count (n + 2))
    {x | ∃ h ∈ K, ε ≤ |sampledLoss A o roots ps count x h - limitLoss p d F A ps h|} ≤ ENNReal.ofReal (B * Real.exp (count * -c)) := by
  have hloc : ∀ h₀ : A.H, ∃ U ∈ 𝓝 h₀, ∃ c > 0, h₀ ∈ K → ∀ count : ℕ, count ≠ 0 →
      normalsLaw (n + 2) (sampleCount count (n + 2))
        {x | ∃ h ∈ U, h.PosDef ∧ ε ≤ |sampledLoss A o roots ps count x h - limitLoss p d F A ps h|} ≤
      ENNReal.ofReal (6 * Real.exp (count * -c)) := by
    intro h₀
    by_cases h0 : h₀ ∈ K
    · obtain ⟨t, ht, U, hU, f, M, hf, hcov⟩ := loss_cover_uniform ho hr hsm hn p d hS hF hB hk h₀ (hpos h₀ h0) ε hε
      have he := fun k => C141_error ho hr hsm hn p d hS hF (hf k).1 (hf k).2.1 (hf k).2.2
      choose C hC0 hC using he
      have hC' : 0 < ∑ k, C k := Finset.sum_pos (fun k _ => hC0 k) Finset.univ_nonempty
      refine ⟨U, hU, t ^ 2 / ∑ k, C k, by positivity, fun _ count hc => (hcov count hc).trans ?_⟩
      have hle : ∀ k, normalsLaw (n + 2) (sampleCount count (n + 2))
          {x | t ≤ |weightedMean (f k) (sampleIntersectOpt n A.variety o roots ps count (asLists (lineDraws x)) false true) -
            (∫ Z, f k Z ∂cyMeasure p d F) / (n + 2)|} ≤ ENNReal.ofReal (2 * Real.exp (count * -(t ^ 2 / ∑ k, C k))) := by
        intro k
        refine (hC k count hc t ht).trans (ENNReal.ofReal_le_ofReal (mul_le_mul_of_nonneg_left (Real.exp_le_exp.2 ?_) zero_le_two))
        have h1 : C k ≤ ∑ k, C k := Finset.single_le_sum (fun k _ => (hC0 k).le) (Finset.mem_univ k)
        rw [neg_div, mul_neg, neg_le_neg_iff, ← mul_div_assoc]
        exact div_le_div_of_nonneg_left (by positivity) (hC0 k) h1
      refine (Finset.sum_le_sum fun k _ => hle k).trans (le_of_eq ?_)
      rw [← ENNReal.ofReal_sum_of_nonneg fun k _ => by positivity]
      congr 1
      rw [Finset.sum_const, Finset.card_univ, Fintype.card_fin]
      simp only [nsmul_eq_mul]
      push_cast
      ring
    · exact ⟨univ, univ_mem, 1, one_pos, fun h => absurd h h0⟩
  choose U hU c hc0 hc using hloc
  obtain ⟨T, hTK, hT⟩ := hK.elim_nhds_subcover U fun h _ => hU h
  rcases T.eq_empty_or_nonempty with rfl | hne
  · refine ⟨1, one_pos, 1, one_pos, fun count _ => ?_⟩
    have : {x | ∃ h ∈ K, ε ≤ |sampledLoss A o roots ps count x h - limitLoss p d F A ps h|} = ∅ := by
      refine eq_empty_of_forall_notMem fun x => ?_
      rintro ⟨h, hh, -⟩
      simpa using hT hh
    rw [this, measure_empty]
    exact zero_le
  · obtain ⟨g, hg, hmin⟩ := T.exists_min_image c hne
    refine ⟨T.card * 6, by have := hne.card_pos; positivity, c g, hc0 g, fun count hcount => ?_⟩
    have hsub : {x | ∃ h ∈ K, ε ≤ |sampledLoss A o roots ps count x h - limitLoss p d F A ps h|} ⊆
        ⋃ h₀ ∈ T, {x | ∃ h ∈ U h₀, h.PosDef ∧ ε ≤ |sampledLoss A o roots ps count x h - limitLoss p d F A ps h|} := by
      rintro x ⟨h, hh, hx⟩
      obtain ⟨h₀, h1, h2⟩ := mem_iUnion₂.1 (hT hh)
      exact mem_iUnion₂.2 ⟨h₀, h1, h, h2, hpos h hh, hx⟩
    refine (measure_mono hsub).trans ((measure_biUnion_finset_le _ _).trans ?_)
    refine (Finset.sum_le_sum (g := fun _ => ENNReal.ofReal (6 * Real.exp (count * -c g))) fun h₀ h1 =>
      (hc h₀ (hTK h₀ h1) count hcount).trans (ENNReal.ofReal_le_ofReal ?_)).trans (le_of_eq ?_)
    · refine mul_le_mul_of_nonneg_left (Real.exp_le_exp.2 ?_) (by norm_num)
      exact mul_le_mul_of_nonneg_left (neg_le_neg (hmin h₀ h1)) (by positivity)
    · rw [Finset.sum_const, nsmul_eq_mul, mul_assoc, ENNReal.ofReal_mul (p := (T.card : ℝ)) (Nat.cast_nonneg _), ENNReal.ofReal_natCast]

/-- **C179.** Training gives what it should: if a matrix of the set minimises the loss on the sampled points up to `τ`, its limit of the
loss is within `τ + 2 ε` of that of every other matrix of the set, and its accuracy is at most `√((loss + ε) (n + 2) / V)`, except with
an exponentially small probability. The matrix may depend on the points. -/
theorem C179_training (ε : ℝ) (hε : 0 < ε) : ∃ B > 0, ∃ c > 0, ∀ count : ℕ, count ≠ 0 → normalsLaw (n + 2) (sampleCount count (n + 2))
    {x | ¬ ∀ h ∈ K,
      (∀ τ, (∀ h' ∈ K, sampledLoss A o roots ps count x h ≤ sampledLoss A o roots ps count x h' + τ) →
        ∀ h' ∈ K, limitLoss p d F A ps h < limitLoss p d F A ps h' + τ + 2 * ε) ∧
      accuracy (cyMeasure p d F) (etaAt A h ps) ^ 2 * ((cyMeasure p d F univ).toReal / (n + 2)) <
        sampledLoss A o roots ps count x h + ε} ≤ ENNReal.ofReal (B * Real.exp (count * -c)) := by
  obtain ⟨B, hB0, c, hc0, hb⟩ := C179_uniform ho hr hsm hn p d hS hF hB hk hK hpos ε hε
  refine ⟨B, hB0, c, hc0, fun count hcount => (measure_mono fun x hx => ?_).trans (hb count hcount)⟩
  by_contra hcon
  refine hx fun h hh => ?_
  have hall : ∀ h ∈ K, |sampledLoss A o roots ps count x h - limitLoss p d F A ps h| < ε := by
    intro h hh
    by_contra hlt
    exact hcon ⟨h, hh, not_lt.1 hlt⟩
  have h1 := abs_lt.1 (hall h hh)
  refine ⟨fun τ hmin h' hh' => ?_, ?_⟩
  · have h2 := abs_lt.1 (hall h' hh')
    have h3 := hmin h' hh'
    linarith [h1.1, h2.2]
  · have h4 := (C174_variance hsm hn p d hS hF hB hk h (hpos h hh)).1
    have hn2 : (0 : ℝ) < n + 2 := by positivity
    have h5 : accuracy (cyMeasure p d F) (etaAt A h ps) ^ 2 * ((cyMeasure p d F univ).toReal / (n + 2)) ≤ limitLoss p d F A ps h := by
      unfold limitLoss
      rw [← mul_div_assoc]
      exact div_le_div_of_nonneg_right h4 hn2.le
    linarith [h1.1]

/-- **C179.** Calls with more and more points, which may depend on each other in any way: almost surely the loss converges to its limit
uniformly on the set, and for all choices of matrices that minimise the loss on the sampled points, the limits of their losses converge to
the least one. -/
theorem C179_almost_surely (hne : K.Nonempty) {Ω : Type*} [MeasurableSpace Ω] {P : Measure Ω}
    (X : (count : ℕ) → Ω → Fin 2 → Fin (sampleCount count (n + 2)) → Fin (2 * (n + 2)) → ℝ)
    (hX : ∀ count, HasLaw (X count) (normalsLaw (n + 2) (sampleCount count (n + 2))) P) :
    ∀ᵐ ω ∂P, TendstoUniformlyOn (fun count h => sampledLoss A o roots ps count (X count ω) h) (limitLoss p d F A ps) atTop K ∧
      ∀ g : ℕ → A.H, (∀ count, g count ∈ K ∧
          ∀ h ∈ K, sampledLoss A o roots ps count (X count ω) (g count) ≤ sampledLoss A o roots ps count (X count ω) h) →
        Tendsto (fun count => limitLoss p d F A ps (g count)) atTop (𝓝 (sInf (limitLoss p d F A ps '' K))) := by
  have hev : ∀ ε > 0, ∀ᵐ ω ∂P, ∀ᶠ count : ℕ in atTop, ∀ h ∈ K,
      |sampledLoss A o roots ps count (X count ω) h - limitLoss p d F A ps h| < ε := by
    intro ε hε
    obtain ⟨B, -, c, hc0, hb⟩ := C179_uniform ho hr hsm hn p d hS hF hB hk hK hpos ε hε
    have hsum : ∑' N : ℕ, P (X (N + 1) ⁻¹' {x | ∃ h ∈ K, ε ≤ |sampledLoss A o roots ps (N + 1) x h - limitLoss p d F A ps h|}) ≠ ∞ := by
      refine ne_top_of_le_ne_top ?_ (ENNReal.tsum_le_tsum fun N =>
        measure_le_of_law (hX (N + 1)) _ (hb (N + 1) N.succ_ne_zero))
      have hs : Summable fun N : ℕ => B * Real.exp (((N + 1 : ℕ) : ℝ) * (-c)) :=
        (((summable_nat_add_iff 1).2 (Real.summable_exp_nat_mul_iff.2 (neg_lt_zero.2 hc0)))).mul_left B
      exact hs.tsum_ofReal_ne_top
    filter_upwards [ae_eventually_notMem hsum] with ω hω
    obtain ⟨N, hN⟩ := eventually_atTop.1 hω
    refine eventually_atTop.2 ⟨N + 1, fun count hcount h hh => ?_⟩
    obtain ⟨k, rfl⟩ : ∃ k, count = k + 1 := ⟨count - 1, by omega⟩
    by_contra hlt
    exact hN k (by omega) ⟨h, hh, not_lt.1 hlt⟩
  have hseq : ∀ᵐ ω ∂P, ∀ k : ℕ, ∀ᶠ count : ℕ in atTop, ∀ h ∈ K,
      |sampledLoss A o roots ps count (X count ω) h - limitLoss p d F A ps h| < 1 / ((k : ℝ) + 1) :=
    ae_all_iff.2 fun k => hev _ (by positivity)
  filter_upwards [hseq] with ω hω
  have hall : ∀ ε > 0, ∀ᶠ count : ℕ in atTop, ∀ h ∈ K,
      |sampledLoss A o roots ps count (X count ω) h - limitLoss p d F A ps h| < ε := by
    intro ε hε
    obtain ⟨k, hk1⟩ := exists_nat_one_div_lt hε
    filter_upwards [hω k] with count hcount h hh
    exact (hcount h hh).trans hk1
  refine ⟨Metric.tendstoUniformlyOn_iff.2 fun ε hε => ?_, fun g hg => ?_⟩
  · filter_upwards [hall ε hε] with count hcount h hh
    rw [dist_comm, Real.dist_eq]
    exact hcount h hh
  · have hbdd : BddBelow (limitLoss p d F A ps '' K) := by
      refine ⟨0, ?_⟩
      rintro _ ⟨h, hh, rfl⟩
      exact div_nonneg (C174_variance hsm hn p d hS hF hB hk h (hpos h hh)).2.1 (by positivity)
    rw [Metric.tendsto_atTop]
    intro ε hε
    obtain ⟨N, hN⟩ := eventually_atTop.1 (hall (ε / 3) (by positivity))
    refine ⟨N, fun count hcount => ?_⟩
    obtain ⟨h', hh', hlt⟩ := Real.lt_sInf_add_pos (hne.image (limitLoss p d F A ps)) (ε := ε / 3) (by positivity)
    obtain ⟨h', hh', rfl⟩ := hh'
    have h1 := csInf_le hbdd (mem_image_of_mem _ (hg count).1)
    have h2 := abs_lt.1 (hN count hcount _ (hg count).1)
    have h3 := abs_lt.1 (hN count hcount _ hh')
    have h4 := (hg count).2 h' hh'
    rw [Real.dist_eq, abs_of_nonneg (by linarith)]
    linarith [h2.1, h3.2]

end Single

/-- The hypotheses of C179 hold for the Dwork quintic with `psi = 2`, all sections of degree 2 and all diagonal matrices with entries
between 1 and 2. -/
example : ∃ (A : AlgebraicMetric 4) (F : MvPolynomial (Fin 5) ℂ) (K : Set A.H), A = ⟨.dwork 5 (.flag true), monomialBasisFull 4 2⟩ ∧
    K = (fun v : Fin A.sections.size → ℝ => Matrix.diagonal fun i => (v i : ℂ)) '' Icc 1 2 ∧
    ∀ ε > 0, ∃ B > 0, ∃ c > 0, ∀ count : ℕ, count ≠ 0 → normalsLaw 5 (sampleCount count 5)
      {x | ∃ h ∈ K, ε ≤ |sampledLoss (n := 3) A someOrder someRoots [2] count x h - limitLoss (n := 3) 0 0 F A [2] h|} ≤
      ENNReal.ofReal (B * Real.exp (count * -c)) := by
  obtain ⟨F, hF, hsm⟩ := C114_quintic 2 []
  refine ⟨⟨.dwork 5 (.flag true), monomialBasisFull 4 2⟩, F, _, rfl, rfl, fun ε hε =>
    C179_uniform (n := 3) (A := ⟨.dwork 5 (.flag true), monomialBasisFull 4 2⟩) someOrder_valid someRoots_complete
      (hsm.2 (by norm_num)) (by norm_num) 0 0 (.dwork 4 (.flag true) (by simp [DworkFactor.value]) 2) hF
      (C105_sections F 2).1 two_ne_zero ?_ ?_ ε hε⟩
  · refine isCompact_Icc.image ?_
    exact (continuous_pi fun i => Complex.continuous_ofReal.comp (continuous_apply i)).matrix_diagonal
  · rintro _ ⟨v, hv, rfl⟩
    refine Matrix.PosDef.diagonal fun i => ?_
    have : (1 : ℝ) ≤ v i := hv.1 i
    exact_mod_cast (by linarith : (0 : ℝ) < v i)

section Network

variable {n : ℕ} {A : AlgebraicMetric (n + 1)} {o : SymOrder} (ho : o.Valid) {roots : List ℂ → List ℂ} (hr : CompleteRoots roots)
  (hn : n ≠ 0) (p : Fin (n + 2)) (d : Fin (n + 1)) (hk : A.sections.degree ≠ 0)
  {E : Type*} [NormedAddCommGroup E] [NormedSpace ℝ E] {Θ : Set E} (hΘ : IsCompact Θ) {net : HNet} {keep : ℕ → ℕ → ℕ → Bool}
  {params : E → ℕ → DenseParams} {final : E → DenseParams} (hsize : net.basisSize = A.sections.size) (hpow : ∃ q ∈ net.powers, q ≠ 0)
  (hfeat : net.featureAngle ∨ net.featureAbs ∨ net.featureParts) (hact : Differentiable ℝ net.activation)
  (hpk : ∀ θ ∈ Θ, ∀ l i j, DifferentiableAt ℝ (fun t => (params t l).kernel i j) θ)
  (hpb : ∀ θ ∈ Θ, ∀ l j, DifferentiableAt ℝ (fun t => (params t l).bias j) θ)
  (hfk : ∀ θ ∈ Θ, ∀ i j, DifferentiableAt ℝ (fun t => (final t).kernel i j) θ)
  (hfb : ∀ θ ∈ Θ, ∀ j, DifferentiableAt ℝ (fun t => (final t).bias j) θ)
  (moduli : List (List ℂ)) (hne : moduli ≠ []) (F : Fin moduli.length → MvPolynomial (Fin (n + 2)) ℂ)
  (hgood : ∀ i, moduli.get i ≠ [] ∧ Samplable A.variety (n + 1) (n + 2) (moduli.get i) ∧
    Hypersurface A.variety (.vec (moduli.get i)) (n + 1) (n + 2) (F i) ∧ SmoothHypersurface (F i) ∧
    SpansModulo (F i) A.sections.degree A.sections.rows)
  (hdiag : ∀ i : Fin moduli.length, ∀ θ ∈ Θ, ∀ h, net.row (dropout false keep i) (params θ) (final θ) (moduli.get i) = .ok h →
      ∀ i < net.basisSize, h.getD i 0 ≠ 0)

include ho hr hn hk hΘ hsize hpow hfeat hact hpk hpb hfk hfb hne hgood hdiag

/-- **C179.** For the training script: on a compact set of parameters of the network, at which no decoded triangular matrix has a zero on
the diagonal, the loss function on a sampled batch is close to the mean over the moduli of the limits of the loss, for all parameters
of the network at the same time, except with a probability that decays exponentially with the number of points for each set of moduli. The
samples for different moduli may depend on each other. -/
theorem C179_network : ∃ H : Fin moduli.length → E → A.H,
    (∀ i, ∀ θ ∈ Θ, (H i θ).PosDef ∧ ∃ q M, net.row (dropout false keep i) (params θ) (final θ) (moduli.get i) = .ok q ∧
      choleskyFromParam q = .ok M ∧ asH A M = .ok (H i θ)) ∧
    ∀ ε > 0, ∃ B > 0, ∃ c > 0, ∀ {Ω : Type u} [MeasurableSpace Ω] {P : Measure Ω} {Key : Type v} (split : Key → Key × Key)
      (splitN : Key → ℕ → List Key) (paramsSampler : Key → ℕ → List (List ℂ)) (bp : ℕ) (key : Key),
      paramsSampler (split key).1 bp = moduli → (splitN (split key).2 bp).length = moduli.length →
      ∀ count : ℕ, count ≠ 0 → ∀ X : Key → Ω → Fin 2 → Fin (sampleCount count (n + 2)) → Fin (2 * (n + 2)) → ℝ,
      (∀ k ∈ splitN (split key).2 bp, HasLaw (X k) (normalsLaw (n + 2) (sampleCount count (n + 2))) P) →
      P {ω | ∃ θ ∈ Θ, ε ≤ |resultOrZero (sampleBatch n A.variety o roots split splitN paramsSampler
          (fun k => asLists (lineDraws (X k ω))) bp count key >>= lossFunction A net keep (params θ) (final θ)) -
          (∑ i, limitLoss p d (F i) A (moduli.get i) (H i θ)) / moduli.length|} ≤ ENNReal.ofReal (B * Real.exp (count * -c)) := by
  have hH := fun i : Fin moduli.length => network_continuousOn (A := A) hsize hpow hfeat hact (isMask_dropout false keep i) hpk hpb hfk hfb (moduli.get i)
    (hgood i).1 (hdiag i)
  choose H hrow hcont hpos using hH
  refine ⟨H, fun i θ hθ => ⟨hpos i θ hθ, hrow i θ hθ⟩, fun ε hε => ?_⟩
  have hbound := fun i => C179_uniform ho hr (hgood i).2.2.2.1 hn p d (hgood i).2.1 (hgood i).2.2.1 (hgood i).2.2.2.2 hk
    (hΘ.image_of_continuousOn (hcont i)) (by
      rintro _ ⟨θ, hθ, rfl⟩
      exact hpos i θ hθ) ε hε
  choose B hB0 c hc0 hb using hbound
  have hr0 : 0 < moduli.length := List.length_pos_iff.2 hne
  have : Nonempty (Fin moduli.length) := ⟨⟨0, hr0⟩⟩
  obtain ⟨g, -, hmin⟩ := Finset.univ.exists_min_image c Finset.univ_nonempty
  refine ⟨∑ i, B i, Finset.sum_pos (fun i _ => hB0 i) Finset.univ_nonempty, c g, hc0 g,
    fun {Ω} _ {P} {Key} split splitN paramsSampler bp key hmod hlen count hcount X hX => ?_⟩
  obtain ⟨keys, hkeys⟩ : ∃ keys, keys = splitN (split key).2 bp := ⟨_, rfl⟩
  rw [← hkeys] at hlen hX
  have hX' : ∀ i : Fin moduli.length, HasLaw (X (keys.get (i.cast hlen.symm))) (normalsLaw (n + 2) (sampleCount count (n + 2))) P :=
    fun i => hX _ (List.get_mem _ _)
  -- the rows
  have hok : ∀ᵐ ω ∂P, ∀ i : Fin moduli.length, ∃ row, row.params = moduli.get i ∧
      sampleRow n A.variety o roots (fun _ : Unit => asLists (lineDraws (X (keys.get (i.cast hlen.symm)) ω))) count () (moduli.get i) = .ok row ∧
      ∀ h : A.H, h.PosDef → ∃ l, varianceEtaLossRow A h row = .ok l := by
    refine ae_all_iff.2 fun i => ?_
    have hom := (hgood i).2.2.1.homogeneous
    have hirr := smooth_irreducible (by omega) hom (by omega) (hgood i).2.2.2.1
    obtain ⟨pts, hpts⟩ := sample_sums (hgood i).2.1 (hgood i).2.2.1 (hgood i).2.2.2.1 hirr ho hr (by omega) (sampleCount count (n + 2))
    rw [← (hX' i).map_eq] at hpts
    filter_upwards [ae_of_ae_map (hX' i).aemeasurable hpts] with ω hω
    obtain ⟨-, -, -, haff⟩ := hω.2.2.1 count
    obtain ⟨Zs, hZs⟩ : ∃ Zs, Zs = (pts (X (keys.get (i.cast hlen.symm)) ω)).take count := ⟨_, rfl⟩
    rw [← hZs] at haff
    have hmem : ∀ Z ∈ Zs, Z ≠ 0 ∧ eval Z (F i) = 0 := fun Z hZ => hω.2.1 Z (List.mem_of_mem_take (by rw [← hZs]; exact hZ))
    have hl : Zs.length = count := by
      rw [hZs, List.length_take, hω.1, min_eq_left (sampleCount_mul count (n + 2) (by omega)).1]
    have hne' : Zs ≠ [] := fun h0 => hcount (by rw [← hl, h0]; rfl)
    refine ⟨⟨moduli.get i, Zs.map homToAffineAuto, Zs.map (pointWeight (n + 2) (F i))⟩, rfl, ?_, fun h hh => ⟨_, row_loss (hgood i).2.2.2.1 (hgood i).2.2.1 (hgood i).2.2.2.2 hk h hh Zs hne' hmem _ fun Z hZ =>
        pointWeight_pos (e := n + 2) Z (hmem Z hZ).1 ((hgood i).2.2.2.1 Z (hmem Z hZ).1 (hmem Z hZ).2)⟩⟩
    unfold sampleRow
    rw [haff]
    rfl
  have hsub : ∀ᵐ ω ∂P, (∃ θ ∈ Θ, ε ≤ |resultOrZero (sampleBatch n A.variety o roots split splitN paramsSampler
          (fun k => asLists (lineDraws (X k ω))) bp count key >>= lossFunction A net keep (params θ) (final θ)) -
          (∑ i, limitLoss p d (F i) A (moduli.get i) (H i θ)) / moduli.length|) →
      ω ∈ ⋃ i ∈ (Finset.univ : Finset (Fin moduli.length)), X (keys.get (i.cast hlen.symm)) ⁻¹'
        {x | ∃ h ∈ H i '' Θ, ε ≤ |sampledLoss A o roots (moduli.get i) count x h - limitLoss p d (F i) A (moduli.get i) h|} := by
    filter_upwards [hok] with ω hω hbad
    obtain ⟨θ, hθ, hbad⟩ := hbad
    choose rows hp hrows hloss using hω
    choose l hl using fun i => hloss i (H i θ) (hpos i θ hθ)
    have hsb : sampleBatch n A.variety o roots split splitN paramsSampler (fun k => asLists (lineDraws (X k ω))) bp count key =
        .ok (List.ofFn rows) := by
      unfold sampleBatch
      simp only
      rw [hmod, ← hkeys, if_pos hlen]
      have hz : keys.zip moduli = List.ofFn fun i : Fin moduli.length => (keys.get (i.cast hlen.symm), moduli.get i) := by
        apply List.ext_getElem
        · simp [hlen]
        · intro i h1 h2
          simp
      rw [hz]
      exact mapM_ofFn fun i => hrows i
    have hval := lossFunction_rows (A := A) (net := net) (keep := keep) (params := params θ) (final := final θ) rows (fun i => H i θ) l
      (fun i => by rw [hp i]; exact hrow i θ hθ) hl
    rw [hsb] at hbad
    change ε ≤ |resultOrZero (lossFunction A net keep (params θ) (final θ) (List.ofFn rows)) - _| at hbad
    rw [hval] at hbad
    change ε ≤ |(∑ i, l i) / moduli.length - _| at hbad
    by_contra hcon
    simp only [mem_iUnion, not_exists] at hcon
    have hlt : ∀ i, |l i - limitLoss p d (F i) A (moduli.get i) (H i θ)| < ε := by
      intro i
      by_contra hge
      refine hcon i (Finset.mem_univ i) ⟨H i θ, mem_image_of_mem _ hθ, ?_⟩
      have : sampledLoss A o roots (moduli.get i) count (X (keys.get (i.cast hlen.symm)) ω) (H i θ) = l i := by
        unfold sampledLoss
        rw [hrows i]
        change resultOrZero (varianceEtaLossRow A (H i θ) (rows i)) = _
        rw [hl i]
        rfl
      rw [this]
      exact not_lt.1 hge
    have hrR : (0 : ℝ) < moduli.length := by exact_mod_cast hr0
    rw [← sub_div, ← Finset.sum_sub_distrib, abs_div, abs_of_pos hrR, le_div_iff₀ hrR] at hbad
    have h1 := Finset.abs_sum_le_sum_abs (fun i => l i - limitLoss p d (F i) A (moduli.get i) (H i θ)) Finset.univ
    have h2 : ∑ i, |l i - limitLoss p d (F i) A (moduli.get i) (H i θ)| < ∑ _i : Fin moduli.length, ε :=
      Finset.sum_lt_sum_of_nonempty Finset.univ_nonempty fun i _ => hlt i
    rw [Finset.sum_const, Finset.card_univ, Fintype.card_fin, nsmul_eq_mul, mul_comm] at h2
    linarith
  refine (measure_mono_ae hsub).trans ((measure_biUnion_finset_le _ _).trans ?_)
  refine (Finset.sum_le_sum (g := fun i => ENNReal.ofReal (B i * Real.exp (count * -c g))) fun i _ =>
    (measure_le_of_law (hX' i) _ (hb i count hcount)).trans (ENNReal.ofReal_le_ofReal ?_)).trans (le_of_eq ?_)
  · refine mul_le_mul_of_nonneg_left (Real.exp_le_exp.2 ?_) (hB0 i).le
    exact mul_le_mul_of_nonneg_left (neg_le_neg (hmin i (Finset.mem_univ i))) (by positivity)
  · rw [← ENNReal.ofReal_sum_of_nonneg fun i _ => mul_nonneg (hB0 i).le (Real.exp_pos _).le, Finset.sum_mul]

end Network

/-- The hypotheses of `C179_network` are met: the Dwork cubics with `psi = 0` and `psi = 2`, and a network of which a bias of the last layer
runs through the interval from 1 to 2. -/
example : ∃ (A : AlgebraicMetric 2) (net : HNet) (final : ℝ → DenseParams) (F : Fin 2 → MvPolynomial (Fin 3) ℂ)
    (H : Fin 2 → ℝ → A.H), (∀ t, (final t).bias 0 = t) ∧ (∀ i, ∀ t ∈ Icc (1 : ℝ) 2, (H i t).PosDef) ∧
    ∀ ε > 0, ∃ B > 0, ∃ c > 0, ∀ {Ω : Type u} [MeasurableSpace Ω] {P : Measure Ω} {Key : Type v} (split : Key → Key × Key)
      (splitN : Key → ℕ → List Key) (paramsSampler : Key → ℕ → List (List ℂ)) (bp : ℕ) (key : Key),
      paramsSampler (split key).1 bp = [[0], [2]] → (splitN (split key).2 bp).length = 2 →
      ∀ count : ℕ, count ≠ 0 → ∀ X : Key → Ω → Fin 2 → Fin (sampleCount count 3) → Fin (2 * 3) → ℝ,
      (∀ k ∈ splitN (split key).2 bp, HasLaw (X k) (normalsLaw 3 (sampleCount count 3)) P) →
      P {ω | ∃ t ∈ Icc (1 : ℝ) 2, ε ≤ |resultOrZero (sampleBatch 1 A.variety someOrder someRoots split splitN paramsSampler
          (fun k => asLists (lineDraws (X k ω))) bp count key >>=
            lossFunction A net (fun _ _ _ => true) (fun _ => ⟨fun _ _ => 1, fun _ => 0⟩) (final t)) -
          (∑ i, limitLoss 0 0 (F i) A ([[0], [2]].get i) (H i t)) / 2|} ≤ ENNReal.ofReal (B * Real.exp (count * -c)) := by
  let A : AlgebraicMetric 2 := ⟨.dwork 3 (.flag true), monomialBasisFull 2 1⟩
  let ψ : Fin 2 → ℂ := ![0, 2]
  have hyp := fun i => hypersurface_dwork_explicit 2 (.flag true) (ψ i) []
  have hsm : ∀ i, SmoothHypersurface _ := fun i => (smooth_dwork (m := 2) ((DworkFactor.flag true).value * ψ i)).2 (by
    fin_cases i <;> simp [ψ, DworkFactor.value] <;> norm_num)
  have hS : ∀ i, Samplable (.dwork 3 (.flag true)) 2 3 [ψ i] := fun i => .dwork 2 (.flag true) (by simp [DworkFactor.value]) (ψ i)
  have hl : ∀ i : Fin 2, ([[0], [2]] : List (List ℂ)).get i = [ψ i] := by
    intro i
    fin_cases i <;> rfl
  obtain ⟨H, h1, h2⟩ := C179_network.{u, v} (n := 1) (A := A) someOrder_valid someRoots_complete one_ne_zero 0 0 one_ne_zero
    (Θ := Icc (1 : ℝ) 2) isCompact_Icc (net := { exampleNet false with basisSize := A.sections.size }) (keep := fun _ _ _ => true)
    (params := fun _ _ => ⟨fun _ _ => 1, fun _ => 0⟩) (final := fun t => ⟨fun _ _ => 0, fun j => if j = 0 then t else 1⟩)
    rfl ⟨1, by simp [exampleNet], one_ne_zero⟩ (Or.inl rfl) differentiable_id
    (fun _ _ _ _ _ => differentiableAt_const _) (fun _ _ _ _ => differentiableAt_const _) (fun _ _ _ _ => differentiableAt_const _)
    (fun _ _ j => by
      by_cases hj : j = 0
      · simp only [hj, if_true]
        exact differentiableAt_id
      · simp only [hj, if_false]
        exact differentiableAt_const _) [[0], [2]] (by simp) _ (fun i => ⟨by rw [hl i]; simp, by rw [hl i]; exact hS i, by
          rw [hl i]; exact hyp i, hsm i, (C105_sections _ 1).1⟩) (by
      intro i t ht h hh j hj
      simp only [HNet.row] at hh
      split at hh
      · cases hh
      · obtain rfl := Except.ok.inj hh
        have hj2 : j < A.sections.size ^ 2 := hj.trans_le (Nat.le_self_pow two_ne_zero _)
        simp only [output, exampleNet, Bool.false_eq_true, if_false]
        rw [dense_zero _ _ rfl, List.getD_eq_getElem?_getD]
        simp only [List.getElem?_map, List.getElem?_range hj2, Option.map_some, Option.getD_some]
        split
        · have : (1 : ℝ) ≤ t := ht.1
          linarith
        · exact one_ne_zero)
  exact ⟨A, _, _, _, H, fun t => by simp, fun i t ht => (h1 i t ht).1, h2⟩

end Cyjax
