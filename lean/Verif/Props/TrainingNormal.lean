import Verif.Lemmas.NormalSum
import Verif.Props.LossCounts
import Verif.Props.LossTraining
import Verif.Spec.LossVariance

/-! # C191: fluctuations of the loss function of the training script -/

namespace Cyjax

open MeasureTheory ProbabilityTheory MvPolynomial Cyjax.Spec Cyjax.Polynomial Cyjax.Variety Cyjax.Donaldson Cyjax.Projective Cyjax.Ml Set
  Filter Topology
open scoped ENNReal NNReal ComplexOrder

variable {n : ℕ} {A : AlgebraicMetric (n + 1)} {o : SymOrder} (ho : o.Valid) {roots : List ℂ → List ℂ} (hr : CompleteRoots roots)
  (hn : n ≠ 0) (p : Fin (n + 2)) (d : Fin (n + 1)) (hk : A.sections.degree ≠ 0)
  {N : ℕ} (hN : N ≠ 0) (mods : Fin N → List ℂ) (hmods : ∀ i, mods i ≠ []) (F : Fin N → MvPolynomial (Fin (n + 2)) ℂ)
  (hsm : ∀ i, SmoothHypersurface (F i)) (hS : ∀ i, Samplable A.variety (n + 1) (n + 2) (mods i))
  (hF : ∀ i, Hypersurface A.variety (.vec (mods i)) (n + 1) (n + 2) (F i))
  (hB : ∀ i, SpansModulo (F i) A.sections.degree A.sections.rows)
  (net : HNet) (keep : ℕ → ℕ → ℕ → Bool) (params : ℕ → DenseParams) (final : DenseParams) (H : Fin N → A.H) (hH : ∀ i, (H i).PosDef)
  (hnet : ∀ i : Fin N, ∃ q M, net.row (dropout false keep i) params final (mods i) = .ok q ∧ choleskyFromParam q = .ok M ∧ asH A M = .ok (H i))
  {Key : Type} (split : Key → Key × Key) (splitN : Key → ℕ → List Key) (paramsSampler : Key → ℕ → List (List ℂ)) (key : Key)
  (keys : Fin N → Key) (hkeys : splitN (split key).2 N = List.ofFn keys) (hps : paramsSampler (split key).1 N = List.ofFn mods)

include ho hr hk hmods hsm hS hF hB hH hnet hkeys hps in
/-- Almost surely the loss function is the mean of the losses of the moduli. -/
private theorem step_loss_mean {count : ℕ} (hc : count ≠ 0) {Ω : Type*} [MeasurableSpace Ω] {P : Measure Ω} {L : ℕ}
    (hL : count ≤ L * (n + 2))
    (X : Key → Ω → Fin 2 → Fin L → Fin (2 * (n + 2)) → ℝ) (hX : ∀ i, HasLaw (X (keys i)) (normalsLaw (n + 2) L) P) :
    ∀ᵐ ω ∂P, resultOrZero (sampleBatch n A.variety o roots split splitN paramsSampler (fun k => asLists (lineDraws (X k ω))) N count key >>=
        lossFunction A net keep params final) = (∑ i, lossOf A o roots (mods i) (H i) count (X (keys i) ω)) / N := by
  have hadm : ∀ᵐ ω ∂P, ∀ i, ∀ y ∈ lineDraws (X (keys i) ω), Admissible (F i) y := by
    rw [ae_all_iff]
    intro i
    have had := ae_admissible (count := L) (F i) (smooth_ne_zero (hsm i)) (hF i).homogeneous
    rw [← (hX i).map_eq] at had
    filter_upwards [ae_of_ae_map (hX i).aemeasurable had] with ω hω
    exact hω.2
  filter_upwards [hadm] with ω hω
  have hrows : ∀ i, ∃ row : SampleRow (n + 1), sampleRow n A.variety o roots (fun k => asLists (lineDraws (X k ω))) count (keys i) (mods i) =
      .ok row ∧ row.params = mods i ∧ GoodRow A.variety count row := by
    intro i
    obtain ⟨Zs, -, -, a1, a2⟩ := sampleRow_ok (hS i) (hF i) (hsm i) ho hr.exact (fun k => lineDraws (X k ω)) count (keys i) (hω i)
    have hl : (lineDraws (X (keys i) ω)).length = L := by rw [lineDraws, List.length_ofFn]
    rw [hl, min_eq_left hL] at a2
    exact ⟨_, a1, rfl, a2⟩
  choose row r1 r2 r3 using hrows
  have hbatch : sampleBatch n A.variety o roots split splitN paramsSampler (fun k => asLists (lineDraws (X k ω))) N count key =
      .ok (List.ofFn row) := by
    unfold sampleBatch
    simp only
    rw [hkeys, hps, if_pos (by rw [List.length_ofFn, List.length_ofFn])]
    have hz : (List.ofFn keys).zip (List.ofFn mods) = List.ofFn fun i => (keys i, mods i) := by
      rw [List.ofFn_eq_map, List.ofFn_eq_map, List.zip_map', ← List.ofFn_eq_map]
    rw [hz]
    exact mapM_ofFn fun i => r1 i
  obtain ⟨H', hH'⟩ : ∃ H' : SampleRow (n + 1) × ℕ → A.H, ∀ i : Fin N, H' (row i, (i : ℕ)) = H i :=
    ⟨fun x => if hx : x.2 < N then H ⟨x.2, hx⟩ else 1, fun i => by simp⟩
  have hzip : ∀ x ∈ (List.ofFn row).zipIdx, ∃ i : Fin N, x = (row i, (i : ℕ)) := by
    rintro ⟨y, j⟩ hx
    have hj := List.mk_mem_zipIdx_iff_getElem?.1 hx
    rw [List.getElem?_ofFn] at hj
    split_ifs at hj with hjN
    exact ⟨⟨j, hjN⟩, by rw [Option.some.inj hj]⟩
  obtain ⟨L, l1, l2⟩ := loss_rows (e := n + 2) net keep params final hc hk (List.ofFn row) (by
      intro r hr'
      obtain ⟨i, rfl⟩ := (List.mem_ofFn' _ _).1 hr'
      exact ⟨by rw [r2]; exact hmods i, r3 i, F i, by rw [r2]; exact hF i, hsm i, hB i⟩) H'
    (by
      intro x hx
      obtain ⟨i, rfl⟩ := hzip x hx
      rw [hH']
      exact hH i)
    (by
      intro x hx
      obtain ⟨i, rfl⟩ := hzip x hx
      simp only [hH', r2]
      exact hnet i)
  have hmem : ∀ i : Fin N, (row i, (i : ℕ)) ∈ (List.ofFn row).zipIdx := by
    intro i
    rw [List.mk_mem_zipIdx_iff_getElem?, List.getElem?_ofFn, dif_pos i.2]
  have hli : ∀ i, lossOf A o roots (mods i) (H i) count (X (keys i) ω) = L (row i, (i : ℕ)) := by
    intro i
    have h2 : sampleRow n A.variety o roots (fun _ : Unit => asLists (lineDraws (X (keys i) ω))) count () (mods i) = .ok (row i) := r1 i
    rw [lossOf, h2]
    change resultOrZero (varianceEtaLossRow A (H i) (row i)) = _
    have h3 := (l1 _ (hmem i)).1
    rw [hH'] at h3
    rw [h3]
    rfl
  have hlist : listMean ((List.ofFn row).zipIdx.map L) = (∑ i : Fin N, L (row i, (i : ℕ))) / N := by
    have : (List.ofFn row).zipIdx.map L = List.ofFn fun i : Fin N => L (row i, (i : ℕ)) := by
      apply List.ext_getElem
      · simp
      · intro i h1 h2
        simp
    rw [this, listMean, List.sum_ofFn, List.length_ofFn]
  rw [hbatch]
  change resultOrZero (lossFunction A net keep params final (List.ofFn row)) = _
  rw [l2]
  change listMean _ = _
  rw [hlist]
  simp only [hli]

/-- The projections of a product law. -/
private theorem hasLaw_component {Ω T : Type*} [MeasurableSpace Ω] [MeasurableSpace T] {P : Measure Ω} {ν : Measure T}
    [IsProbabilityMeasure ν] {Y : Fin N → Ω → T} (hY : HasLaw (fun ω i => Y i ω) (Measure.pi fun _ : Fin N => ν) P) (i : Fin N) :
    HasLaw (Y i) ν P := by
  have := (measurePreserving_eval (fun _ : Fin N => ν) i).hasLaw.comp hY
  exact this

include ho hr hn hk hN hsm hS hF hB hH in
/-- The mean of the losses for independent lines has a normal limit. -/
private theorem mean_loss_normal :
    TendstoInDistribution (fun (b : ℕ) (x : Fin N → Fin 2 → Fin (sampleCount ((b + 1) * (n + 2)) (n + 2)) → Fin (2 * (n + 2)) → ℝ) =>
        √((b + 1) * (n + 2) : ℕ) * ((∑ i, lossOf A o roots (mods i) (H i) ((b + 1) * (n + 2)) (x i)) / N -
        (∑ i, etaVariance (cyMeasure p d (F i)) (etaAt A (H i) (mods i)) / (n + 2)) / N)) atTop id
      (fun b => Measure.pi fun _ : Fin N => normalsLaw (n + 2) (sampleCount ((b + 1) * (n + 2)) (n + 2)))
      (gaussianReal 0 ((∑ i, lossVariance p d A o roots (mods i) (F i) (H i)) / N ^ 2).toNNReal) := by
  have hN' : (N : ℝ) ≠ 0 := by exact_mod_cast hN
  have hXi : ∀ (b : ℕ) (i : Fin N), HasLaw (Function.eval i)
      (normalsLaw (n + 2) (sampleCount ((b + 1) * (n + 2)) (n + 2)))
      (Measure.pi fun _ : Fin N => normalsLaw (n + 2) (sampleCount ((b + 1) * (n + 2)) (n + 2))) := fun b i =>
    (measurePreserving_eval (fun _ : Fin N => normalsLaw (n + 2) (sampleCount ((b + 1) * (n + 2)) (n + 2))) i).hasLaw
  have hrow := fun i => C188_normal ho hr (hsm i) hn p d (hS i) (hF i) (hB i) hk (H i) (hH i)
  have hrow' := fun i => tendsto_of_law (fun b => hXi b i) (hrow i)
  have hind' : ∀ b : ℕ, iIndepFun (fun i (x : Fin N → Fin 2 → Fin (sampleCount ((b + 1) * (n + 2)) (n + 2)) → Fin (2 * (n + 2)) → ℝ) =>
      √((b + 1) * (n + 2) : ℕ) * (lossOf A o roots (mods i) (H i) ((b + 1) * (n + 2)) (x i) -
        etaVariance (cyMeasure p d (F i)) (etaAt A (H i) (mods i)) / (n + 2)))
      (Measure.pi fun _ : Fin N => normalsLaw (n + 2) (sampleCount ((b + 1) * (n + 2)) (n + 2))) := by
    intro b
    exact iIndepFun_pi fun i => (hrow i).forall_aemeasurable b
  have key := normal_sum hind' hrow' (N : ℝ≥0)⁻¹
  have hv : ((N : ℝ≥0)⁻¹ ^ 2 * ∑ i, (lossVariance p d A o roots (mods i) (F i) (H i)).toNNReal) =
      ((∑ i, lossVariance p d A o roots (mods i) (F i) (H i)) / N ^ 2).toNNReal := by
    have h0 : ∀ i, 0 ≤ lossVariance p d A o roots (mods i) (F i) (H i) := fun i =>
      mul_nonneg (by positivity) (variance_nonneg _ _)
    rw [← NNReal.coe_inj, Real.coe_toNNReal _ (div_nonneg (Finset.sum_nonneg fun i _ => h0 i) (by positivity))]
    push_cast
    rw [Finset.sum_congr rfl fun i _ => Real.coe_toNNReal _ (h0 i)]
    field_simp
  rw [← hv]
  refine TendstoInDistribution.congr (fun b => ?_) ae_eq_rfl key
  filter_upwards with x
  rw [← Finset.mul_sum, Finset.sum_sub_distrib]
  push_cast
  field_simp

include ho hr hn hk hN hmods hsm hS hF hB hH hnet hkeys hps

/-- **C191.** Let the network give positive definite matrices `H i` for the `N` sets of moduli of a training step, and let the
numbers drawn with different keys be independent. The loss function on a sample of `count` points for each of the moduli, a multiple
of the number `n + 2` of points on each line, is asymptotically normal around the mean of its limits: its error times the square
root of `count` converges in distribution. The variance of the limit is the sum of the variances of `C188_normal` over `N²`. -/
theorem C191_normal {Ω : ℕ → Type*} [∀ b, MeasurableSpace (Ω b)] (P : (b : ℕ) → Measure (Ω b)) [∀ b, IsProbabilityMeasure (P b)]
    (X : (b : ℕ) → Key → Ω b → Fin 2 → Fin (sampleCount ((b + 1) * (n + 2)) (n + 2)) → Fin (2 * (n + 2)) → ℝ)
    (hX : ∀ b, HasLaw (fun ω i => X b (keys i) ω)
      (Measure.pi fun _ : Fin N => normalsLaw (n + 2) (sampleCount ((b + 1) * (n + 2)) (n + 2))) (P b)) :
    TendstoInDistribution (fun (b : ℕ) ω => √((b + 1) * (n + 2) : ℕ) *
        (resultOrZero (sampleBatch n A.variety o roots split splitN paramsSampler (fun k => asLists (lineDraws (X b k ω))) N
          ((b + 1) * (n + 2)) key >>= lossFunction A net keep params final) -
        (∑ i, etaVariance (cyMeasure p d (F i)) (etaAt A (H i) (mods i)) / (n + 2)) / N)) atTop id P
      (gaussianReal 0 ((∑ i, lossVariance p d A o roots (mods i) (F i) (H i)) / N ^ 2).toNNReal) := by
  have hXi : ∀ b i, HasLaw (X b (keys i)) (normalsLaw (n + 2) (sampleCount ((b + 1) * (n + 2)) (n + 2))) (P b) := fun b i =>
    hasLaw_component (Y := fun i => X b (keys i)) (hX b) i
  refine TendstoInDistribution.congr (fun b => ?_) ae_eq_rfl
    (tendsto_of_law hX (mean_loss_normal ho hr hn p d hk hN mods F hsm hS hF hB H hH))
  have hb : sampleCount ((b + 1) * (n + 2)) (n + 2) * (n + 2) = (b + 1) * (n + 2) := sampleCount_dvd (by omega) (Dvd.intro_left _ rfl)
  filter_upwards [step_loss_mean ho hr hk mods hmods F hsm hS hF hB net keep params final H hH hnet split splitN paramsSampler _ keys hkeys
    hps (Nat.mul_ne_zero b.succ_ne_zero (by omega)) hb.ge (X b) (hXi b)] with ω hω
  rw [hω]

/-- **C191.** The probability that the loss function on `count` points for each set of moduli is within `t / √count` of the mean of
its limits converges to the probability that a normal variable with the variance of `C191_normal` is at most `t` in absolute value.
Here `count` is any number. -/
theorem C191_counts {Ω : ℕ → Type*} [∀ c, MeasurableSpace (Ω c)] (P : (count : ℕ) → Measure (Ω count)) [∀ c, IsProbabilityMeasure (P c)]
    (X : (count : ℕ) → Key → Ω count → Fin 2 → Fin (sampleCount count (n + 2)) → Fin (2 * (n + 2)) → ℝ)
    (hX : ∀ count, HasLaw (fun ω i => X count (keys i) ω)
      (Measure.pi fun _ : Fin N => normalsLaw (n + 2) (sampleCount count (n + 2))) (P count)) {t : ℝ} (ht : 0 < t) :
    Tendsto (fun count => P count {ω |
        |resultOrZero (sampleBatch n A.variety o roots split splitN paramsSampler (fun k => asLists (lineDraws (X count k ω))) N
          count key >>= lossFunction A net keep params final) -
        (∑ i, etaVariance (cyMeasure p d (F i)) (etaAt A (H i) (mods i)) / (n + 2)) / N| ≤ t / √(count : ℝ)}) atTop
      (𝓝 (gaussianReal 0 ((∑ i, lossVariance p d A o roots (mods i) (F i) (H i)) / N ^ 2).toNNReal (Icc (-t) t))) := by
  have hN' : (0 : ℝ) < N := by exact_mod_cast Nat.pos_of_ne_zero hN
  have he0 : n + 2 ≠ 0 := by omega
  have hXi : ∀ c i, HasLaw (X c (keys i)) (normalsLaw (n + 2) (sampleCount c (n + 2))) (P c) := fun c i =>
    hasLaw_component (Y := fun i => X c (keys i)) (hX c) i
  choose C hC using fun i => loss_counts_close ho hr (hsm i) hn (hS i) (hF i) (hB i) hk (H i) (hH i)
  let Λ : ℝ := (∑ i, etaVariance (cyMeasure p d (F i)) (etaAt A (H i) (mods i)) / (n + 2)) / N
  let T : (c : ℕ) → Ω c → ℝ := fun c ω =>
    (∑ i, lossOf A o roots (mods i) (H i) (sampleCount c (n + 2) * (n + 2)) (X c (keys i) ω)) / N
  refine interval_counts (P := P) (T := T) (C := (∑ i, C i) / N) (N := fun count => sampleCount count (n + 2) * (n + 2)) (fun c hc => ?_)
    (fun c hc => (sampleCount_near n hc).2) (fun t ht => ?_) ht
  · have hcl : ∀ᵐ ω ∂P c, ∀ i, |lossOf A o roots (mods i) (H i) c (X c (keys i) ω) -
        lossOf A o roots (mods i) (H i) (sampleCount c (n + 2) * (n + 2)) (X c (keys i) ω)| ≤ C i / c := by
      rw [ae_all_iff]
      intro i
      have := hC i c hc
      rw [← (hXi c i).map_eq] at this
      exact ae_of_ae_map (hXi c i).aemeasurable this
    filter_upwards [hcl, step_loss_mean ho hr hk mods hmods F hsm hS hF hB net keep params final H hH hnet split splitN paramsSampler _ keys
      hkeys hps hc (sampleCount_near n hc).2.1 (X c) (hXi c)] with ω h1 h2
    rw [h2, ← sub_div, ← Finset.sum_sub_distrib, abs_div, abs_of_pos hN', div_right_comm, Finset.sum_div]
    exact div_le_div_of_nonneg_right ((Finset.abs_sum_le_sum_abs _ _).trans (Finset.sum_le_sum fun i _ => h1 i)) hN'.le
  · have hmean := mean_loss_normal ho hr hn p d hk hN mods F hsm hS hF hB H hH
    have hLb : ∀ b : ℕ, sampleCount ((b + 1) * (n + 2)) (n + 2) = b + 1 := fun b => by
      have := sampleCount_dvd (count := (b + 1) * (n + 2)) he0 (Dvd.intro_left _ rfl)
      exact Nat.eq_of_mul_eq_mul_right (Nat.pos_of_ne_zero he0) this
    refine ((normal_interval hmean ht).comp (sampleCount_tendsto n)).congr' ?_
    filter_upwards [eventually_ne_atTop 0] with count hc
    have hL : sampleCount count (n + 2) - 1 + 1 = sampleCount count (n + 2) :=
      Nat.sub_add_cancel (Nat.pos_of_ne_zero (sampleCount_near n hc).1)
    have gen : ∀ (b L : ℕ), L = b + 1 → ∀ Y : Ω count → Fin N → Fin 2 → Fin L → Fin (2 * (n + 2)) → ℝ,
        HasLaw Y (Measure.pi fun _ : Fin N => normalsLaw (n + 2) L) (P count) →
        (Measure.pi fun _ : Fin N => normalsLaw (n + 2) (sampleCount ((b + 1) * (n + 2)) (n + 2)))
          {x | |√((b + 1) * (n + 2) : ℕ) * ((∑ i, lossOf A o roots (mods i) (H i) ((b + 1) * (n + 2)) (x i)) / N - Λ)| ≤ t} =
        P count {ω | |√(L * (n + 2) : ℕ) * ((∑ i, lossOf A o roots (mods i) (H i) (L * (n + 2)) (Y ω i)) / N - Λ)| ≤ t} := by
      intro b L hLe Y hY
      have hm := hmean.forall_aemeasurable b
      have gen' : ∀ L' : ℕ, L' = L → AEMeasurable (fun x : Fin N → Fin 2 → Fin L' → Fin (2 * (n + 2)) → ℝ =>
          √((b + 1) * (n + 2) : ℕ) * ((∑ i, lossOf A o roots (mods i) (H i) ((b + 1) * (n + 2)) (x i)) / N - Λ))
            (Measure.pi fun _ : Fin N => normalsLaw (n + 2) L') →
          (Measure.pi fun _ : Fin N => normalsLaw (n + 2) L')
            {x | |√((b + 1) * (n + 2) : ℕ) * ((∑ i, lossOf A o roots (mods i) (H i) ((b + 1) * (n + 2)) (x i)) / N - Λ)| ≤ t} =
          P count {ω | |√(L * (n + 2) : ℕ) * ((∑ i, lossOf A o roots (mods i) (H i) (L * (n + 2)) (Y ω i)) / N - Λ)| ≤ t} := by
        rintro L' rfl hm
        subst hLe
        have hs := hm.nullMeasurableSet_preimage (s := {y : ℝ | |y| ≤ t}) (measurableSet_le measurable_norm measurable_const)
        rw [← hY.map_eq] at hs
        have := Measure.map_apply₀ hY.aemeasurable hs
        rw [hY.map_eq] at this
        exact this
      exact gen' _ ((hLb b).trans hLe.symm) hm
    exact gen _ _ hL.symm _ (hX count)

omit ho hr hn hk hN hmods hsm hS hF hB hH hnet hkeys hps in
/-- The hypotheses of C191 hold for the Dwork cubic and an untrained network, with two sets of moduli and two keys. -/
example : ∃ (A : AlgebraicMetric 2) (ps : List ℂ) (F : MvPolynomial (Fin 3) ℂ) (net : HNet) (keep : ℕ → ℕ → ℕ → Bool)
    (params : ℕ → DenseParams) (final : DenseParams) (H : Fin 2 → A.H), (∀ i, (H i).PosDef) ∧ ps ≠ [] ∧
    Tendsto (fun count : ℕ => (Measure.pi fun _ : Fin 2 => normalsLaw 3 (sampleCount count 3))
      {x | |resultOrZero (sampleBatch 1 A.variety someOrder someRoots (fun k : Fin 2 => (k, k)) (fun _ _ => [0, 1])
          (fun _ _ => [ps, ps]) (fun k => asLists (lineDraws (x k))) 2 count 0 >>= lossFunction A net keep params final) -
        (∑ i, etaVariance (cyMeasure (n := 1) 0 0 F) (etaAt (n := 1) A (H i) ps) / ((1 : ℕ) + 2)) / (2 : ℕ)| ≤ 1 / √(count : ℝ)}) atTop
      (𝓝 (gaussianReal 0 ((∑ i, lossVariance (n := 1) 0 0 A someOrder someRoots ps F (H i)) / (2 : ℕ) ^ 2).toNNReal (Icc (-1) 1))) := by
  obtain ⟨A, F, row, net, h1, h2, h3, h4, h5, h6, h7, h8, h9, h10, -, h11⟩ := training_instance
  obtain ⟨keep, params⟩ : Nonempty ((ℕ → ℕ → ℕ → Bool) × (ℕ → DenseParams)) := ⟨fun _ _ _ => true, fun _ => ⟨fun _ _ => 0, fun _ => 0⟩⟩
  obtain ⟨H, L, hHL, -⟩ := C122_loss net keep params (finalInit net.sigSuppress net.basisSize 0 fun _ => 0) h8 h9 h10 (e := 3)
    (count := 3) (by norm_num) h7 [row, row] (by
      intro r hr
      obtain rfl : r = row := by simpa using hr
      exact ⟨h1, h2, F, h4, h5, h6⟩) (by simp) (by
      intro x hx h hx'
      have hx1 : x.1 = row := by
        have : x = (row, 0) ∨ x = (row, 1) := by simpa using hx
        rcases this with rfl | rfl <;> rfl
      rw [hx1] at hx'
      exact h11 _ _ h hx')
  have hmem : ∀ i : Fin 2, (row, (i : ℕ)) ∈ [row, row].zipIdx := by
    intro i
    fin_cases i <;> simp
  have key := C191_counts (n := 1) (A := A) someOrder_valid someRoots_complete one_ne_zero 0 0 h7 (N := 2) two_ne_zero
    (fun _ => row.params) (fun _ => h1) (fun _ => F) (fun _ => h5) (fun _ => h3) (fun _ => h4) (fun _ => h6) net keep params
    (finalInit net.sigSuppress net.basisSize 0 fun _ => 0) (fun i => H (row, (i : ℕ))) (fun i => (hHL _ (hmem i)).1)
    (fun i => (hHL _ (hmem i)).2.1) (fun k : Fin 2 => (k, k)) (fun _ _ => [0, 1]) (fun _ _ => [row.params, row.params]) 0
    (fun i => i) (by simp) (by simp) (fun count => Measure.pi fun _ : Fin 2 => normalsLaw 3 (sampleCount count 3))
    (fun count k x => x k) (fun count => HasLaw.id) one_pos
  exact ⟨A, row.params, F, net, keep, params, _, fun i => H (row, (i : ℕ)), fun i => (hHL _ (hmem i)).1, h1, key⟩

end Cyjax
