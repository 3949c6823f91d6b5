import Verif.Props.LossLimit
import Verif.Props.TrainingLoss

/-! # C174: convergence of the loss function of the training script -/

namespace Cyjax

open MeasureTheory ProbabilityTheory MvPolynomial Cyjax.Spec Cyjax.Polynomial Cyjax.Variety Cyjax.Donaldson Cyjax.Projective Cyjax.Ml Set
  Filter Topology
open scoped ENNReal ComplexOrder

variable {n : ℕ} {A : AlgebraicMetric (n + 1)} {o : SymOrder} (ho : o.Valid) {roots : List ℂ → List ℂ} (hr : CompleteRoots roots)
  (hn : n ≠ 0) (p : Fin (n + 2)) (d : Fin (n + 1)) (hk : A.sections.degree ≠ 0)
  {N : ℕ} (hN : N ≠ 0) (mods : Fin N → List ℂ) (hmods : ∀ i, mods i ≠ []) (F : Fin N → MvPolynomial (Fin (n + 2)) ℂ)
  (hsm : ∀ i, SmoothHypersurface (F i)) (hS : ∀ i, Samplable A.variety (n + 1) (n + 2) (mods i))
  (hF : ∀ i, Hypersurface A.variety (.vec (mods i)) (n + 1) (n + 2) (F i))
  (hB : ∀ i, SpansModulo (F i) A.sections.degree A.sections.rows)
  (net : HNet) (keep : ℕ → ℕ → ℕ → Bool) (params : ℕ → DenseParams) (final : DenseParams) (H : Fin N → A.H) (hH : ∀ i, (H i).PosDef)
  (hnet : ∀ i : Fin N, ∃ q M, net.row (dropout false keep i) params final (mods i) = .ok q ∧ choleskyFromParam q = .ok M ∧ asH A M = .ok (H i))

include ho hr hn hk hN hmods hsm hS hF hB hH hnet in
/-- **C174, the loss of a training step.** Let the network give positive definite matrices `H i` for the `N` sets of moduli of a training
step. The loss function on a sample of `count` points for each of them is close to the mean, over the moduli, of the variance of `eta` of
`H i` over the member of the family: the probability of an error of at least `ε` is at most `C / (count ε²)`. -/
theorem C174_training :
    ∃ C : ℝ, ∀ count : ℕ, count ≠ 0 → ∀ (Key Ω : Type) [MeasurableSpace Ω] (P : Measure Ω) (split : Key → Key × Key)
      (splitN : Key → ℕ → List Key) (paramsSampler : Key → ℕ → List (List ℂ)) (key : Key)
      (X : Key → Ω → Fin 2 → Fin (sampleCount count (n + 2)) → Fin (2 * (n + 2)) → ℝ),
      (splitN (split key).2 N).length = N → paramsSampler (split key).1 N = List.ofFn mods →
      (∀ k ∈ splitN (split key).2 N, HasLaw (X k) (normalsLaw (n + 2) (sampleCount count (n + 2))) P) → ∀ ε > 0,
      P {ω | ε ≤ |resultOrZero (sampleBatch n A.variety o roots split splitN paramsSampler (fun k => asLists (lineDraws (X k ω))) N count key >>=
          lossFunction A net keep params final) -
        (∑ i, etaVariance (cyMeasure p d (F i)) (etaAt A (H i) (mods i)) / (n + 2)) / N|} ≤ ENNReal.ofReal (C / (count * ε ^ 2)) := by
  choose C hC using fun i => (C174_error ho hr (hsm i) hn p d (hS i) (hF i) (hB i) hk (H i) (hH i)).1
  refine ⟨∑ i, max (C i) 0, fun count hc Key Ω _ P split splitN paramsSampler key X hkeys hps hX ε hε => ?_⟩
  obtain ⟨ks, hks⟩ : ∃ ks, ks = splitN (split key).2 N := ⟨_, rfl⟩
  rw [← hks] at hkeys hX
  have hct : (0 : ℝ) < count := by exact_mod_cast Nat.pos_of_ne_zero hc
  have hN' : (0 : ℝ) < N := by exact_mod_cast Nat.pos_of_ne_zero hN
  let kk : Fin N → Key := fun i => ks.get (i.cast hkeys.symm)
  have hkk : ks = List.ofFn kk := by
    apply List.ext_getElem
    · simp [hkeys]
    · intro i h1 h2
      simp [kk]
  have hXk : ∀ i, HasLaw (X (kk i)) (normalsLaw (n + 2) (sampleCount count (n + 2))) P := fun i => hX _ (List.get_mem _ _)
  obtain ⟨Λ, hΛ⟩ : ∃ Λ : Fin N → ℝ, Λ = fun i => etaVariance (cyMeasure p d (F i)) (etaAt A (H i) (mods i)) / (n + 2) := ⟨_, rfl⟩
  let bad : Fin N → Set (Fin 2 → Fin (sampleCount count (n + 2)) → Fin (2 * (n + 2)) → ℝ) := fun i =>
    {x | ε ≤ |resultOrZero (sampleRow n A.variety o roots (fun _ : Unit => asLists (lineDraws x)) count () (mods i) >>=
        varianceEtaLossRow A (H i)) - Λ i|}
  have hadm : ∀ᵐ ω ∂P, ∀ i, ∀ y ∈ lineDraws (X (kk i) ω), Admissible (F i) y := by
    rw [ae_all_iff]
    intro i
    have had := ae_admissible (count := sampleCount count (n + 2)) (F i) (smooth_ne_zero (hsm i)) (hF i).homogeneous
    rw [← (hXk i).map_eq] at had
    filter_upwards [ae_of_ae_map (hXk i).aemeasurable had] with ω hω
    exact hω.2
  have hsub : P {ω | ε ≤ |resultOrZero (sampleBatch n A.variety o roots split splitN paramsSampler
      (fun k => asLists (lineDraws (X k ω))) N count key >>= lossFunction A net keep params final) - (∑ i, Λ i) / N|} ≤
      P (⋃ i, (X (kk i)) ⁻¹' bad i) := by
    refine measure_mono_ae ?_
    filter_upwards [hadm] with ω hω hbad
    by_contra hcon
    have hcon' : ∀ i, ω ∉ (X (kk i)) ⁻¹' bad i := fun i hi => hcon (mem_iUnion.2 ⟨i, hi⟩)
    have hrows : ∀ i, ∃ row : SampleRow (n + 1), sampleRow n A.variety o roots (fun k => asLists (lineDraws (X k ω))) count (kk i) (mods i) =
        .ok row ∧ row.params = mods i ∧ GoodRow A.variety count row := by
      intro i
      obtain ⟨Zs, -, -, a1, a2⟩ := sampleRow_ok (hS i) (hF i) (hsm i) ho hr.exact (fun k => lineDraws (X k ω)) count (kk i) (hω i)
      have hl : (lineDraws (X (kk i) ω)).length = sampleCount count (n + 2) := by rw [lineDraws, List.length_ofFn]
      rw [hl, min_eq_left (sampleCount_mul count (n + 2) (by omega)).1] at a2
      exact ⟨_, a1, rfl, a2⟩
    choose row r1 r2 r3 using hrows
    have hbatch : sampleBatch n A.variety o roots split splitN paramsSampler (fun k => asLists (lineDraws (X k ω))) N count key =
        .ok (List.ofFn row) := by
      unfold sampleBatch
      simp only
      rw [← hks, hps, if_pos (by rw [hkeys, List.length_ofFn]), hkk]
      have hz : (List.ofFn kk).zip (List.ofFn mods) = List.ofFn fun i => (kk i, mods i) := by
        rw [List.ofFn_eq_map, List.ofFn_eq_map, List.zip_map', ← List.ofFn_eq_map]
      rw [hz]
      exact mapM_ofFn fun i => r1 i
    obtain ⟨H', hH'⟩ : ∃ H' : SampleRow (n + 1) × ℕ → A.H, ∀ i : Fin N, H' (row i, (i : ℕ)) = H i :=
      ⟨fun x => if hx : x.2 < N then H ⟨x.2, hx⟩ else 1, fun i => by simp⟩
    have hzip : ∀ x ∈ (List.ofFn row).zipIdx, ∃ i : Fin N, x = (row i, (i : ℕ)) := by
      rintro ⟨y, j⟩ hx
      have hj := List.mk_mem_zipIdx_iff_getElem?.1 hx
      rw [List.getElem?_ofFn] at hj
      split_ifs at hj with hjN
      exact ⟨⟨j, hjN⟩, by rw [Option.some.inj hj]⟩
    obtain ⟨L, l1, l2⟩ := loss_rows (e := n + 2) net keep params final hc hk (List.ofFn row) (by
        intro r hr'
        obtain ⟨i, rfl⟩ := (List.mem_ofFn' _ _).1 hr'
        exact ⟨by rw [r2]; exact hmods i, r3 i, F i, by rw [r2]; exact hF i, hsm i, hB i⟩) H'
      (by
        intro x hx
        obtain ⟨i, rfl⟩ := hzip x hx
        rw [hH']
        exact hH i)
      (by
        intro x hx
        obtain ⟨i, rfl⟩ := hzip x hx
        simp only [hH', r2]
        exact hnet i)
    have hmem : ∀ i : Fin N, (row i, (i : ℕ)) ∈ (List.ofFn row).zipIdx := by
      intro i
      rw [List.mk_mem_zipIdx_iff_getElem?, List.getElem?_ofFn, dif_pos i.2]
    have hli : ∀ i, |L (row i, (i : ℕ)) - Λ i| < ε := by
      intro i
      have h1 := hcon' i
      have h2 : sampleRow n A.variety o roots (fun _ : Unit => asLists (lineDraws (X (kk i) ω))) count () (mods i) = .ok (row i) := r1 i
      change ¬ (ε ≤ |resultOrZero (sampleRow n A.variety o roots (fun _ : Unit => asLists (lineDraws (X (kk i) ω))) count () (mods i) >>=
        varianceEtaLossRow A (H i)) - Λ i|) at h1
      rw [h2] at h1
      change ¬ (ε ≤ |resultOrZero (varianceEtaLossRow A (H i) (row i)) - Λ i|) at h1
      have h3 := (l1 _ (hmem i)).1
      rw [hH'] at h3
      rw [h3, not_le] at h1
      exact h1
    have hlist : listMean ((List.ofFn row).zipIdx.map L) = (∑ i : Fin N, L (row i, (i : ℕ))) / N := by
      have : (List.ofFn row).zipIdx.map L = List.ofFn fun i : Fin N => L (row i, (i : ℕ)) := by
        apply List.ext_getElem
        · simp
        · intro i h1 h2
          simp
      rw [this, listMean, List.sum_ofFn, List.length_ofFn]
    change ε ≤ |resultOrZero (_ >>= _) - _| at hbad
    rw [hbatch] at hbad
    change ε ≤ |resultOrZero (lossFunction A net keep params final (List.ofFn row)) - _| at hbad
    rw [l2] at hbad
    change ε ≤ |listMean _ - _| at hbad
    rw [hlist, ← sub_div, ← Finset.sum_sub_distrib, abs_div, abs_of_pos hN', le_div_iff₀ hN'] at hbad
    have : Nonempty (Fin N) := ⟨⟨0, Nat.pos_of_ne_zero hN⟩⟩
    have hlt : ∑ i : Fin N, |L (row i, (i : ℕ)) - Λ i| < ∑ _i : Fin N, ε := Finset.sum_lt_sum_of_nonempty Finset.univ_nonempty fun i _ => hli i
    rw [Finset.sum_const, Finset.card_univ, Fintype.card_fin, nsmul_eq_mul] at hlt
    have := Finset.abs_sum_le_sum_abs (fun i : Fin N => L (row i, (i : ℕ)) - Λ i) Finset.univ
    linarith
  rw [hΛ] at hsub
  refine hsub.trans ((measure_iUnion_fintype_le P _).trans ?_)
  rw [Finset.sum_div, ENNReal.ofReal_sum_of_nonneg fun k _ => by positivity]
  refine Finset.sum_le_sum fun i _ => ?_
  refine (Measure.le_map_apply (hXk i).aemeasurable _).trans ?_
  rw [(hXk i).map_eq]
  refine le_trans ?_ ((hC i count hc ε hε).trans (ENNReal.ofReal_le_ofReal (div_le_div_of_nonneg_right (le_max_left _ _) (by positivity))))
  refine le_of_eq (congrArg _ ?_)
  simp only [bad, hΛ]


/-- The hypotheses of `C174_training` hold for the Dwork cubic at `psi = 0` and an untrained network, with one set of moduli. -/
example : ∃ (A : AlgebraicMetric 2) (ps : List ℂ) (F : MvPolynomial (Fin 3) ℂ) (net : HNet) (keep : ℕ → ℕ → ℕ → Bool)
    (params : ℕ → DenseParams) (final : DenseParams) (H : A.H) (C : ℝ), H.PosDef ∧ ps ≠ [] ∧
    ∀ count : ℕ, count ≠ 0 → ∀ ε > 0, normalsLaw 3 (sampleCount count 3)
      {x | ε ≤ |resultOrZero (sampleBatch 1 A.variety someOrder someRoots (fun _ : Unit => ((), ())) (fun _ N => List.replicate N ())
          (fun _ _ => [ps]) (fun _ => asLists (lineDraws x)) 1 count () >>= lossFunction A net keep params final) -
        etaVariance (cyMeasure (n := 1) 0 0 F) (etaAt (n := 1) A H ps) / ((1 : ℕ) + 2)|} ≤ ENNReal.ofReal (C / (count * ε ^ 2)) := by
  obtain ⟨A, F, row, net, h1, h2, h3, h4, h5, h6, h7, h8, h9, h10, -, h11⟩ := training_instance
  obtain ⟨keep, params⟩ : Nonempty ((ℕ → ℕ → ℕ → Bool) × (ℕ → DenseParams)) := ⟨fun _ _ _ => true, fun _ => ⟨fun _ _ => 0, fun _ => 0⟩⟩
  obtain ⟨H, L, hHL, -⟩ := C122_loss net keep params (finalInit net.sigSuppress net.basisSize 0 fun _ => 0) h8 h9 h10 (e := 3)
    (count := 3) (by norm_num) h7 [row] (by
      intro r hr
      obtain rfl := List.mem_singleton.1 hr
      exact ⟨h1, h2, F, h4, h5, h6⟩) (by simp) (by
      intro x hx h hx'
      obtain rfl := List.mem_singleton.1 hx
      exact h11 _ _ h hx')
  obtain ⟨p1, p2, -⟩ := hHL (row, 0) (by simp)
  obtain ⟨C, hC⟩ := C174_training (n := 1) (A := A) someOrder_valid someRoots_complete one_ne_zero 0 0 h7 (N := 1) one_ne_zero
    (fun _ => row.params) (fun _ => h1) (fun _ => F) (fun _ => h5) (fun _ => h3) (fun _ => h4) (fun _ => h6) net keep params
    (finalInit net.sigSuppress net.basisSize 0 fun _ => 0) (fun _ => H (row, 0)) (fun _ => p1) (by
      intro i
      obtain rfl : i = 0 := Subsingleton.elim _ _
      exact p2)
  refine ⟨A, row.params, F, net, keep, params, finalInit net.sigSuppress net.basisSize 0 fun _ => 0, H (row, 0), C, p1, h1, fun count hc ε hε => ?_⟩
  have := hC count hc Unit _ (normalsLaw 3 (sampleCount count 3)) (fun _ => ((), ())) (fun _ N => List.replicate N ())
    (fun _ _ => [row.params]) () (fun _ x => x) (by simp) (by simp) (fun _ _ => HasLaw.id) ε hε
  simpa using this

end Cyjax
