import Verif.Lemmas.KeyTree
import Verif.Props.Rows
import Verif.Props.UtilMisc
import Verif.Spec.Keys

/-! # C143: every random key is used once; convergence of the algorithm with the keys it uses -/

namespace Cyjax

open MeasureTheory ProbabilityTheory MvPolynomial Cyjax.Spec Cyjax.Polynomial Cyjax.Variety Cyjax.Donaldson Set Filter
  Topology Cyjax.Keys Cyjax.Util
open scoped ENNReal NNReal ComplexOrder

section Discipline

variable {Key : Type*} {child : Key → ℕ → ℕ → Key} (T : KeyTree child)

/-- A function of the package that gets a key. -/
inductive Consumer (child : Key → ℕ → ℕ → Key) : (Key → Trace Key) → Prop
  | draw : Consumer child useDraw
  | each (num : ℕ) : Consumer child (useEach child num)
  | sample (num : ℕ) : Consumer child (useSample child num)

include T

private theorem consumer_proper {f : Key → Trace Key} (h : Consumer child f) : Proper (child := child) f := by
  cases h with
  | draw => exact useDraw_proper
  | each num => exact useEach_proper T num
  | sample num => exact useSample_proper T num

/-- **C143.** If splitting keys makes no collisions, then in any sequence of calls with `next(rns)`, to functions other than
`mc_integrate_batched`, no key is consumed twice. -/
theorem C143_single_use_partial (fs : List (Key → Trace Key)) (hfs : ∀ f ∈ fs, Consumer child f) (rns : Key) :
    SingleUse (useSequence child fs rns).1 :=
  (useSequence_proper T fs (fun f hf => consumer_proper T (hfs f hf)) rns).1

/-- **C143.** The training script consumes no key twice: the buffers of the sampler, validation, initialisation, dropout,
accuracies and the final evaluation all have different keys, for every number of steps. -/
theorem C143_training (bufferSize batchSizeParams logEvery steps : ℕ) (sizes : List ℕ) (seed : Key) :
    SingleUse (useScript child bufferSize batchSizeParams logEvery steps sizes seed) :=
  useScript_single T bufferSize batchSizeParams logEvery steps sizes seed

omit T in
/-- **C143.** `mc_integrate_batched` breaks the rule: in every batch the key is split and also given to `sample`. -/
theorem C143_violated (b : ℕ) (hb : b ≠ 0) (k : Key) : ¬ SingleUse (useBatched child b k) := by
  obtain ⟨b, rfl⟩ := Nat.exists_eq_succ_of_ne_zero hb
  intro h
  unfold SingleUse useBatched splitPair useDraw at h
  simp at h

/-- The keys that generate values. -/
private def drawKeys (t : Trace Key) : List Key := (t.filter fun e => e.2 = .draw).map Prod.fst

omit T in
private theorem batched_keys (b : ℕ) (k : Key) :
    drawKeys (useBatched child b k) = (List.range b).map (batchKey (splitPair child) k) := by
  induction b generalizing k with
  | zero => rfl
  | succ b ih =>
    rw [List.range_succ_eq_map, List.map_cons, List.map_map]
    have h1 : drawKeys (useBatched child (b + 1) k) = k :: drawKeys (useBatched child b (child k 2 1)) := rfl
    rw [h1, ih]
    rfl

private theorem batchKey_rank (k : Key) (i : ℕ) : T.rank (batchKey (splitPair child) k i) = T.rank k + i := by
  induction i with
  | zero => rfl
  | succ i ih =>
    unfold batchKey at *
    rw [Function.iterate_succ_apply']
    change T.rank (child _ 2 1) = _
    rw [T.rank_child _ _ _ (by norm_num), ih]
    ring

private theorem batchKey_injective (k : Key) : Function.Injective (batchKey (splitPair child) k) := fun i j h => by
  have := congrArg T.rank h
  rw [batchKey_rank T, batchKey_rank T] at this
  omega

/-- **C143.** At least no two batches of `mc_integrate_batched` draw with the same key. -/
theorem C143_batched_partial (b : ℕ) (k : Key) : ((useBatched child b k).filter fun e => e.2 = .draw).map Prod.fst |>.Nodup := by
  change (drawKeys _).Nodup
  rw [batched_keys]
  exact List.nodup_range.map (batchKey_injective T k)

end Discipline

section Locality

variable {Key : Type*} {child : Key → ℕ → ℕ → Key} {n : ℕ}

private theorem volBatches_congr (bs : ℕ) {f g : Key → Except PyErr (List ℝ)} (b : ℕ) (k : Key)
    (h : ∀ k', (k', Use.draw) ∈ useBatched child b k → f k' = g k') :
    volBatches (splitPair child) bs f k b = volBatches (splitPair child) bs g k b := by
  induction b generalizing k with
  | zero => rfl
  | succ b ih =>
    have h1 := ih (child k 2 1) fun k' hk' => h k' (by
      unfold useBatched splitPair
      exact List.mem_append_right _ hk')
    unfold volBatches
    simp only [show (splitPair child k).2 = child k 2 1 from rfl]
    rw [h k (by simp [useBatched, useDraw, splitPair]), h1]

/-- **C143.** The lists of keys are right for `compute_vol`: the result depends on no values but those drawn with the keys
that are listed. -/
theorem C143_volume_keys (V : HomKind) (o : SymOrder) (roots : List ℂ → List ℂ) (params : List ℂ)
    (draws draws' : Key → List (List ℂ × List ℂ)) (key : Key) (batches batchSize : ℕ)
    (h : ∀ k, (k, Use.draw) ∈ useBatched child batches key → draws k = draws' k) :
    computeVol n V o roots params (splitPair child) draws key batches batchSize =
      computeVol n V o roots params (splitPair child) draws' key batches batchSize := by
  unfold computeVol
  rw [volBatches_congr batchSize batches key fun k hk => by rw [h k hk]]

/-- **C143.** The same for `donaldson_step`. -/
theorem C143_step_keys (A : AlgebraicMetric (n + 1)) (h : A.H) (o : SymOrder) (roots : List ℂ → List ℂ)
    (params : List ℂ) (vol : ℝ) (draws draws' : Key → List (List ℂ × List ℂ)) (key : Key) (batches batchSize : ℕ)
    (hd : ∀ k, (k, Use.draw) ∈ useEach child batches key → draws k = draws' k) :
    donaldsonStepKey child A h o roots params vol batches batchSize draws key =
      donaldsonStepKey child A h o roots params vol batches batchSize draws' key := by
  unfold donaldsonStepKey
  congr 1
  refine List.map_congr_left fun k hk => hd k ?_
  exact List.mem_cons_of_mem _ (List.mem_flatMap.2 ⟨k, hk, List.mem_singleton.2 rfl⟩)

end Locality

section Algorithm

variable {n : ℕ} {F : MvPolynomial (Fin (n + 2)) ℂ} {A : AlgebraicMetric (n + 1)} {ps : List ℂ} {o : SymOrder}
  (ho : o.Valid) {roots : List ℂ → List ℂ} (hr : CompleteRoots roots) (hsm : SmoothHypersurface F) (hn : n ≠ 0)
  (p : Fin (n + 2)) (d : Fin (n + 1)) (hS : Samplable A.variety (n + 1) (n + 2) ps)
  (hF : Hypersurface A.variety (.vec ps) (n + 1) (n + 2) F)
  (hB : IsBasisModulo F A.sections.degree A.sections.rows) (h : A.H) (hh : h.PosDef)

private theorem algorithm_eq {Key : Type*} {child : Key → ℕ → ℕ → Key} (bs bs' b k : ℕ)
    (X : Key → Fin 2 → Fin (sampleCount bs (n + 2)) → Fin (2 * (n + 2)) → ℝ)
    (Y : Key → Fin 2 → Fin (sampleCount bs' (n + 2)) → Fin (2 * (n + 2)) → ℝ) (rns : Key) {m v : ℝ}
    (hv : computeVol n A.variety o roots ps (splitPair child) (fun k => asLists (lineDraws (Y k))) (child rns 2 0) b bs' =
      .ok (m, v)) :
    algorithm child A o roots ps b bs bs' (fun k => asLists (lineDraws (X k))) (fun k => asLists (lineDraws (Y k))) rns k h =
      repeatedSteps A o roots ps bs (fun t i => X (child (seqKey (splitPair child) (child rns 2 1) t) b i)) m b k h := by
  unfold algorithm repeatedSteps
  have h1 : prngNext (splitPair child) rns = (child rns 2 1, child rns 2 0) := rfl
  have h2 := C13_prng (fun _ => rns) (splitPair child) (.key (child rns 2 1)) k
  rw [show prngInit (fun _ => rns) (.key (child rns 2 1)) = child rns 2 1 from rfl] at h2
  simp only [h1, hv]
  change List.foldlM _ h (prngTake (splitPair child) (child rns 2 1) k).1 = _
  rw [h2, List.foldlM_map]
  congr 1
  funext h t
  unfold donaldsonStepKey splitMany
  rw [List.map_map]
  congr 1
  refine List.ext_getElem (by simp) fun i h1 h2 => ?_
  simp [seqKey]

include ho hr hsm hn p d hS hF hB hh

/-- **C143.** Donaldson's algorithm with the keys the code uses: a program with one `PRNGSequence` that calls `compute_vol` and
then `donaldson_step` `k` times. For keys without collisions and an ideal generator, almost surely the matrix after `k` steps
converges as the number of batches grows, and as `k` grows these limits converge to a balanced matrix. -/
theorem C143_algorithm {Key : Type*} {child : Key → ℕ → ℕ → Key} (T : KeyTree child) {Ω : Type*} [MeasurableSpace Ω]
    {P : Measure Ω} (bs : ℕ) (hbs : bs ≠ 0) (hdvd : (n + 2) ∣ bs) (bs' : ℕ) (hbs' : bs' ≠ 0) (hdvd' : (n + 2) ∣ bs')
    (X : Key → Ω → Fin 2 → Fin (sampleCount bs (n + 2)) → Fin (2 * (n + 2)) → ℝ)
    (hX : IdealGenerator P (n + 2) (sampleCount bs (n + 2)) X)
    (Y : Key → Ω → Fin 2 → Fin (sampleCount bs' (n + 2)) → Fin (2 * (n + 2)) → ℝ)
    (hY : IdealGenerator P (n + 2) (sampleCount bs' (n + 2)) Y) (rns : Key) :
    ∃ h' : A.H, Balanced (sec A) (cyMeasure p d F) h' ∧ ∀ᵐ ω ∂P, ∃ L : ℕ → A.H, Tendsto L atTop (𝓝 h') ∧
      ∀ k, Tendsto (fun b => matrixOrZero (algorithm child A o roots ps b bs bs' (fun key => asLists (lineDraws (X key ω)))
        (fun key => asLists (lineDraws (Y key ω))) rns k h)) atTop (𝓝 (L k)) := by
  obtain ⟨h', hb, hlim⟩ := C142_balanced ho hr hsm hn p d hS hF hB h hh bs hbs hdvd
    (fun t b i => X (child (seqKey (splitPair child) (child rns 2 1) t) b i)) (fun t b i => hX.law _)
    (fun t b => hX.indep.precomp (g := fun i : Fin b => child (seqKey (splitPair child) (child rns 2 1) t) b i)
      fun i j hij => Fin.ext (child_inj T i.2 j.2 hij))
    (splitPair child) (fun _ => child rns 2 0) bs' hbs' hdvd' Y (fun b i _ => hY.law _)
    (fun b => hY.indep.precomp (g := fun i : Fin b => batchKey (splitPair child) (child rns 2 0) i)
      fun i j hij => Fin.ext (batchKey_injective T _ hij))
  have hok : ∀ᵐ ω ∂P, ∀ b : ℕ, b ≠ 0 → ∃ m v : ℝ, computeVol n A.variety o roots ps (splitPair child)
      (fun k => asLists (lineDraws (Y k ω))) (child rns 2 0) b bs' = .ok (m, v) ∧ 0 < m ∧ 0 ≤ v := by
    rw [ae_all_iff]
    intro b
    by_cases hb0 : b = 0
    · exact Eventually.of_forall fun ω h0 => absurd hb0 h0
    · filter_upwards [C113_vol ho hr.exact hsm hS hF le_rfl (splitPair child) (child rns 2 0) b bs' hb0 hbs' Y
        fun i _ => hY.law _] with ω hω _
      exact hω
  refine ⟨h', hb, ?_⟩
  filter_upwards [hlim, hok] with ω h1 h2
  obtain ⟨L, h3, h4⟩ := h1
  refine ⟨L, h3, fun k => (h4 k).congr' ?_⟩
  filter_upwards [eventually_ne_atTop 0] with b hb0
  obtain ⟨m, v, h5, -⟩ := h2 b hb0
  rw [algorithm_eq h bs bs' b k (fun key => X key ω) (fun key => Y key ω) rns h5, h5]
  rfl

end Algorithm

/-- Keys without collisions: the lists of positions, whether or not `num` is part of the key. -/
example : Nonempty (KeyTree fun (k : List ℕ) (_ i : ℕ) => i :: k) ∧
    Nonempty (KeyTree fun (k : List (ℕ × ℕ)) (num i : ℕ) => (num, i) :: k) :=
  ⟨⟨⟨fun k => k.head?.map fun i => (k.tail, i), List.length, fun _ _ _ _ => rfl, fun _ _ _ _ => rfl⟩⟩,
    ⟨⟨fun k => k.head?.map fun i => (k.tail, i.2), List.length, fun _ _ _ _ => rfl, fun _ _ _ _ => rfl⟩⟩⟩

/-- An ideal generator exists for every set of keys, so the hypotheses of `C143_algorithm` can be met: the Dwork quintic with
`psi = 2`, 2000 points in a batch, and sections of any degree. -/
example (k : ℕ) : ∃ (rows : List (Fin 5 → ℕ)) (F : MvPolynomial (Fin 5) ℂ) (P : Measure (List ℕ → Fin 2 →
    Fin (sampleCount 2000 5) → Fin (2 * 5) → ℝ)) (_ : IsProbabilityMeasure P)
    (h' : (⟨.dwork 5 (.flag true), ⟨k, rows⟩⟩ : AlgebraicMetric 4).H),
    Balanced (sec (⟨.dwork 5 (.flag true), ⟨k, rows⟩⟩ : AlgebraicMetric 4)) (cyMeasure (n := 3) 0 0 F) h' ∧
    ∀ᵐ ω ∂P, ∃ L : ℕ → _, Tendsto L atTop (𝓝 h') ∧ ∀ j, Tendsto (fun b => matrixOrZero
      (algorithm (fun (key : List ℕ) (_ i : ℕ) => i :: key) (⟨.dwork 5 (.flag true), ⟨k, rows⟩⟩ : AlgebraicMetric 4) someOrder
        someRoots [2] b 2000 2000 (fun key => asLists (lineDraws (ω key))) (fun key => asLists (lineDraws (ω key))) [] j 1))
        atTop (𝓝 (L j)) := by
  obtain ⟨F, hF, hsm⟩ := C114_quintic 2 []
  have hsm' := hsm.2 (by norm_num)
  have hvars : F.vars = Finset.univ := by
    refine Finset.eq_univ_iff_forall.2 fun i => ?_
    by_contra hi
    exact smooth_pderiv_ne_zero hF.homogeneous (by norm_num) hsm' i (pderiv_eq_zero_of_notMem_vars hi)
  obtain ⟨rows, h1, h2⟩ := C97_basis_partial F 5 k hF.homogeneous hvars
  have hS := Samplable.dwork 4 (.flag true) (by simp [DworkFactor.value]) 2
  have hX : IdealGenerator (Measure.infinitePi fun _ => normalsLaw 5 (sampleCount 2000 5)) 5 (sampleCount 2000 5)
      (fun (key : List ℕ) (ω : List ℕ → Fin 2 → Fin (sampleCount 2000 5) → Fin (2 * 5) → ℝ) => ω key) :=
    ⟨fun i => (measurePreserving_eval_infinitePi (fun _ : List ℕ => normalsLaw 5 (sampleCount 2000 5)) _).hasLaw,
      iIndepFun_infinitePi (X := fun _ x => x) fun _ => measurable_id⟩
  obtain ⟨h', hb, hl⟩ := C143_algorithm (A := ⟨.dwork 5 (.flag true), ⟨k, rows⟩⟩) someOrder_valid someRoots_complete hsm'
    (by norm_num) 0 0 hS hF h2 1 Matrix.PosDef.one
    (⟨fun k => k.head?.map fun i => (k.tail, i), List.length, fun _ _ _ _ => rfl, fun _ _ _ _ => rfl⟩ :
      KeyTree fun (key : List ℕ) (_ i : ℕ) => i :: key) 2000 (by norm_num) (by norm_num) 2000 (by norm_num) (by norm_num)
    _ hX _ hX []
  exact ⟨rows, F, _, inferInstance, h', hb, hl⟩

end Cyjax
