import Verif.Lemmas.ModuliLines
import Verif.Props.TrainingLoss
import Verif.Props.TrainScript

/-! # Random moduli: almost all members of a family are smooth (C125) and training with them (C126) -/

namespace Cyjax

open Cyjax.Donaldson Cyjax.Spec Cyjax.Projective Cyjax.Variety Cyjax.Ml Cyjax.TrainScript MvPolynomial
open MeasureTheory ProbabilityTheory
open Cyjax.Polynomial (PyErr Val DworkFactor)

section Families

/-- **C125.** The varieties of the package are families of hypersurfaces, and sampling is offered for all members. -/
theorem C125_families {V : HomKind} {m e : ℕ} {ps : List ℂ} (h : Samplable V m e ps) :
    ∃ k Φ, k = ps.length ∧ Family V k m e Φ ∧ ∀ ps' : Fin k → ℂ, Samplable V m e (List.ofFn ps') := by
  cases h with
  | generic P name _ _ _ proper homogeneous patches names length =>
    obtain ⟨Φ, hΦ⟩ := family_generic proper homogeneous patches
    exact ⟨_, Φ, length.symm, hΦ, fun ps' => .generic P name _ _ _ proper homogeneous patches names List.length_ofFn⟩
  | dwork m f real psi =>
    exact ⟨1, _, rfl, family_dwork m f, fun ps' => by
      rw [List.ofFn_succ]
      exact .dwork m f real _⟩
  | fermat m => exact ⟨0, _, rfl, family_fermat m, fun ps' => .fermat m⟩

variable {V : HomKind} {k m e : ℕ} {Φ : MvPolynomial (Fin (m + 1)) (MvPolynomial (Fin k) ℂ)}

/-- **C125.** If one member of a family is smooth, the others are smooth as well, except for moduli that satisfy one
non-trivial polynomial equation. -/
theorem C125_generic (hV : Family V k m e Φ) (he : e ≠ 0) (ps₀ : Fin k → ℂ) (h0 : SmoothHypersurface (map (eval ps₀) Φ)) :
    ∃ a : MvPolynomial (Fin k) ℂ, a ≠ 0 ∧ ∀ ps, eval ps a ≠ 0 → SmoothHypersurface (map (eval ps) Φ) :=
  generic_smooth he Φ hV.homogeneous ps₀ h0

/-- **C125.** If one member of a family is smooth, the members at moduli drawn by the sampler of the training script are almost
surely all smooth, for any bounds other than zero. -/
theorem C125_random (hV : Family V k m e Φ) (he : e ≠ 0) (ps₀ : Fin k → ℂ) (h0 : SmoothHypersurface (map (eval ps₀) Φ))
    (b : Fin k → ℝ) (hb : ∀ j, b j ≠ 0) {rows : ℕ} {Ω : Type*} [MeasurableSpace Ω] {P : Measure Ω}
    (U : Ω → Fin 2 → Fin rows → Fin k → ℝ) (hU : HasLaw U (cubeLaw rows k) P) :
    ∀ᵐ ω ∂P, ∀ i, SmoothHypersurface (map (eval (cubeParamSampler b (U ω 0 i) (U ω 1 i))) Φ) := by
  obtain ⟨a, ha, hs⟩ := C125_generic hV he ps₀ h0
  rw [ae_all_iff]
  intro i
  have h := ae_cube b hb a ha i
  rw [← hU.map_eq] at h
  filter_upwards [ae_of_ae_map hU.aemeasurable h] with ω hω
  exact hs _ hω

/-- The member of the Dwork family at `ψ = 0` is smooth. -/
theorem smooth_dwork_zero (m : ℕ) (f : DworkFactor) : SmoothHypersurface (map (eval (fun _ : Fin 1 => (0 : ℂ)))
    (∑ j, X j ^ (m + 1) + C (C f.value * X 0) * ∏ j, X j : MvPolynomial (Fin (m + 1)) (MvPolynomial (Fin 1) ℂ))) := by
  have := (smooth_dwork (m := m) 0).2 (by
    rw [neg_zero, zero_pow (Nat.succ_ne_zero m)]
    exact (pow_ne_zero _ (Nat.cast_ne_zero.2 (Nat.succ_ne_zero m))).symm)
  simpa using this

/-- **C125, Dwork family.** Members of the Dwork family at random moduli are almost surely smooth, in any dimension and with
any factor. -/
theorem C125_dwork (m : ℕ) (f : DworkFactor) (b : ℝ) (hb : b ≠ 0) {rows : ℕ} {Ω : Type*} [MeasurableSpace Ω] {P : Measure Ω}
    (U : Ω → Fin 2 → Fin rows → Fin 1 → ℝ) (hU : HasLaw U (cubeLaw rows 1) P) :
    ∀ᵐ ω ∂P, ∀ i, ∃ F, Hypersurface (.dwork (m + 1) f) (.vec [cubeParamSampler (fun _ => b) (U ω 0 i) (U ω 1 i) 0]) m (m + 1) F ∧
      SmoothHypersurface F := by
  filter_upwards [C125_random (family_dwork m f) (Nat.succ_ne_zero m) _ (smooth_dwork_zero m f) (fun _ => b) (fun _ => hb) U hU] with ω hω i
  exact ⟨_, (family_dwork m f).member _, hω i⟩

end Families

section Stream

variable {n : ℕ} {V : HomKind} {k e : ℕ} {Φ : MvPolynomial (Fin (n + 2)) (MvPolynomial (Fin k) ℂ)} {o : SymOrder} (ho : o.Valid)
  {roots : List ℂ → List ℂ} (hr : ExactRoots roots) {Ω : Type*} [MeasurableSpace Ω] {P : Measure Ω}

include ho hr

/-- **C126, the stream with random moduli.** Let `V` be a family of degree at least the number of coordinates with one smooth
member, and let the moduli be drawn by the sampler of the training script with bounds other than zero. If the numbers drawn for
moduli are uniform, those drawn for lines are normal, and both are independent, then almost surely the batch sampler can be made
and every call of `next` succeeds: the members at the moduli drawn are smooth, and for each of them there are exactly `bs` points
on it with positive weights. -/
theorem C126_stream (hV : Family V k (n + 1) e Φ) (hS : ∀ ps : Fin k → ℂ, Samplable V (n + 1) e (List.ofFn ps))
    (he : n + 2 ≤ e) (ps₀ : Fin k → ℂ) (h0 : SmoothHypersurface (map (eval ps₀) Φ)) (b : Fin k → ℝ) (hb : ∀ j, b j ≠ 0)
    {Key : Type*} (split : Key → Key × Key) (splitN : Key → ℕ → List Key) (bsp bs B : ℕ) (hB : 0 < B) (s0 : Key)
    (hk : ∀ key, (splitN key bsp).length = bsp)
    (U : Key → Ω → Fin 2 → Fin bsp → Fin k → ℝ)
    (L : Key → Ω → Fin 2 → Fin (sampleCount bs (n + 2)) → Fin (2 * (n + 2)) → ℝ)
    (hUL : ∀ j, ∀ key ∈ splitN (split (seqKey split s0 j)).2 bsp, HasLaw (fun ω => (U (split (seqKey split s0 j)).1 ω, L key ω))
      ((cubeLaw bsp k).prod (normalsLaw (n + 2) (sampleCount bs (n + 2)))) P) :
    ∀ᵐ ω ∂P, ∃ batches : ℕ → List (SampleRow (n + 1)),
      (∀ j, (batches j).length = bsp ∧ ∀ (i : Fin bsp) (row : SampleRow (n + 1)), (batches j)[(i : ℕ)]? = some row →
        ∃ ps : Fin k → ℂ, ps = cubeParamSampler b (U (split (seqKey split s0 j)).1 ω 0 i) (U (split (seqKey split s0 j)).1 ω 1 i) ∧
          row.params = List.ofFn ps ∧ SmoothHypersurface (map (eval ps) Φ) ∧ GoodRow V bs row) ∧
      ∃ st, samplerInit split (sampleBatch n V o roots split splitN
            (fun key _ => List.ofFn fun i => List.ofFn (cubeParamSampler b (U key ω 0 i) (U key ω 1 i)))
            (fun key => asLists (lineDraws (L key ω))) bsp bs) B s0 = .ok st ∧
        ∀ N, (samplerRun split (sampleBatch n V o roots split splitN
            (fun key _ => List.ofFn fun i => List.ofFn (cubeParamSampler b (U key ω 0 i) (U key ω 1 i)))
            (fun key => asLists (lineDraws (L key ω))) bsp bs) B N st).1 = (List.range N).map fun j => .ok (batches j) := by
  have key : ∀ᵐ ω ∂P, ∀ (j : ℕ) (i : Fin bsp), ∀ ky ∈ (splitN (split (seqKey split s0 j)).2 bsp)[i]?,
      SmoothHypersurface (map (eval (cubeRow b (U (split (seqKey split s0 j)).1 ω) i)) Φ) ∧
      ∀ z ∈ lineDraws (L ky ω), Admissible (map (eval (cubeRow b (U (split (seqKey split s0 j)).1 ω) i)) Φ) z := by
    rw [ae_all_iff]
    intro j
    rw [ae_all_iff]
    intro i
    cases hx : (splitN (split (seqKey split s0 j)).2 bsp)[i]? with
    | none => exact Filter.Eventually.of_forall fun ω x hx => by cases hx
    | some ky =>
      have hlaw := hUL j ky (List.mem_of_getElem? hx)
      have had := ae_moduli_lines (n := n) (count := sampleCount bs (n + 2)) hV.homogeneous (by omega) ps₀ h0 b hb i
      rw [← hlaw.map_eq] at had
      filter_upwards [ae_of_ae_map hlaw.aemeasurable had] with ω hω
      intro x' hx'
      obtain rfl := Option.some.inj hx'
      exact hω
  filter_upwards [key] with ω hω
  have hbatch : ∀ j, ∃ rows, sampleBatch n V o roots split splitN
        (fun key _ => List.ofFn fun i => List.ofFn (cubeParamSampler b (U key ω 0 i) (U key ω 1 i)))
        (fun key => asLists (lineDraws (L key ω))) bsp bs (seqKey split s0 j) = .ok rows ∧
      rows.map SampleRow.params = (List.ofFn fun i => List.ofFn (cubeParamSampler b (U (split (seqKey split s0 j)).1 ω 0 i)
        (U (split (seqKey split s0 j)).1 ω 1 i))) ∧ ∀ row ∈ rows, GoodRow V bs row := by
    intro j
    have := C121_batch (V := V) (e := e) ho hr split splitN
      (fun key _ => List.ofFn fun i => List.ofFn (cubeParamSampler b (U key ω 0 i) (U key ω 1 i)))
      (fun key => lineDraws (L key ω)) bsp bs (seqKey split s0 j) (sampleCount bs (n + 2)) (by rw [hk, List.length_ofFn]) (by
        intro x hx
        refine ⟨by rw [lineDraws, List.length_ofFn], ?_⟩
        obtain ⟨i, hi⟩ := List.mem_iff_getElem?.1 hx
        rw [List.getElem?_zip_eq_some] at hi
        obtain ⟨hi1, hi2⟩ := hi
        have hib : i < bsp := by
          have := (List.getElem?_eq_some_iff.1 hi1).1
          rwa [hk] at this
        rw [List.getElem?_ofFn, dif_pos hib] at hi2
        obtain ⟨f1, f2⟩ := hω j ⟨i, hib⟩ x.1 hi1
        rw [← Option.some.inj hi2]
        exact ⟨_, hS _, hV.member _, f1, f2⟩)
    rwa [min_eq_left ((sampleCount_mul bs (n + 2) (by omega)).1.trans (Nat.mul_le_mul_left _ he))] at this
  choose batches b1 b2 b3 using hbatch
  refine ⟨batches, fun j => ⟨?_, fun i row hrow => ?_⟩, C80_total split _ B hB s0 batches b1⟩
  · have := congrArg List.length (b2 j)
    rwa [List.length_map, List.length_ofFn] at this
  · refine ⟨_, rfl, ?_, ?_, b3 j row (List.mem_of_getElem? hrow)⟩
    · have := congrArg (fun l => l[(i : ℕ)]?) (b2 j)
      simp only [List.getElem?_map, hrow, Option.map_some, List.getElem?_ofFn, i.2, dif_pos] at this
      exact Option.some.inj this
    · have hi : (i : ℕ) < (splitN (split (seqKey split s0 j)).2 bsp).length := by rw [hk]; exact i.2
      exact (hω j i _ (List.getElem?_eq_getElem hi)).1

/-- **C126, training with random moduli.** Under the same conditions, with sections without common zeros on the members, a
network of the right size and at least one parameter: almost surely the loss function can be evaluated on every sample that the
batch sampler returns. It is defined and not negative for all network parameters for which no decoded triangular matrix has a
zero on its diagonal, and also for the initial ones (without fluctuation). -/
theorem C126_training {A : AlgebraicMetric (n + 1)} (hV : Family A.variety k (n + 1) e Φ)
    (hS : ∀ ps : Fin k → ℂ, Samplable A.variety (n + 1) e (List.ofFn ps)) (hk0 : k ≠ 0)
    (hB' : ∀ ps, SpansModulo (map (eval ps) Φ) A.sections.degree A.sections.rows) (hd : A.sections.degree ≠ 0)
    (he : n + 2 ≤ e) (ps₀ : Fin k → ℂ) (h0 : SmoothHypersurface (map (eval ps₀) Φ)) (b : Fin k → ℝ) (hb : ∀ j, b j ≠ 0)
    (net : HNet) (hsize : net.basisSize = A.sections.size) (hpow : ∃ q ∈ net.powers, q ≠ 0)
    (hfeat : net.featureAngle ∨ net.featureAbs ∨ net.featureParts)
    {Key : Type*} (split : Key → Key × Key) (splitN : Key → ℕ → List Key) (bsp bs B : ℕ) (hbsp : 0 < bsp) (hbs : bs ≠ 0)
    (hB : 0 < B) (s0 : Key) (hk : ∀ key, (splitN key bsp).length = bsp)
    (U : Key → Ω → Fin 2 → Fin bsp → Fin k → ℝ)
    (L : Key → Ω → Fin 2 → Fin (sampleCount bs (n + 2)) → Fin (2 * (n + 2)) → ℝ)
    (hUL : ∀ j, ∀ key ∈ splitN (split (seqKey split s0 j)).2 bsp, HasLaw (fun ω => (U (split (seqKey split s0 j)).1 ω, L key ω))
      ((cubeLaw bsp k).prod (normalsLaw (n + 2) (sampleCount bs (n + 2)))) P) :
    ∀ᵐ ω ∂P, ∃ batches : ℕ → List (SampleRow (n + 1)),
      (∃ st, samplerInit split (sampleBatch n A.variety o roots split splitN
            (fun key _ => List.ofFn fun i => List.ofFn (cubeParamSampler b (U key ω 0 i) (U key ω 1 i)))
            (fun key => asLists (lineDraws (L key ω))) bsp bs) B s0 = .ok st ∧
        ∀ N, (samplerRun split (sampleBatch n A.variety o roots split splitN
            (fun key _ => List.ofFn fun i => List.ofFn (cubeParamSampler b (U key ω 0 i) (U key ω 1 i)))
            (fun key => asLists (lineDraws (L key ω))) bsp bs) B N st).1 = (List.range N).map fun j => .ok (batches j)) ∧
      ∀ j keep params,
        (∀ final, (∀ x ∈ (batches j).zipIdx, ∀ h, net.row (dropout false keep x.2) params final x.1.params = .ok h →
            ∀ i < net.basisSize, h.getD i 0 ≠ 0) →
          ∃ l, lossFunction A net keep params final (batches j) = .ok l ∧ 0 ≤ l) ∧
        ∀ noise, ∃ L : SampleRow (n + 1) → ℝ, (∀ row ∈ batches j, varianceEtaLossRow A (1 : A.H) row = .ok (L row)) ∧
          lossFunction A net keep params (finalInit net.sigSuppress net.basisSize 0 noise) (batches j) =
            .ok (listMean ((batches j).map L)) := by
  filter_upwards [C126_stream ho hr hV hS he ps₀ h0 b hb split splitN bsp bs B hB s0 hk U L hUL] with ω hω
  obtain ⟨batches, h1, h2⟩ := hω
  refine ⟨batches, h2, fun j keep params => ?_⟩
  have hne : batches j ≠ [] := List.length_pos_iff.1 (by rw [(h1 j).1]; exact hbsp)
  have hgood : ∀ row ∈ batches j, row.params ≠ [] ∧ GoodRow A.variety bs row ∧ ∃ F : MvPolynomial (Fin (n + 2)) ℂ,
      Hypersurface A.variety (.vec row.params) (n + 1) e F ∧ SmoothHypersurface F ∧
      SpansModulo F A.sections.degree A.sections.rows := by
    intro row hrow
    obtain ⟨i, hi⟩ := List.mem_iff_getElem?.1 hrow
    have hib : i < bsp := by
      have := (List.getElem?_eq_some_iff.1 hi).1
      rwa [(h1 j).1] at this
    obtain ⟨ps, -, p2, p3, p4⟩ := (h1 j).2 ⟨i, hib⟩ row hi
    refine ⟨?_, p4, _, p2 ▸ hV.member ps, p3, hB' ps⟩
    rw [p2]
    intro h
    exact hk0 (by simpa using congrArg List.length h)
  refine ⟨fun final hdiag => ?_, fun noise => ?_⟩
  · obtain ⟨l, l1, l2, -⟩ := C122_nonneg net keep params final hsize hpow hfeat hbs hd (batches j) hgood hne hdiag
    exact ⟨l, l1, l2⟩
  · exact C122_init net keep params hsize hpow hfeat hbs hd (batches j) hgood hne noise

/-- **C126, the configuration `scripts/conf/dwork.yaml`**: the Dwork quintic, all monomials of degree 6 as sections, four values
of `ψ` with parts below ten per step, 500 points for each, a buffer of ten samples, powers `1, …, 5` and all features. Almost
surely every sample has the right shape, its points are on smooth members of the family, and the loss of the initial network
is the mean of the losses of `H = 1`. -/
theorem C126_dwork_config (net : HNet) (hsize : net.basisSize = (monomialBasisFull 4 6).size) (hpow : net.powers = [1, 2, 3, 4, 5])
    (hfeat : net.featureAngle = true) {Key : Type*} (split : Key → Key × Key) (splitN : Key → ℕ → List Key) (s0 : Key)
    (hk : ∀ key, (splitN key 4).length = 4) (U : Key → Ω → Fin 2 → Fin 4 → Fin 1 → ℝ)
    (L : Key → Ω → Fin 2 → Fin 100 → Fin (2 * 5) → ℝ)
    (hUL : ∀ j, ∀ key ∈ splitN (split (seqKey split s0 j)).2 4, HasLaw (fun ω => (U (split (seqKey split s0 j)).1 ω, L key ω))
      ((cubeLaw 4 1).prod (normalsLaw 5 100)) P) :
    ∀ᵐ ω ∂P, ∃ batches : ℕ → List (SampleRow 4),
      (∃ st, samplerInit split (sampleBatch 3 (.dwork 5 (.flag true)) o roots split splitN
            (fun key _ => List.ofFn fun i => List.ofFn (cubeParamSampler (fun _ => 10) (U key ω 0 i) (U key ω 1 i)))
            (fun key => asLists (lineDraws (L key ω))) 4 500) 10 s0 = .ok st ∧
        ∀ N, (samplerRun split (sampleBatch 3 (.dwork 5 (.flag true)) o roots split splitN
            (fun key _ => List.ofFn fun i => List.ofFn (cubeParamSampler (fun _ => 10) (U key ω 0 i) (U key ω 1 i)))
            (fun key => asLists (lineDraws (L key ω))) 4 500) 10 N st).1 = (List.range N).map fun j => .ok (batches j)) ∧
      ∀ j keep params,
        (∀ final, (∀ x ∈ (batches j).zipIdx, ∀ h, net.row (dropout false keep x.2) params final x.1.params = .ok h →
            ∀ i < net.basisSize, h.getD i 0 ≠ 0) →
          ∃ l, lossFunction ⟨.dwork 5 (.flag true), monomialBasisFull 4 6⟩ net keep params final (batches j) = .ok l ∧ 0 ≤ l) ∧
        ∀ noise, ∃ L : SampleRow 4 → ℝ, (∀ row ∈ batches j,
            varianceEtaLossRow ⟨.dwork 5 (.flag true), monomialBasisFull 4 6⟩ 1 row = .ok (L row)) ∧
          lossFunction ⟨.dwork 5 (.flag true), monomialBasisFull 4 6⟩ net keep params
            (finalInit net.sigSuppress net.basisSize 0 noise) (batches j) = .ok (listMean ((batches j).map L)) :=
  C126_training (A := ⟨.dwork 5 (.flag true), monomialBasisFull 4 6⟩) ho hr (family_dwork 4 (.flag true))
    (fun ps => by
      rw [List.ofFn_succ]
      exact .dwork 4 (.flag true) (by simp [DworkFactor.value]) _) one_ne_zero
    (fun ps => (C105_sections _ 6).1) (by decide) le_rfl _ (smooth_dwork_zero 4 (.flag true)) (fun _ => 10) (fun _ => by norm_num)
    net hsize ⟨1, by rw [hpow]; simp, one_ne_zero⟩ (.inl hfeat) split splitN 4 500 10 (by norm_num) (by norm_num) (by norm_num) s0 hk
    U L hUL

end Stream

/-- A probability space for the numbers drawn, and keys that are never used twice. -/
example : ∃ (Ω : Type) (_ : MeasurableSpace Ω) (P : Measure Ω) (_ : IsProbabilityMeasure P) (split : ℕ → ℕ × ℕ)
    (splitN : ℕ → ℕ → List ℕ) (U : ℕ → Ω → Fin 2 → Fin 4 → Fin 1 → ℝ) (L : ℕ → Ω → Fin 2 → Fin 100 → Fin (2 * 5) → ℝ),
    (∀ key, (splitN key 4).length = 4) ∧ sampleCount 500 5 = 100 ∧
    ∀ j, ∀ key ∈ splitN (split (seqKey split 0 j)).2 4, HasLaw (fun ω => (U (split (seqKey split 0 j)).1 ω, L key ω))
      ((cubeLaw 4 1).prod (normalsLaw 5 100)) P :=
  ⟨_, inferInstance, (cubeLaw 4 1).prod (normalsLaw 5 100), inferInstance, fun k => (k + 1, k + 2),
    fun k n => (List.range n).map (k + ·), fun _ ω => ω.1, fun _ ω => ω.2, fun _ => by simp, rfl, fun _ _ _ => HasLaw.id⟩

end Cyjax
