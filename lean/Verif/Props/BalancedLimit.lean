import Verif.Lemmas.StepLimit
import Verif.Props.Balanced

/-! # C140: repeated Donaldson steps with samples converge to the balanced metric -/

namespace Cyjax

open MeasureTheory ProbabilityTheory MvPolynomial Cyjax.Spec Cyjax.Polynomial Cyjax.Variety Cyjax.Donaldson Set Filter
  Topology
open scoped ENNReal ComplexOrder ComplexConjugate

variable {n : ℕ} {F : MvPolynomial (Fin (n + 2)) ℂ} {A : AlgebraicMetric (n + 1)} {ps : List ℂ} {o : SymOrder}
  (ho : o.Valid) {roots : List ℂ → List ℂ} (hr : CompleteRoots roots) (hsm : SmoothHypersurface F) (hn : n ≠ 0)
  (p : Fin (n + 2)) (d : Fin (n + 1)) (hS : Samplable A.variety (n + 1) (n + 2) ps)
  (hF : Hypersurface A.variety (.vec ps) (n + 1) (n + 2) F) (hB : IsBasisModulo F A.sections.degree A.sections.rows)
  (h : A.H) (hh : h.PosDef)

/-- A loop of a user: `k` repeated calls of `donaldson_step` (`cyjax/donaldson.py:850-887`, `Model/DonaldsonStep.lean`),
where the call number `t` uses the first `b` of the batches of normals `X t`. -/
noncomputable def repeatedSteps (A : AlgebraicMetric (n + 1)) (o : SymOrder) (roots : List ℂ → List ℂ) (ps : List ℂ) (bs : ℕ)
    (X : ℕ → ℕ → Fin 2 → Fin (sampleCount bs (n + 2)) → Fin (2 * (n + 2)) → ℝ) (vol : ℝ) (b k : ℕ) (h : A.H) :
    Except PyErr A.H :=
  (List.range k).foldlM (fun h t => A.donaldsonStep .complex h o roots ps vol bs
    (List.ofFn fun i : Fin b => asLists (lineDraws (X t i)))) h

private theorem repeated_succ (bs : ℕ) (X : ℕ → ℕ → Fin 2 → Fin (sampleCount bs (n + 2)) → Fin (2 * (n + 2)) → ℝ) (vol : ℝ)
    (b k : ℕ) : repeatedSteps A o roots ps bs X vol b (k + 1) h = repeatedSteps A o roots ps bs X vol b k h >>= fun h' =>
      A.donaldsonStep .complex h' o roots ps vol bs (List.ofFn fun i : Fin b => asLists (lineDraws (X k i))) := by
  unfold repeatedSteps
  rw [List.range_succ, List.foldlM_append]
  simp

include ho hr hsm hn hS hF hB

/-- The points of a step. -/
private theorem step_points {Ω : Type*} [MeasurableSpace Ω] {P : Measure Ω} (bs : ℕ) (hdvd : (n + 2) ∣ bs)
    (X : ℕ → ℕ → Ω → Fin 2 → Fin (sampleCount bs (n + 2)) → Fin (2 * (n + 2)) → ℝ)
    (hX : ∀ b, ∀ i : Fin b, HasLaw (X b i) (normalsLaw (n + 2) (sampleCount bs (n + 2))) P) :
    ∀ᵐ ω ∂P, ∀ b : ℕ, ∃ Zs : List (Fin (n + 2) → ℂ), (∀ Z ∈ Zs, 0 < pointWeight (n + 2) F Z) ∧
      (∀ Z ∈ Zs, ∃ a, eval Z (sec A a) ≠ 0) ∧ ∀ (h : A.H), h.IsHermitian → ∀ vol, A.donaldsonStep .complex h o roots ps vol bs
        (List.ofFn fun i : Fin b => asLists (lineDraws (X b i ω))) =
          .ok (tOperator (sec A) h vol (pointWeight (n + 2) F) Zs)⁻¹.transpose := by
  have hom := hF.homogeneous
  have hcount := sampleCount_dvd (show n + 2 ≠ 0 by omega) hdvd
  have had := ae_admissible (count := sampleCount bs (n + 2)) F (smooth_ne_zero hsm) hom
  have hall : ∀ᵐ ω ∂P, ∀ (b : ℕ) (i : Fin b), ∀ y ∈ lineDraws (X b i ω), Admissible F y := by
    rw [ae_all_iff]
    intro b
    rw [ae_all_iff]
    intro i
    rw [← (hX b i).map_eq] at had
    filter_upwards [ae_of_ae_map (hX b i).aemeasurable had] with ω h1
    exact h1.2
  filter_upwards [hall] with ω hω b
  have hmem : ∀ x ∈ (List.ofFn fun i : Fin b => lineDraws (X b i ω)), bs ≤ x.length * (n + 2) ∧ ∀ y ∈ x, Admissible F y := by
    intro x hx
    obtain ⟨i, rfl⟩ := List.mem_ofFn.1 hx
    refine ⟨?_, hω b i⟩
    rw [lineDraws, List.length_ofFn, hcount]
  obtain ⟨Zs, h1, h2⟩ := C112_step hS hF hsm ho hr.exact bs hB.1 _ hmem
  have h3 : ∀ Z ∈ (List.ofFn fun i : Fin b => lineDraws (X b i ω)).flatMap Zs, Z ≠ 0 ∧ eval Z F = 0 ∧
      0 < pointWeight (n + 2) F Z := by
    intro Z hZ
    obtain ⟨x, hx, hZx⟩ := List.mem_flatMap.1 hZ
    exact (h1 x hx).2.2 Z hZx
  refine ⟨(List.ofFn fun i : Fin b => lineDraws (X b i ω)).flatMap Zs, fun Z hZ => (h3 Z hZ).2.2, fun Z hZ => ?_, fun h hh vol => ?_⟩
  · exact spans_ne (hB := ⟨hB.1, fun f hf => (hB.2 f hf).exists⟩) Z (h3 Z hZ).1 (h3 Z hZ).2.1
  · have := (h2 h vol).2.1 hh
    rwa [List.map_ofFn] at this

include hh

/-- The limit of repeated steps, for batches whose averages converge. -/
theorem iterate_limit {Ω : Type*} [MeasurableSpace Ω] {P : Measure Ω} (bs : ℕ) (hdvd : (n + 2) ∣ bs)
    (X : ℕ → ℕ → ℕ → Ω → Fin 2 → Fin (sampleCount bs (n + 2)) → Fin (2 * (n + 2)) → ℝ)
    (hX : ∀ t b, ∀ i : Fin b, HasLaw (X t b i) (normalsLaw (n + 2) (sampleCount bs (n + 2))) P)
    (hlaw : ∀ t, ∀ g : (Fin (n + 2) → ℂ) → ℝ, Measurable g → (∀ c : ℂ, c ≠ 0 → ∀ Z, g (c • Z) = g Z) →
      (∃ K, ∀ Z, Z ≠ 0 → eval Z F = 0 → |g Z| ≤ K) → Integrable g (fsMeasure p d F) →
      ∀ᵐ ω ∂P, Tendsto (fun b : ℕ => (∑ i : Fin b, ∑ j, realSum F g (rawLines (X t b i ω) j)) / (b * bs : ℕ)) atTop
        (𝓝 ((∫ Z, g Z ∂fsMeasure p d F) / (n + 2)))) :
    let result := fun ω vol b k => repeatedSteps A o roots ps bs (fun t i => X t b i ω) vol b k h
    ∀ᵐ ω ∂P, (∀ vol b k, ∃ h', result ω vol b k = .ok h' ∧ h'.IsHermitian) ∧
      ∀ (vol : ℕ → ℝ) (v : ℝ), 0 < v → Tendsto vol atTop (𝓝 v) → ∀ k,
        Tendsto (fun b => matrixOrZero (result ω (vol b) b k)) atTop
          (𝓝 ((((v * (n + 2) / (cyMeasure p d F univ).toReal) ^ k : ℝ) : ℂ) •
            (exactStep (sec A) (cyMeasure p d F))^[k] h)) := by
  intro result
  obtain ⟨hfin0, hne0, -⟩ := C130_measure hsm hn p d hS hF
  have hV0 : 0 < (cyMeasure p d F univ).toReal := ENNReal.toReal_pos hne0 hfin0
  have hpd := (C139_iteration hsm hn p d hS hF hB h hh).1
  have hpts := ae_all_iff.2 fun t => step_points ho hr hsm hn hS hF hB bs hdvd (X t) (hX t)
  have hlim := ae_all_iff.2 fun t => ae_all_iff.2 fun k =>
    step_limit ho hr hsm hn p d hS hF hB _ (hpd k) bs hdvd (fun b i => X t b i) (hX t) (hlaw t)
  filter_upwards [hpts, hlim] with ω hω hl
  choose Zs hw hs hstep using hω
  have hok : ∀ vol b k, ∃ h', result ω vol b k = .ok h' ∧ h'.IsHermitian := by
    intro vol b k
    induction k with
    | zero => exact ⟨h, rfl, hh.isHermitian⟩
    | succ k ih =>
      obtain ⟨h', e, hherm⟩ := ih
      refine ⟨_, ?_, (tOperator_hermitian (sec A) (pointWeight (n + 2) F) vol (Zs k b) hherm).inv.transpose⟩
      change repeatedSteps A o roots ps bs _ vol b (k + 1) h = _
      rw [repeated_succ]
      change (result ω vol b k >>= _) = _
      rw [e]
      exact hstep k b h' hherm vol
  refine ⟨hok, fun vol v hv hvol k => ?_⟩
  have hvpos : ∀ᶠ b in atTop, 0 < vol b := hvol.eventually (lt_mem_nhds hv)
  set κ : ℝ := v * (n + 2) / (cyMeasure p d F univ).toReal with hκ
  have hκ0 : 0 < κ := by positivity
  have hsize := sections_size_ne hsm hn hS hF hB
  induction k with
  | zero =>
    rw [pow_zero, Complex.ofReal_one, one_smul]
    exact tendsto_const_nhds
  | succ k ih =>
    have hG : ∀ b, ∃ G, result ω (vol b) b k = .ok G ∧ G.IsHermitian := fun b => hok (vol b) b k
    choose G hG1 hG2 using hG
    have hGlim : Tendsto G atTop (𝓝 (((κ ^ k : ℝ) : ℂ) • (exactStep (sec A) (cyMeasure p d F))^[k] h)) := by
      refine ih.congr fun b => ?_
      rw [hG1]
      rfl
    have h1 := (hl k k).2 vol v hv hvol
    have hK := hpd (k + 1)
    rw [Function.iterate_succ_apply'] at hK
    have hKκ : ((κ : ℂ) • exactStep (sec A) (cyMeasure p d F) ((exactStep (sec A) (cyMeasure p d F))^[k] h)).PosDef :=
      hK.smul (by exact_mod_cast hκ0)
    have h2 := step_tendsto hsize (sec A) (pointWeight (n + 2) F) hvpos (hw k) (hs k) (hpd k) hKκ
      (h1.congr fun b => by rw [hstep k b _ (hpd k).isHermitian]; rfl) hG2 (c := κ ^ k) (by positivity) hGlim
    rw [smul_smul, ← Complex.ofReal_mul, ← pow_succ, ← Function.iterate_succ_apply' (exactStep (sec A) (cyMeasure p d F))] at h2
    refine h2.congr fun b => ?_
    change _ = matrixOrZero (repeatedSteps A o roots ps bs _ (vol b) b (k + 1) h)
    rw [repeated_succ]
    change _ = matrixOrZero (result ω (vol b) b k >>= _)
    rw [hG1]
    exact (congrArg matrixOrZero (hstep k b (G b) (hG2 b) (vol b))).symm

/-- **C140.** Repeated steps, each with `b` independent batches whose size is a multiple of `n + 2`, and with a volume that
converges to `v`: almost surely no step fails, and as the number of batches grows, the matrix after `k` steps converges to `k`
exact steps, times the power `k` of `v (n + 2) / ∫ |Ω|²`. -/
theorem C140_iterate {Ω : Type*} [MeasurableSpace Ω] {P : Measure Ω} (bs : ℕ) (hbs : bs ≠ 0) (hdvd : (n + 2) ∣ bs)
    (X : ℕ → ℕ → Ω → Fin 2 → Fin (sampleCount bs (n + 2)) → Fin (2 * (n + 2)) → ℝ)
    (hX : ∀ t i, HasLaw (X t i) (normalsLaw (n + 2) (sampleCount bs (n + 2))) P) (hind : ∀ t, iIndepFun (X t) P) :
    let result := fun ω vol b k => repeatedSteps A o roots ps bs (fun t i => X t i ω) vol b k h
    ∀ᵐ ω ∂P, (∀ vol b k, ∃ h', result ω vol b k = .ok h' ∧ h'.IsHermitian) ∧
      ∀ (vol : ℕ → ℝ) (v : ℝ), 0 < v → Tendsto vol atTop (𝓝 v) → ∀ k,
        Tendsto (fun b => matrixOrZero (result ω (vol b) b k)) atTop
          (𝓝 ((((v * (n + 2) / (cyMeasure p d F univ).toReal) ^ k : ℝ) : ℂ) •
            (exactStep (sec A) (cyMeasure p d F))^[k] h)) := by
  have hom := hF.homogeneous
  have he0 : n + 2 ≠ 0 := by omega
  have hirr := smooth_irreducible (by omega) hom he0 hsm
  have hd := smooth_pderiv_ne_zero hom (by omega) hsm (p.succAbove d)
  refine iterate_limit ho hr hsm hn p d hS hF hB h hh bs hdvd (fun t _ i => X t i) (fun t _ i => hX t i)
    fun t g hg hinv _ hint => ?_
  filter_upwards [strong_law_lines p d hirr hom hd bs hbs hdvd (X t) (hX t) (hind t) hg hinv hint] with ω hω
  simpa only [Finset.sum_range] using hω

/-- **C140.** The algorithm: repeated steps with the volume from `compute_vol`, with as many batches. Almost surely the matrix
after `k` steps converges as the number of batches grows, and as the number of steps grows these limits converge to a
balanced matrix, which does not depend on the samples. -/
theorem C140_balanced {Ω : Type*} [MeasurableSpace Ω] {P : Measure Ω} (bs : ℕ) (hbs : bs ≠ 0) (hdvd : (n + 2) ∣ bs)
    (X : ℕ → ℕ → Ω → Fin 2 → Fin (sampleCount bs (n + 2)) → Fin (2 * (n + 2)) → ℝ)
    (hX : ∀ t i, HasLaw (X t i) (normalsLaw (n + 2) (sampleCount bs (n + 2))) P) (hind : ∀ t, iIndepFun (X t) P)
    {Key : Type*} (split : Key → Key × Key) (key : Key) (bs' : ℕ) (hbs' : bs' ≠ 0) (hdvd' : (n + 2) ∣ bs')
    (Y : Key → Ω → Fin 2 → Fin (sampleCount bs' (n + 2)) → Fin (2 * (n + 2)) → ℝ)
    (hY : ∀ i, HasLaw (Y (batchKey split key i)) (normalsLaw (n + 2) (sampleCount bs' (n + 2))) P)
    (hindY : iIndepFun (fun i => Y (batchKey split key i)) P) :
    ∃ h' : A.H, Balanced (sec A) (cyMeasure p d F) h' ∧ ∀ᵐ ω ∂P, ∃ L : ℕ → A.H, Tendsto L atTop (𝓝 h') ∧
      ∀ k, Tendsto (fun b => matrixOrZero (repeatedSteps A o roots ps bs (fun t i => X t i ω)
        (volMean (computeVol n A.variety o roots ps split (fun k => asLists (lineDraws (Y k ω))) key b bs')) b k h)) atTop
        (𝓝 (L k)) := by
  obtain ⟨h1, h2, -⟩ := C130_measure hsm hn p d hS hF
  have hV0 := ENNReal.toReal_pos h2 h1
  obtain ⟨-, h', hb, hlim⟩ := C139_iteration hsm hn p d hS hF hB h hh
  refine ⟨h', hb, ?_⟩
  filter_upwards [C140_iterate ho hr hsm hn p d hS hF hB h hh bs hbs hdvd X hX hind,
    C132_volume ho hr hsm hn p d hS hF split key bs' hbs' hdvd' Y hY hindY] with ω h3 h4
  refine ⟨_, hlim, fun k => ?_⟩
  have h5 := h3.2 _ _ (by positivity) h4.1 k
  rw [show (cyMeasure p d F univ).toReal / (n + 2) * (n + 2) / (cyMeasure p d F univ).toReal = 1 by field_simp, one_pow,
    Complex.ofReal_one, one_smul] at h5
  exact h5

omit ho hr hsm hn hS hF hB hh in
/-- The hypotheses can be met: the Dwork quintic with `psi = 2`, the reduced basis of any degree, steps with batches of 2000
points and the volume 7, starting from the identity. -/
example (k : ℕ) : ∃ (rows : List (Fin 5 → ℕ)) (F : MvPolynomial (Fin 5) ℂ) (P : Measure (ℕ × ℕ → Fin 2 → Fin (sampleCount 2000 5) →
    Fin (2 * 5) → ℝ)) (_ : IsProbabilityMeasure P)
    (h' : (⟨.dwork 5 (.flag true), ⟨k, rows⟩⟩ : AlgebraicMetric 4).H),
    Balanced (sec (⟨.dwork 5 (.flag true), ⟨k, rows⟩⟩ : AlgebraicMetric 4)) (cyMeasure (n := 3) 0 0 F) h' ∧
    ∀ᵐ ω ∂P, ∃ (c : ℝ) (L : ℕ → _), Tendsto L atTop (𝓝 h') ∧ ∀ j, Tendsto (fun b => matrixOrZero
      (repeatedSteps (⟨.dwork 5 (.flag true), ⟨k, rows⟩⟩ : AlgebraicMetric 4) someOrder someRoots [2] 2000
        (fun t i => ω (t, i)) 7 b j 1)) atTop (𝓝 (((c ^ j : ℝ) : ℂ) • L j)) := by
  obtain ⟨F, hF, hsm⟩ := C114_quintic 2 []
  have hsm' := hsm.2 (by norm_num)
  have hvars : F.vars = Finset.univ := by
    refine Finset.eq_univ_iff_forall.2 fun i => ?_
    by_contra hi
    exact smooth_pderiv_ne_zero hF.homogeneous (by norm_num) hsm' i (pderiv_eq_zero_of_notMem_vars hi)
  obtain ⟨rows, h1, h2⟩ := C97_basis_partial F 5 k hF.homogeneous hvars
  have hS := Samplable.dwork 4 (.flag true) (by simp [DworkFactor.value]) 2
  have hX : ∀ i, HasLaw (fun ω : ℕ × ℕ → Fin 2 → Fin (sampleCount 2000 5) → Fin (2 * 5) → ℝ => ω i)
      (normalsLaw 5 (sampleCount 2000 5)) (Measure.infinitePi fun _ => normalsLaw 5 (sampleCount 2000 5)) := fun i =>
    (measurePreserving_eval_infinitePi (fun _ : ℕ × ℕ => normalsLaw 5 (sampleCount 2000 5)) _).hasLaw
  have hind : iIndepFun (fun i => fun ω : ℕ × ℕ → Fin 2 → Fin (sampleCount 2000 5) → Fin (2 * 5) → ℝ => ω i)
      (Measure.infinitePi fun _ => normalsLaw 5 (sampleCount 2000 5)) :=
    iIndepFun_infinitePi (X := fun _ x => x) fun _ => measurable_id
  obtain ⟨-, h', hb, hl⟩ := C139_iteration (A := ⟨.dwork 5 (.flag true), ⟨k, rows⟩⟩) hsm' (by norm_num) 0 0 hS hF h2 1
    Matrix.PosDef.one
  refine ⟨rows, F, Measure.infinitePi fun _ => normalsLaw 5 (sampleCount 2000 5), inferInstance, h', hb, ?_⟩
  filter_upwards [C140_iterate (A := ⟨.dwork 5 (.flag true), ⟨k, rows⟩⟩) someOrder_valid someRoots_complete hsm' (by norm_num)
    0 0 hS hF h2 1 Matrix.PosDef.one 2000 (by norm_num) (by norm_num)
    (fun t i ω => ω (t, i)) (fun t i => hX (t, i)) (fun t => hind.precomp (Prod.mk_right_injective t))] with ω hω
  exact ⟨_, _, hl, hω.2 (fun _ => 7) 7 (by norm_num) tendsto_const_nhds⟩

end Cyjax
