import Verif.Lemmas.Coverage
import Verif.Props.VolVariance

/-! # C182: the distribution of `compute_vol` around the volume, and what its standard error means -/

namespace Cyjax

open MeasureTheory ProbabilityTheory MvPolynomial Cyjax.Spec Cyjax.Polynomial Cyjax.Variety Set Filter Topology
open scoped ENNReal NNReal

variable {n : ℕ} {F : MvPolynomial (Fin (n + 2)) ℂ} {V : HomKind} {ps : List ℂ} {o : SymOrder} (ho : o.Valid)
  {roots : List ℂ → List ℂ} (hr : CompleteRoots roots) (hsm : SmoothHypersurface F) (hn : n ≠ 0) (p : Fin (n + 2))
  (d : Fin (n + 1)) (hS : Samplable V (n + 1) (n + 2) ps) (hF : Hypersurface V (.vec ps) (n + 1) (n + 2) F)
  {Ω : Type*} [MeasurableSpace Ω] {P : Measure Ω} [IsProbabilityMeasure P] {Key : Type*} (split : Key → Key × Key)
  (key : Key) (bs : ℕ) (hbs : bs ≠ 0) (hdvd : (n + 2) ∣ bs)
  (X : Key → Ω → Fin 2 → Fin (sampleCount bs (n + 2)) → Fin (2 * (n + 2)) → ℝ)
  (hX : ∀ i, HasLaw (X (batchKey split key i)) (normalsLaw (n + 2) (sampleCount bs (n + 2))) P)
  (hind : iIndepFun (fun i => X (batchKey split key i)) P)

include ho hr hsm hn hS hF hbs hdvd hX hind

/-- **C182.** The result of `compute_vol` with `b` independent batches of `bs` points, where `bs` is a multiple of `n + 2`,
is asymptotically normal around the volume. The variance of the limit is the number of points times the variance of the
result, which does not depend on the number of batches. It is at most `n + 2` times the variance of the weights. -/
theorem C182_normal :
    let vol := (cyMeasure p d F univ).toReal / (n + 2)
    let res := fun ω b => computeVol n V o roots ps split (fun k => asLists (lineDraws (X k ω))) key b bs
    ∃ v : ℝ≥0, (∀ b : ℕ, b ≠ 0 → (b * bs : ℕ) * Var[fun ω => volMean (res ω b); P] = v) ∧
      v ≤ (n + 2) * ((∫ Z, pointWeight (n + 2) F Z ∂cyMeasure p d F) / (n + 2) - vol ^ 2) ∧
      TendstoInDistribution (fun (b : ℕ) ω => √((b + 1) * bs : ℕ) * (volMean (res ω (b + 1)) - vol)) atTop id
        (fun _ => P) (gaussianReal 0 v) := by
  intro vol res
  have hom := hF.homogeneous
  have he0 : n + 2 ≠ 0 := by omega
  have hirr := smooth_irreducible (by omega) hom he0 hsm
  have hd := smooth_pderiv_ne_zero hom (by omega) hsm (p.succAbove d)
  have hcount := sampleCount_dvd he0 hdvd
  obtain ⟨B, hB, hle⟩ := pointWeight_bounded hom hsm
  have hfin : IsFiniteMeasure (cyMeasure p d F) := ⟨(C130_measure hsm hn p d hS hF).1.lt_top⟩
  have hw := (cy_integral hom p d fun _ => 1).1.1 (integrable_const 1)
  simp only [one_mul] at hw
  have hvol := (cy_integral hom p d fun _ => 1).2
  simp only [one_mul, integral_const, smul_eq_mul, mul_one] at hvol
  obtain ⟨hI1, hμ1⟩ := realSum_integral p d hirr hom he0 hd (measurable_pointWeight (F := F) (n + 2)) (pointWeight_smul hom) hw
  rw [← hvol] at hμ1
  have hbd := realSum_bound hS hF hsm hirr he0 (g := pointWeight (n + 2) F) (K := B) fun Z hZ h0 => by
    rw [abs_of_pos (pointWeight_pos (e := n + 2) Z hZ (hsm Z hZ h0))]
    exact hle Z hZ h0
  have hGm := measurable_realSum (F := F) (measurable_pointWeight (F := F) (n + 2))
  have hG2 : MemLp (realSum F (pointWeight (n + 2) F)) 2 (lineLaw (n + 2)) := MemLp.of_bound hGm.aestronglyMeasurable _ hbd
  obtain ⟨T, hT⟩ : ∃ T : ℕ → Ω → ℝ, T = fun i ω =>
    ∑ j, realSum F (pointWeight (n + 2) F) (rawLines (X (batchKey split key i) ω) j) := ⟨_, rfl⟩
  have hmeas : Measurable fun x : Fin 2 → Fin (sampleCount bs (n + 2)) → Fin (2 * (n + 2)) → ℝ =>
      ∑ j, realSum F (pointWeight (n + 2) F) (rawLines x j) :=
    Finset.measurable_sum _ fun j _ => hGm.comp
      ((measurable_pi_apply j).comp (rawLines_preserving (n + 2) (sampleCount bs (n + 2))).measurable)
  have hTi : iIndepFun T P := by
    rw [hT]
    exact hind.comp (fun _ x => ∑ j, realSum F (pointWeight (n + 2) F) (rawLines x j)) fun _ => hmeas
  have hTd : ∀ i, IdentDistrib (T i) (T 0) P P := fun i => by
    rw [hT]
    exact ((hX i).identDistrib (hX 0)).comp hmeas
  have hvar : ∀ b : ℕ, MemLp (fun ω => ∑ i ∈ Finset.range b, T i ω) 2 P ∧
      Var[fun ω => ∑ i ∈ Finset.range b, T i ω; P] = (b * sampleCount bs (n + 2) : ℕ) *
        Var[realSum F (pointWeight (n + 2) F); lineLaw (n + 2)] := fun b => by
    have := batches_variance (X := fun i : Fin b => X (batchKey split key i)) (fun i => hX i)
      (hind.precomp (g := fun i : Fin b => (i : ℕ)) Fin.val_injective) hGm hG2
    simp only [Finset.sum_range, hT]
    exact this
  have hT2 : MemLp (T 0) 2 P := by simpa using (hvar 1).1
  have hTv : Var[T 0; P] = sampleCount bs (n + 2) * Var[realSum F (pointWeight (n + 2) F); lineLaw (n + 2)] := by
    simpa using (hvar 1).2
  have hbsR : (bs : ℝ) = sampleCount bs (n + 2) * (n + 2) := by exact_mod_cast hcount.symm
  have hTm : ∫ ω, T 0 ω ∂P = bs * vol := by
    rw [hT, (lines_integral (hX 0) hI1).2, hμ1, hbsR]
    change _ = _ * (_ / _)
    field_simp
    rfl
  have hbs0 : (0 : ℝ) < bs := by exact_mod_cast Nat.pos_of_ne_zero hbs
  have hres : ∀ b : ℕ, b ≠ 0 → (fun ω => volMean (res ω b)) =ᵐ[P]
      fun ω => (∑ i ∈ Finset.range b, T i ω) / (b * bs : ℕ) := fun b hb => by
    filter_upwards [vol_sums ho hr hsm hn hS hF split key b bs hb hbs hdvd X fun i _ => hX i] with ω hω
    have e : res ω b = _ := hω
    rw [e, hT]
    rfl
  have hNV : ∀ b : ℕ, b ≠ 0 → (b * bs : ℕ) * Var[fun ω => volMean (res ω b); P] = Var[T 0; P] / bs := fun b hb => by
    have hb0 : (b : ℝ) ≠ 0 := by exact_mod_cast hb
    rw [variance_congr (hres b hb)]
    simp only [div_eq_inv_mul]
    rw [variance_const_mul, (hvar b).2, hTv]
    push_cast
    field_simp
  have hv0 : 0 ≤ Var[T 0; P] / bs := div_nonneg (variance_nonneg _ _) hbs0.le
  refine ⟨(Var[T 0; P] / bs).toNNReal, fun b hb => ?_, ?_, ?_⟩
  · rw [hNV b hb, Real.coe_toNNReal _ hv0]
  · obtain ⟨-, -, -, h4, h5⟩ := C148_variance ho hr hsm hn p d hS hF split key 1 bs one_ne_zero hbs hdvd X
      (fun i _ => hX i) (hind.precomp (g := fun i : Fin 1 => (i : ℕ)) Fin.val_injective)
    rw [Real.coe_toNNReal _ hv0, ← hNV 1 one_ne_zero]
    rw [mul_assoc, h4] at h5
    linarith
  · refine (clt_batches hbs hT2 hTi hTd hTm).congr (fun b => ?_) EventuallyEq.rfl
    filter_upwards [hres (b + 1) (by omega)] with ω hω
    rw [hω]

/-- **C182.** The probability that the volume is within `t` times the returned standard error, the square root of the returned
variance, converges. The limit is the mass that a normal law with the variance of `C182_normal` gives to the interval of `t`
standard deviations of the weights. So the limit reaches the nominal level of a normal law exactly if the variance of the
result times the number of points is at most the variance of the weights. -/
theorem C182_coverage :
    let vol := (cyMeasure p d F univ).toReal / (n + 2)
    let res := fun ω b => computeVol n V o roots ps split (fun k => asLists (lineDraws (X k ω))) key b bs
    let τ : ℝ := (∫ Z, pointWeight (n + 2) F Z ∂cyMeasure p d F) / (n + 2) - vol ^ 2
    ∃ v : ℝ≥0, (∀ b : ℕ, b ≠ 0 → (b * bs : ℕ) * Var[fun ω => volMean (res ω b); P] = v) ∧ (v : ℝ) ≤ (n + 2) * τ ∧
      ∀ t : ℝ, 0 ≤ t → Tendsto (fun b => P {ω | |volMean (res ω b) - vol| ≤ t * √(volVar (res ω b))}) atTop
          (𝓝 (gaussianReal 0 v (Icc (-(t * √τ)) (t * √τ)))) ∧
        (0 < t → (gaussianReal 0 1 (Icc (-t) t) ≤ gaussianReal 0 v (Icc (-(t * √τ)) (t * √τ)) ↔ (v : ℝ) ≤ τ)) := by
  intro vol res τ
  obtain ⟨v, h1, h2, h3⟩ := C182_normal ho hr hsm hn p d hS hF split key bs hbs hdvd X hX hind
  have hn2 : (0 : ℝ) < n + 2 := by positivity
  have h2' : (v : ℝ) ≤ (n + 2) * τ := h2
  have hτ : 0 ≤ τ := by
    have : (0 : ℝ) ≤ (n + 2) * τ := v.2.trans h2'
    exact nonneg_of_mul_nonneg_right this hn2
  have hbs0 : (0 : ℝ) < bs := by exact_mod_cast Nat.pos_of_ne_zero hbs
  refine ⟨v, h1, h2, fun t ht => ⟨?_, fun ht0 => ⟨fun h => ?_, fun h => ?_⟩⟩⟩
  · rw [← tendsto_add_atTop_iff_nat 1]
    by_cases hv : v = 0
    · have hlim : gaussianReal 0 v (Icc (-(t * √τ)) (t * √τ)) = 1 := by
        rw [hv, gaussianReal_zero_var, Measure.dirac_apply' _ measurableSet_Icc]
        have : 0 ≤ t * √τ := by positivity
        simp [this]
      rw [hlim]
      refine tendsto_const_nhds.congr fun b => ?_
      obtain ⟨hM, -, hE, -⟩ := C148_variance ho hr hsm hn p d hS hF split key (b + 1) bs (by omega) hbs hdvd X
        (fun i _ => hX i) (hind.precomp (g := fun i : Fin (b + 1) => (i : ℕ)) Fin.val_injective)
      have hV : Var[fun ω => volMean (res ω (b + 1)); P] = 0 := by
        have := h1 (b + 1) (by omega)
        rw [hv, NNReal.coe_zero, mul_eq_zero] at this
        rcases this with h | h
        · exact absurd h (by exact_mod_cast mul_ne_zero (Nat.succ_ne_zero b) hbs)
        · exact h
      have hae := ae_eq_integral_of_variance_eq_zero hM hV
      have huniv : {ω | |volMean (res ω (b + 1)) - vol| ≤ t * √(volVar (res ω (b + 1)))} =ᵐ[P] univ := by
        rw [eventuallyEq_univ]
        filter_upwards [hae] with ω hω
        have e : volMean (res ω (b + 1)) = vol := hω.trans hE
        change |volMean (res ω (b + 1)) - vol| ≤ _
        rw [e, sub_self, abs_zero]
        positivity
      rw [measure_congr huniv, measure_univ]
    · have hWm : ∀ b : ℕ, AEMeasurable (fun ω => volVar (res ω (b + 1))) P := fun b =>
        (C148_variance ho hr hsm hn p d hS hF split key (b + 1) bs (by omega) hbs hdvd X
          (fun i _ => hX i) (hind.precomp (g := fun i : Fin (b + 1) => (i : ℕ)) Fin.val_injective)).2.1.aemeasurable
      refine coverage_tendsto (M := fun b ω => volMean (res ω (b + 1))) (W := fun b ω => volVar (res ω (b + 1)))
        (N := fun b => ((b + 1) * bs : ℕ)) (fun b => ?_) hv h3 hWm ?_
      · exact_mod_cast Nat.mul_pos (Nat.succ_pos b) (Nat.pos_of_ne_zero hbs)
      · filter_upwards [C132_volume ho hr hsm hn p d hS hF split key bs hbs hdvd X hX hind] with ω hω
        exact hω.2.comp (tendsto_add_atTop_nat 1)
  · by_contra hlt
    refine absurd h (not_le.2 (gaussian_interval_lt ht0 ?_))
    exact mul_lt_mul_of_pos_left (Real.sqrt_lt_sqrt hτ (not_le.1 hlt)) ht0
  · exact gaussian_interval_mono (mul_le_mul_of_nonneg_left (Real.sqrt_le_sqrt h) ht)

/-- **C182.** Multiplied with the square root of `n + 2`, the number of points on each line, the returned standard error gives
confidence intervals: they contain the volume asymptotically at least with the probability of a normal law. -/
theorem C182_conservative (t : ℝ) (ht : 0 ≤ t) :
    let vol := (cyMeasure p d F univ).toReal / (n + 2)
    let res := fun ω b => computeVol n V o roots ps split (fun k => asLists (lineDraws (X k ω))) key b bs
    gaussianReal 0 1 (Icc (-t) t) ≤
      liminf (fun b => P {ω | |volMean (res ω b) - vol| ≤ t * √((n + 2) * volVar (res ω b))}) atTop := by
  intro vol res
  obtain ⟨v, -, h2, h3⟩ := C182_coverage ho hr hsm hn p d hS hF split key bs hbs hdvd X hX hind
  have hn2 : (0 : ℝ) ≤ n + 2 := by positivity
  have h := (h3 (t * √(n + 2)) (by positivity)).1
  have e : (fun b => P {ω | |volMean (res ω b) - vol| ≤ t * √((n + 2) * volVar (res ω b))}) =
      fun b => P {ω | |volMean (res ω b) - vol| ≤ t * √(n + 2) * √(volVar (res ω b))} := by
    funext b
    simp only [Real.sqrt_mul hn2, mul_assoc]
  rw [e, h.liminf_eq]
  refine gaussian_interval_mono ?_
  rw [mul_assoc, ← Real.sqrt_mul hn2]
  exact mul_le_mul_of_nonneg_left (Real.sqrt_le_sqrt h2) ht

omit ho hr hsm hn hS hF hbs hdvd hX hind [IsProbabilityMeasure P] in
/-- Independent batches exist. For the Dwork quintic with `psi = 2` in batches of 2000 points, the interval of
`1.96 * sqrt (5 * variance)` around the result has asymptotically at least the probability that a standard normal variable is
below `1.96` in absolute value. -/
example : ∃ (P : Measure (ℕ → Fin 2 → Fin (sampleCount 2000 5) → Fin (2 * 5) → ℝ))
    (X : ℕ → (ℕ → Fin 2 → Fin (sampleCount 2000 5) → Fin (2 * 5) → ℝ) → Fin 2 → Fin (sampleCount 2000 5) → Fin (2 * 5) → ℝ),
    (∀ i, HasLaw (X (batchKey (fun k => (k, k + 1)) 0 i)) (normalsLaw 5 (sampleCount 2000 5)) P) ∧
    iIndepFun (fun i => X (batchKey (fun k => (k, k + 1)) 0 i)) P ∧
    ∃ F, gaussianReal 0 1 (Icc (-1.96) 1.96) ≤ liminf (fun b =>
      let res := fun ω => computeVol 3 (.dwork 5 (.flag true)) someOrder someRoots [2] (fun k => (k, k + 1))
        (fun k => asLists (lineDraws (X k ω))) 0 b 2000
      P {ω | |volMean (res ω) - (cyMeasure (n := 3) 0 0 F univ).toReal / 5| ≤ 1.96 * √(5 * volVar (res ω))}) atTop := by
  have hk : ∀ i, batchKey (fun k : ℕ => (k, k + 1)) 0 i = i := fun i => by
    unfold batchKey
    simp
  have h1 : ∀ i, HasLaw (fun ω : ℕ → Fin 2 → Fin (sampleCount 2000 5) → Fin (2 * 5) → ℝ =>
      ω (batchKey (fun k => (k, k + 1)) 0 i)) (normalsLaw 5 (sampleCount 2000 5))
      (Measure.infinitePi fun _ => normalsLaw 5 (sampleCount 2000 5)) := fun i =>
    (measurePreserving_eval_infinitePi (fun _ : ℕ => normalsLaw 5 (sampleCount 2000 5)) _).hasLaw
  have h2 : iIndepFun (fun i => fun ω : ℕ → Fin 2 → Fin (sampleCount 2000 5) → Fin (2 * 5) → ℝ =>
      ω (batchKey (fun k => (k, k + 1)) 0 i)) (Measure.infinitePi fun _ => normalsLaw 5 (sampleCount 2000 5)) := by
    simp only [hk]
    exact iIndepFun_infinitePi (X := fun _ x => x) fun _ => measurable_id
  refine ⟨Measure.infinitePi fun _ => normalsLaw 5 (sampleCount 2000 5), fun k ω => ω k, h1, h2, ?_⟩
  obtain ⟨F, hF, hsm⟩ := C114_quintic 2 []
  refine ⟨F, ?_⟩
  have := C182_conservative someOrder_valid someRoots_complete (hsm.2 (by norm_num)) (by norm_num) 0 0
    (.dwork 4 (.flag true) (by simp [DworkFactor.value]) 2) hF (fun k : ℕ => (k, k + 1)) 0 2000 (by norm_num) (by norm_num)
    (fun k (ω : ℕ → Fin 2 → Fin (sampleCount 2000 5) → Fin (2 * 5) → ℝ) => ω k) h1 h2 1.96 (by norm_num)
  norm_num at this ⊢
  exact this

end Cyjax
