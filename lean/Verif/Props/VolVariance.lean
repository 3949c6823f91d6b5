import Verif.Lemmas.VolVariance
import Verif.Props.Convergence

/-! # C148: the variance returned by `compute_vol` and the variance of its result -/

namespace Cyjax

open MeasureTheory ProbabilityTheory MvPolynomial Cyjax.Spec Cyjax.Polynomial Cyjax.Variety Set Filter Topology
open scoped ENNReal

variable {n : ℕ} {F : MvPolynomial (Fin (n + 2)) ℂ} {V : HomKind} {ps : List ℂ} {o : SymOrder} (ho : o.Valid)
  {roots : List ℂ → List ℂ} (hr : CompleteRoots roots) (hsm : SmoothHypersurface F) (hn : n ≠ 0) (p : Fin (n + 2))
  (d : Fin (n + 1)) (hS : Samplable V (n + 1) (n + 2) ps) (hF : Hypersurface V (.vec ps) (n + 1) (n + 2) F)
  {Ω : Type*} [MeasurableSpace Ω] {P : Measure Ω} {Key : Type*} (split : Key → Key × Key) (key : Key)
  (b bs : ℕ) (hb : b ≠ 0) (hbs : bs ≠ 0) (hdvd : (n + 2) ∣ bs)
  (X : Key → Ω → Fin 2 → Fin (sampleCount bs (n + 2)) → Fin (2 * (n + 2)) → ℝ)
  (hX : ∀ i < b, HasLaw (X (batchKey split key i)) (normalsLaw (n + 2) (sampleCount bs (n + 2))) P)
  (hind : iIndepFun (fun i : Fin b => X (batchKey split key i)) P)

include ho hr hsm hn hS hF hb hbs hdvd hX hind

/-- **C148.** Call `compute_vol` with `b` independent batches of `bs` points, where `bs` is a multiple of `n + 2`, and let
`N = b * bs`. The result is unbiased. `N` times the expected returned variance is the variance of the weights minus the
variance of the result. The points on one line are not independent, so the variance of the result is not the variance of
the weights over `N`. But up to the factor `(n + 2) N / (N - (n + 2))`, the returned variance is on average an upper bound. -/
theorem C148_variance :
    let vol := (cyMeasure p d F univ).toReal / (n + 2)
    let N : ℝ := (b * bs : ℕ)
    let res := fun ω => computeVol n V o roots ps split (fun k => asLists (lineDraws (X k ω))) key b bs
    MemLp (fun ω => volMean (res ω)) 2 P ∧ Integrable (fun ω => volVar (res ω)) P ∧
    ∫ ω, volMean (res ω) ∂P = vol ∧
    N * ∫ ω, volVar (res ω) ∂P =
      (∫ Z, pointWeight (n + 2) F Z ∂cyMeasure p d F) / (n + 2) - vol ^ 2 - Var[fun ω => volMean (res ω); P] ∧
    (N - (n + 2)) * Var[fun ω => volMean (res ω); P] ≤ (n + 2) * N * ∫ ω, volVar (res ω) ∂P := by
  intro vol N res
  have := hind.isProbabilityMeasure
  have hom := hF.homogeneous
  have he0 : n + 2 ≠ 0 := by omega
  have hirr := smooth_irreducible (by omega) hom he0 hsm
  have hd := smooth_pderiv_ne_zero hom (by omega) hsm (p.succAbove d)
  have hcount := sampleCount_dvd he0 hdvd
  obtain ⟨B, hB, hle⟩ := pointWeight_bounded hom hsm
  have hfin : IsFiniteMeasure (cyMeasure p d F) := ⟨(C130_measure hsm hn p d hS hF).1.lt_top⟩
  have hw := (cy_integral hom p d fun _ => 1).1.1 (integrable_const 1)
  simp only [one_mul] at hw
  have hcyae : ∀ᵐ Z ∂cyMeasure p d F, Z ≠ 0 ∧ Z ∈ regularSet p d F := by
    rw [cyMeasure_withDensity p d hom]
    exact (withDensity_absolutelyContinuous _ _).ae_le (ae_fsMeasure hom p d)
  have hwi : Integrable (pointWeight (n + 2) F) (cyMeasure p d F) := by
    refine (integrable_const B).mono' (measurable_pointWeight _).aestronglyMeasurable ?_
    filter_upwards [hcyae] with Z hZ
    rw [Real.norm_eq_abs, abs_of_pos (pointWeight_pos Z hZ.1 ⟨_, hZ.2.2⟩)]
    exact hle Z hZ.1 hZ.2.1
  have hw2 := (cy_integral hom p d (pointWeight (n + 2) F)).1.1 hwi
  simp only [← sq] at hw2
  have hvol := (cy_integral hom p d fun _ => 1).2
  simp only [one_mul, integral_const, smul_eq_mul, mul_one] at hvol
  have hvol2 := (cy_integral hom p d (pointWeight (n + 2) F)).2
  simp only [← sq] at hvol2
  obtain ⟨hI1, hμ1⟩ := realSum_integral p d hirr hom he0 hd (measurable_pointWeight (F := F) (n + 2)) (pointWeight_smul hom) hw
  obtain ⟨hI2, hμ2⟩ := realSum_integral p d hirr hom he0 hd ((measurable_pointWeight (F := F) (n + 2)).pow_const 2)
    (fun c hc Z => by rw [pointWeight_smul hom c hc]) hw2
  rw [← hvol] at hμ1
  rw [← hvol2] at hμ2
  have hbd := realSum_bound hS hF hsm hirr he0 (g := pointWeight (n + 2) F) (K := B) fun Z hZ h0 => by
    rw [abs_of_pos (pointWeight_pos (e := n + 2) Z hZ (hsm Z hZ h0))]
    exact hle Z hZ h0
  have hGm := measurable_realSum (F := F) (measurable_pointWeight (F := F) (n + 2))
  have hG2 : MemLp (realSum F (pointWeight (n + 2) F)) 2 (lineLaw (n + 2)) := MemLp.of_bound hGm.aestronglyMeasurable _ hbd
  have hX' : ∀ i : Fin b, HasLaw (X (batchKey split key i)) (normalsLaw (n + 2) (sampleCount bs (n + 2))) P :=
    fun i => hX i i.2
  obtain ⟨hM1, hV1⟩ := batches_variance (X := fun i : Fin b => X (batchKey split key i)) hX' hind hGm hG2
  obtain ⟨-, hE1⟩ := batches_integral (X := fun i : Fin b => X (batchKey split key i)) hX' hI1
  obtain ⟨hS2, hE2⟩ := batches_integral (X := fun i : Fin b => X (batchKey split key i)) hX' hI2
  set S1 : Ω → ℝ := fun ω => ∑ i : Fin b, ∑ j, realSum F (pointWeight (n + 2) F) (rawLines (X (batchKey split key i) ω) j)
  set S2 : Ω → ℝ := fun ω => ∑ i : Fin b, ∑ j,
    realSum F (fun Z => pointWeight (n + 2) F Z ^ 2) (rawLines (X (batchKey split key i) ω) j)
  have hres : ∀ᵐ ω ∂P, volMean (res ω) = S1 ω / N ∧ volVar (res ω) = (S2 ω / N - (S1 ω / N) ^ 2) / N := by
    filter_upwards [vol_sums ho hr hsm hn hS hF split key b bs hb hbs hdvd X hX] with ω hω
    have e : res ω = _ := hω
    rw [e, Finset.sum_range, Finset.sum_range]
    exact ⟨rfl, rfl⟩
  have hm : (fun ω => volMean (res ω)) =ᵐ[P] fun ω => S1 ω / N := hres.mono fun ω h => h.1
  have hv : (fun ω => volVar (res ω)) =ᵐ[P] fun ω => (S2 ω / N - (S1 ω / N) ^ 2) / N := hres.mono fun ω h => h.2
  have hMm : MemLp (fun ω => S1 ω / N) 2 P := by
    simp only [div_eq_inv_mul]
    exact hM1.const_mul _
  have hcs := realSum_sq hS hF hsm hirr he0 (pointWeight (n + 2) F)
  have hcsE : ∫ x, realSum F (pointWeight (n + 2) F) x ^ 2 ∂lineLaw (n + 2) ≤
      (n + 2) * ∫ x, realSum F (fun Z => pointWeight (n + 2) F Z ^ 2) x ∂lineLaw (n + 2) := by
    rw [← integral_const_mul]
    refine integral_mono_ae hG2.integrable_sq (hI2.const_mul _) ?_
    filter_upwards [hcs] with x hx
    push_cast at hx
    exact hx
  have hVG : Var[realSum F (pointWeight (n + 2) F); lineLaw (n + 2)] =
      ∫ x, realSum F (pointWeight (n + 2) F) x ^ 2 ∂lineLaw (n + 2) - (cyMeasure p d F univ).toReal ^ 2 := by
    rw [variance_eq_sub hG2, hμ1]
    rfl
  have hL0 : sampleCount bs (n + 2) ≠ 0 := fun h0 => by
    rw [h0, zero_mul] at hcount
    exact hbs hcount.symm
  set M : ℝ := ((b * sampleCount bs (n + 2) : ℕ) : ℝ) with hM
  have hM0 : 0 < M := by
    rw [hM]
    exact_mod_cast Nat.mul_pos (Nat.pos_of_ne_zero hb) (Nat.pos_of_ne_zero hL0)
  have hNM : N = M * (n + 2) := by
    have : b * bs = b * sampleCount bs (n + 2) * (n + 2) := by rw [mul_assoc, hcount]
    change ((b * bs : ℕ) : ℝ) = _
    rw [this, hM, Nat.cast_mul (b * _)]
    push_cast
    rfl
  have hn2 : (0 : ℝ) < n + 2 := by positivity
  have hN0 : 0 < N := by rw [hNM]; positivity
  have hEm : ∫ ω, S1 ω / N ∂P = vol := by
    rw [integral_div, hE1, hμ1, hNM]
    change _ = _ / _
    field_simp
    rfl
  have hVm : Var[fun ω => volMean (res ω); P] = M * Var[realSum F (pointWeight (n + 2) F); lineLaw (n + 2)] / N ^ 2 := by
    rw [variance_congr hm, ← hV1]
    simp only [div_eq_inv_mul]
    rw [variance_const_mul]
    ring
  have hsq : ∫ ω, (S1 ω / N) ^ 2 ∂P = Var[fun ω => volMean (res ω); P] + vol ^ 2 := by
    rw [variance_congr hm, variance_eq_sub hMm, hEm]
    simp
  have hEv : N * ∫ ω, volVar (res ω) ∂P =
      (∫ Z, pointWeight (n + 2) F Z ∂cyMeasure p d F) / (n + 2) - vol ^ 2 - Var[fun ω => volMean (res ω); P] := by
    rw [integral_congr_ae hv, integral_div, integral_sub (hS2.div_const _) hMm.integrable_sq, hsq, integral_div, hE2, hμ2]
    rw [hNM]
    field_simp
    ring
  refine ⟨(memLp_congr_ae hm).2 hMm, ?_, ?_, hEv, ?_⟩
  · rw [integrable_congr hv]
    exact ((hS2.div_const _).sub hMm.integrable_sq).div_const _
  · rw [integral_congr_ae hm, hEm]
  · rw [mul_assoc, hEv]
    rw [hμ2] at hcsE
    have h1 : N * Var[fun ω => volMean (res ω); P] =
        Var[realSum F (pointWeight (n + 2) F); lineLaw (n + 2)] / (n + 2) := by
      rw [hVm, hNM]
      field_simp
    have h2 : Var[realSum F (pointWeight (n + 2) F); lineLaw (n + 2)] / (n + 2) ≤
        (∫ Z, pointWeight (n + 2) F Z ∂cyMeasure p d F) - (n + 2) * vol ^ 2 := by
      rw [div_le_iff₀ hn2, hVG]
      have : (n + 2) * vol = (cyMeasure p d F univ).toReal := by
        change ((n : ℝ) + 2) * (_ / _) = _
        field_simp
      rw [← this]
      nlinarith
    have h3 : ((n : ℝ) + 2) * ((∫ Z, pointWeight (n + 2) F Z ∂cyMeasure p d F) / (n + 2) - vol ^ 2 -
        Var[fun ω => volMean (res ω); P]) = (∫ Z, pointWeight (n + 2) F Z ∂cyMeasure p d F) - (n + 2) * vol ^ 2 -
        (n + 2) * Var[fun ω => volMean (res ω); P] := by
      field_simp
    rw [h3, sub_mul, h1]
    linarith

/-- **C148.** Error bars: the probability that the result is off by at least `ε` is at most `(n + 2) N / (N - (n + 2))` times
the expected returned variance over `ε²`. -/
theorem C148_error (hN : n + 2 < b * bs) (ε : ℝ) (hε : 0 < ε) :
    let N : ℝ := (b * bs : ℕ)
    let res := fun ω => computeVol n V o roots ps split (fun k => asLists (lineDraws (X k ω))) key b bs
    P {ω | ε ≤ |volMean (res ω) - (cyMeasure p d F univ).toReal / (n + 2)|} ≤
      ENNReal.ofReal ((n + 2) * N / (N - (n + 2)) * (∫ ω, volVar (res ω) ∂P) / ε ^ 2) := by
  intro N res
  have := hind.isProbabilityMeasure
  obtain ⟨h1, -, h3, -, h5⟩ := C148_variance ho hr hsm hn p d hS hF split key b bs hb hbs hdvd X hX hind
  have h := meas_ge_le_variance_div_sq (μ := P) h1 hε
  rw [h3] at h
  refine h.trans (ENNReal.ofReal_le_ofReal ?_)
  have h0 : (0 : ℝ) < N - (n + 2) := by
    have : ((n + 2 : ℕ) : ℝ) < (b * bs : ℕ) := by exact_mod_cast hN
    push_cast at this
    change (0 : ℝ) < ((b * bs : ℕ) : ℝ) - _
    push_cast
    linarith
  refine div_le_div_of_nonneg_right ?_ (by positivity)
  rw [div_mul_eq_mul_div, le_div_iff₀ h0, mul_comm]
  exact h5

omit ho hr hsm hn hS hF hb hbs hdvd hX hind in
/-- Independent batches exist, so the hypotheses of `C148_error` can be met: the Dwork quintic with `psi = 2` and three
batches of 2000 points. -/
example : ∃ (P : Measure (Fin 3 → Fin 2 → Fin (sampleCount 2000 5) → Fin (2 * 5) → ℝ))
    (X : ℕ → (Fin 3 → Fin 2 → Fin (sampleCount 2000 5) → Fin (2 * 5) → ℝ) → Fin 2 → Fin (sampleCount 2000 5) → Fin (2 * 5) → ℝ)
    (F : MvPolynomial (Fin 5) ℂ), ∀ ε > 0,
    let res := fun ω => computeVol 3 (.dwork 5 (.flag true)) someOrder someRoots [2] (fun k => (k, k + 1))
      (fun k => asLists (lineDraws (X k ω))) 0 3 2000
    P {ω | ε ≤ |volMean (res ω) - (cyMeasure (n := 3) 0 0 F univ).toReal / 5|} ≤
      ENNReal.ofReal (5 * 6000 / 5995 * (∫ ω, volVar (res ω) ∂P) / ε ^ 2) := by
  have hk : ∀ i, batchKey (fun k : ℕ => (k, k + 1)) 0 i = i := fun i => by
    unfold batchKey
    simp
  set X : ℕ → (Fin 3 → Fin 2 → Fin (sampleCount 2000 5) → Fin (2 * 5) → ℝ) → Fin 2 → Fin (sampleCount 2000 5) →
    Fin (2 * 5) → ℝ := fun k ω => if h : k < 3 then ω ⟨k, h⟩ else 0 with hXdef
  have hXi : ∀ i : Fin 3, X i = fun ω => ω i := fun i => by
    funext ω
    simp [hXdef]
  have h1 : ∀ i < 3, HasLaw (X (batchKey (fun k => (k, k + 1)) 0 i)) (normalsLaw 5 (sampleCount 2000 5))
      (Measure.pi fun _ => normalsLaw 5 (sampleCount 2000 5)) := fun i hi => by
    rw [hk, show X i = fun ω => ω ⟨i, hi⟩ from hXi ⟨i, hi⟩]
    exact (measurePreserving_eval (fun _ : Fin 3 => normalsLaw 5 (sampleCount 2000 5)) _).hasLaw
  have h2 : iIndepFun (fun i : Fin 3 => X (batchKey (fun k => (k, k + 1)) 0 i))
      (Measure.pi fun _ => normalsLaw 5 (sampleCount 2000 5)) := by
    simp only [hk, hXi]
    exact iIndepFun_pi (X := fun _ x => x) fun _ => aemeasurable_id
  obtain ⟨F, hF, hsm⟩ := C114_quintic 2 []
  refine ⟨Measure.pi fun _ => normalsLaw 5 (sampleCount 2000 5), X, F, fun ε hε => ?_⟩
  have h := C148_error someOrder_valid someRoots_complete (hsm.2 (by norm_num)) (by norm_num) 0 0
    (.dwork 4 (.flag true) (by simp [DworkFactor.value]) 2) hF (fun k : ℕ => (k, k + 1)) 0 3 2000 (by norm_num) (by norm_num)
    (by norm_num) X h1 h2 (by norm_num) ε hε
  norm_num at h ⊢
  exact h

end Cyjax
