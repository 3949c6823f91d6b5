import Verif.Lemmas.Hoeffding
import Verif.Props.AccuracyLimit

/-! # C141: the probability of an error decays exponentially -/

namespace Cyjax

open MeasureTheory ProbabilityTheory MvPolynomial Cyjax.Spec Cyjax.Polynomial Cyjax.Variety Cyjax.Donaldson Set Filter
  Topology
open scoped ENNReal NNReal ComplexOrder

universe u v

section Estimate

variable {n : ℕ} {F : MvPolynomial (Fin (n + 2)) ℂ} {V : HomKind} {ps : List ℂ} {o : SymOrder} (ho : o.Valid)
  {roots : List ℂ → List ℂ} (hr : CompleteRoots roots) (hsm : SmoothHypersurface F) (hn : n ≠ 0) (p : Fin (n + 2))
  (d : Fin (n + 1)) (hS : Samplable V (n + 1) (n + 2) ps) (hF : Hypersurface V (.vec ps) (n + 1) (n + 2) F)

include ho hr hsm hn hS hF

/-- **C141.** For a bounded function the Monte Carlo estimate with `count` points has an error of at least `ε` with a
probability of at most `2 exp (-count ε² / C)`, with the same constant for all `count` and `ε`. -/
theorem C141_error {f : (Fin (n + 2) → ℂ) → ℝ} (hf : Measurable f) (hinv : ∀ c : ℂ, c ≠ 0 → ∀ Z, f (c • Z) = f Z)
    {M : ℝ} (hM : ∀ Z, Z ≠ 0 → eval Z F = 0 → |f Z| ≤ M) :
    ∃ C > 0, ∀ count : ℕ, count ≠ 0 → ∀ ε > 0, normalsLaw (n + 2) (sampleCount count (n + 2))
      {x | ε ≤ |weightedMean f (sampleIntersectOpt n V o roots ps count (asLists (lineDraws x)) false true) -
        (∫ Z, f Z ∂cyMeasure p d F) / (n + 2)|} ≤ ENNReal.ofReal (2 * Real.exp (-(count * ε ^ 2) / C)) := by
  have hom := hF.homogeneous
  have he0 : n + 2 ≠ 0 := by omega
  have hirr := smooth_irreducible (by omega) hom he0 hsm
  obtain ⟨B, hB, hle⟩ := pointWeight_bounded hom hsm
  have hinv' : ∀ c : ℂ, c ≠ 0 → ∀ Z, f (c • Z) * pointWeight (n + 2) F (c • Z) = f Z * pointWeight (n + 2) F Z := by
    intro c hc Z
    rw [pointWeight_smul hom c hc Z, hinv c hc Z]
  have hK : ∀ Z, Z ≠ 0 → eval Z F = 0 → |f Z * pointWeight (n + 2) F Z| ≤ M * B := by
    intro Z hZ h0
    have hw := pointWeight_pos (e := n + 2) Z hZ (hsm Z hZ h0)
    rw [abs_mul, abs_of_pos hw]
    exact mul_le_mul (hM Z hZ h0) (hle Z hZ h0) hw.le ((abs_nonneg _).trans (hM Z hZ h0))
  have hMB : 0 ≤ (n + 2) * (M * B) := by
    obtain ⟨pts, hpts⟩ := sample_sums hS hF hsm hirr ho hr he0 (sampleCount 1 (n + 2))
    exact (mean_deviation hS hF hsm hn p d (hf.mul (measurable_pointWeight (F := F) (n + 2))) hinv' hK 1
      (sampleCount 1 (n + 2)) one_ne_zero (sampleCount_mul 1 (n + 2) (by omega)).1 (sampleCount_le 1 (n + 2) (by omega)).2 pts (by
        filter_upwards [hpts] with x hx
        exact ⟨hx.1, hx.2.1, hx.2.2.2 _ hinv'⟩)).1
  refine ⟨32 * ((n + 2) * (M * B) + 1) ^ 2, by positivity, fun count hc ε hε => ?_⟩
  obtain ⟨pts, hpts⟩ := sample_sums hS hF hsm hirr ho hr he0 (sampleCount count (n + 2))
  have hc1 := sampleCount_le count (n + 2) (by omega)
  have hc2 := (sampleCount_mul count (n + 2) (by omega)).1
  have h := mean_hoeffding hS hF hsm hn p d (hf.mul (measurable_pointWeight (F := F) (n + 2))) hinv' hK count
    (sampleCount count (n + 2)) hc hc1.1 hc2 hc1.2 pts (by
      filter_upwards [hpts] with x hx
      exact ⟨hx.1, hx.2.1, hx.2.2.2 _ hinv'⟩) ε hε
  refine le_trans (measure_mono_ae ?_) h
  filter_upwards [hpts] with x hx hbad
  change ε ≤ |weightedMean f (sampleIntersectOpt n V o roots ps count (asLists (lineDraws x)) false true) -
    (∫ Z, f Z ∂cyMeasure p d F) / (n + 2)| at hbad
  rw [(hx.2.2.1 count).2.1, weightedMean_eq, List.length_take, hx.1, min_eq_left hc2, (cy_integral hom p d f).2] at hbad
  exact hbad

/-- **C141.** For the volume: `compute_vol` with `b` independent batches of `bs` points, where `bs` is a multiple of `n + 2`,
has an error of at least `ε` with a probability of at most `2 exp (-b bs ε² / C)`, with the same constant for all numbers and
sizes of batches. -/
theorem C141_volume : ∃ C > 0, ∀ {Ω : Type u} [MeasurableSpace Ω] {P : Measure Ω} {Key : Type v} (split : Key → Key × Key)
    (key : Key) (b bs : ℕ), b ≠ 0 → bs ≠ 0 → (n + 2) ∣ bs →
    ∀ X : Key → Ω → Fin 2 → Fin (sampleCount bs (n + 2)) → Fin (2 * (n + 2)) → ℝ,
    (∀ i < b, HasLaw (X (batchKey split key i)) (normalsLaw (n + 2) (sampleCount bs (n + 2))) P) →
    iIndepFun (fun i : Fin b => X (batchKey split key i)) P → ∀ ε > 0,
      P {ω | ε ≤ |volMean (computeVol n V o roots ps split (fun k => asLists (lineDraws (X k ω))) key b bs) -
        (cyMeasure p d F univ).toReal / (n + 2)|} ≤ ENNReal.ofReal (2 * Real.exp (-((b * bs : ℕ) * ε ^ 2) / C)) := by
  have hom := hF.homogeneous
  have he0 : n + 2 ≠ 0 := by omega
  have hirr := smooth_irreducible (by omega) hom he0 hsm
  have hd := smooth_pderiv_ne_zero hom (by omega) hsm (p.succAbove d)
  obtain ⟨B, hB, hle⟩ := pointWeight_bounded hom hsm
  have hfin : IsFiniteMeasure (cyMeasure p d F) := ⟨(C130_measure hsm hn p d hS hF).1.lt_top⟩
  have hw := (cy_integral hom p d fun _ => 1).1.1 (integrable_const 1)
  simp only [one_mul] at hw
  obtain ⟨-, hμ⟩ := realSum_integral p d hirr hom he0 hd (measurable_pointWeight (F := F) (n + 2)) (pointWeight_smul hom) hw
  have hvol := (cy_integral hom p d fun _ => 1).2
  simp only [one_mul, integral_const, smul_eq_mul, mul_one] at hvol
  have hbd := realSum_bound hS hF hsm hirr he0 (g := pointWeight (n + 2) F) (K := B) fun Z hZ h0 => by
    rw [abs_of_pos (pointWeight_pos (e := n + 2) Z hZ (hsm Z hZ h0))]
    exact hle Z hZ h0
  set A : ℝ≥0 := ⟨(n + 2 : ℕ) * B, by positivity⟩ with hA
  have hA0 : (0 : ℝ) < A := by
    change (0 : ℝ) < (n + 2 : ℕ) * B
    positivity
  refine ⟨2 * A ^ 2, by positivity, fun {Ω} _ {P} {Key} split key b bs hb hbs hdvd X hX hind ε hε => ?_⟩
  have hcount := sampleCount_dvd he0 hdvd
  have hbsR : (bs : ℝ) = sampleCount bs (n + 2) * (n + 2) := by exact_mod_cast hcount.symm
  have hL0 : 0 < sampleCount bs (n + 2) := by
    rcases Nat.eq_zero_or_pos (sampleCount bs (n + 2)) with h0 | h0
    · rw [h0, zero_mul] at hcount
      exact absurd hcount.symm hbs
    · exact h0
  have hN0 : (0 : ℝ) < (b * bs : ℕ) := by exact_mod_cast Nat.mul_pos (Nat.pos_of_ne_zero hb) (Nat.pos_of_ne_zero hbs)
  have hM0 : (0 : ℝ) < (b * sampleCount bs (n + 2) : ℕ) := by exact_mod_cast Nat.mul_pos (Nat.pos_of_ne_zero hb) hL0
  have hNM : ((b * bs : ℕ) : ℝ) = (b * sampleCount bs (n + 2) : ℕ) * (n + 2) := by
    push_cast
    rw [hbsR]
    ring
  have h := hoeffding_lines (measurable_realSum (F := F) (measurable_pointWeight (F := F) (n + 2))) (A := A) hbd
    (fun i : Fin b => hX i i.2) hind (t := ε * (b * bs : ℕ)) (by positivity)
  refine (measure_mono_ae ?_).trans (h.trans (ENNReal.ofReal_le_ofReal ?_))
  · filter_upwards [vol_sums ho hr hsm hn hS hF split key b bs hb hbs hdvd X hX] with ω hω hbad
    change ε * (b * bs : ℕ) ≤ |_|
    change ε ≤ |_| at hbad
    rw [hω] at hbad
    change ε ≤ |_ / _ - _| at hbad
    rw [Finset.sum_range] at hbad
    have e1 : ∀ T : ℝ, T - (b * sampleCount bs (n + 2) : ℕ) * ∫ x, realSum F (pointWeight (n + 2) F) x ∂lineLaw (n + 2) =
        (T / (b * bs : ℕ) - (cyMeasure p d F univ).toReal / (n + 2)) * (b * bs : ℕ) := by
      intro T
      have hv : (cyMeasure p d F univ).toReal = ∫ Z, pointWeight (n + 2) F Z ∂fsMeasure p d F := hvol
      rw [hμ, hv, hNM]
      field_simp
    rw [e1, abs_mul, abs_of_pos hN0]
    exact mul_le_mul_of_nonneg_right hbad hN0.le
  · refine mul_le_mul_of_nonneg_left (Real.exp_le_exp.2 ?_) zero_le_two
    rw [neg_div, neg_div, neg_le_neg_iff, div_le_div_iff₀ (by positivity) (by positivity), hNM]
    have h1 : (0 : ℝ) ≤ n := by positivity
    have h2 : 0 ≤ (b * sampleCount bs (n + 2) : ℕ) * ((b * sampleCount bs (n + 2) : ℕ) * (ε ^ 2 * (A : ℝ) ^ 2)) * (n + 2) :=
      by positivity
    nlinarith

/-- **C141.** Calls with more and more points, which may depend on each other in any way: almost surely the estimates
converge to `∫ f |Ω|² / (n + 2)`. -/
theorem C141_almost_surely {f : (Fin (n + 2) → ℂ) → ℝ} (hf : Measurable f) (hinv : ∀ c : ℂ, c ≠ 0 → ∀ Z, f (c • Z) = f Z)
    {M : ℝ} (hM : ∀ Z, Z ≠ 0 → eval Z F = 0 → |f Z| ≤ M) {Ω : Type*} [MeasurableSpace Ω] {P : Measure Ω}
    (X : (count : ℕ) → Ω → Fin 2 → Fin (sampleCount count (n + 2)) → Fin (2 * (n + 2)) → ℝ)
    (hX : ∀ count, HasLaw (X count) (normalsLaw (n + 2) (sampleCount count (n + 2))) P) :
    ∀ᵐ ω ∂P, Tendsto (fun count => weightedMean f
      (sampleIntersectOpt n V o roots ps count (asLists (lineDraws (X count ω))) false true)) atTop
      (𝓝 ((∫ Z, f Z ∂cyMeasure p d F) / (n + 2))) := by
  obtain ⟨C, hC, h⟩ := C141_error ho hr hsm hn p d hS hF hf hinv hM
  refine ae_tendsto_of_exp (K := 2) fun ε hε => ⟨ε ^ 2 / C, by positivity, fun count hc => ?_⟩
  refine (measure_le_of_law (hX count) _ (h count hc ε hε)).trans (le_of_eq ?_)
  congr 3
  ring

end Estimate

section Sigma

variable {n : ℕ} {F : MvPolynomial (Fin (n + 2)) ℂ} {A : AlgebraicMetric (n + 1)} {ps : List ℂ} {o : SymOrder}
  (ho : o.Valid) {roots : List ℂ → List ℂ} (hr : CompleteRoots roots) (hsm : SmoothHypersurface F) (hn : n ≠ 0)
  (p : Fin (n + 2)) (d : Fin (n + 1)) (hS : Samplable A.variety (n + 1) (n + 2) ps)
  (hF : Hypersurface A.variety (.vec ps) (n + 1) (n + 2) F) (hB : SpansModulo F A.sections.degree A.sections.rows)
  (hk : A.sections.degree ≠ 0) (h : A.H) (hh : h.PosDef)

include hsm hn hS hF hB hk hh ho hr

/-- **C141.** The result of `sigma_accuracy` with `count` points differs from the accuracy by at least `ε` with a probability
of at most `6 exp (-count ε² / C)`. -/
theorem C141_sigma : ∃ C > 0, ∀ count : ℕ, count ≠ 0 → ∀ ε > 0, normalsLaw (n + 2) (sampleCount count (n + 2))
      {x | ε ≤ |resultOrZero (A.sigmaAccuracy h o roots ps count (asLists (lineDraws x))) -
        accuracy (cyMeasure p d F) (etaAt A h ps)|} ≤ ENNReal.ofReal (6 * Real.exp (-(count * ε ^ 2) / C)) := by
  obtain ⟨κ, hκ, f, M, hf, hcov⟩ := sigma_cover ho hr hsm hn p d hS hF hB hk h hh
  have he := fun k => C141_error ho hr hsm hn p d hS hF (hf k).1 (hf k).2.1 (hf k).2.2
  choose C hC0 hC using he
  refine ⟨(∑ k, C k) / κ ^ 2, div_pos (Finset.sum_pos (fun k _ => hC0 k) Finset.univ_nonempty) (by positivity),
    fun count hc ε hε => ?_⟩
  refine (hcov count hc ε hε).trans ?_
  have hle : ∀ k, normalsLaw (n + 2) (sampleCount count (n + 2))
        {x | κ * ε ≤ |weightedMean (f k) (sampleIntersectOpt n A.variety o roots ps count (asLists (lineDraws x)) false true) -
          (∫ Z, f k Z ∂cyMeasure p d F) / (n + 2)|} ≤
      ENNReal.ofReal (2 * Real.exp (-(count * ε ^ 2) / ((∑ k, C k) / κ ^ 2))) := by
    intro k
    refine (hC k count hc (κ * ε) (by positivity)).trans (ENNReal.ofReal_le_ofReal ?_)
    refine mul_le_mul_of_nonneg_left (Real.exp_le_exp.2 ?_) zero_le_two
    have h1 : C k ≤ ∑ k, C k := Finset.single_le_sum (fun k _ => (hC0 k).le) (Finset.mem_univ k)
    rw [neg_div, neg_div, neg_le_neg_iff, div_div_eq_mul_div]
    have h2 := hC0 k
    rw [show (count : ℝ) * (κ * ε) ^ 2 = count * ε ^ 2 * κ ^ 2 by ring]
    exact div_le_div_of_nonneg_left (by positivity) h2 h1
  refine (Finset.sum_le_sum fun k _ => hle k).trans (le_of_eq ?_)
  rw [← ENNReal.ofReal_sum_of_nonneg fun k _ => by positivity]
  congr 1
  rw [Finset.sum_const, Finset.card_univ, Fintype.card_fin]
  simp only [nsmul_eq_mul]
  push_cast
  ring

/-- **C141.** So `sigma_accuracy` converges almost surely, for calls with more and more points which may depend on each other
in any way. -/
theorem C141_sigma_almost_surely {Ω : Type*} [MeasurableSpace Ω] {P : Measure Ω}
    (X : (count : ℕ) → Ω → Fin 2 → Fin (sampleCount count (n + 2)) → Fin (2 * (n + 2)) → ℝ)
    (hX : ∀ count, HasLaw (X count) (normalsLaw (n + 2) (sampleCount count (n + 2))) P) :
    ∀ᵐ ω ∂P, Tendsto (fun count => resultOrZero (A.sigmaAccuracy h o roots ps count (asLists (lineDraws (X count ω))))) atTop
      (𝓝 (accuracy (cyMeasure p d F) (etaAt A h ps))) := by
  obtain ⟨C, hC, hb⟩ := C141_sigma ho hr hsm hn p d hS hF hB hk h hh
  refine ae_tendsto_of_exp (K := 6) fun ε hε => ⟨ε ^ 2 / C, by positivity, fun count hc => ?_⟩
  refine (measure_le_of_law (hX count) _ (hb count hc ε hε)).trans (le_of_eq ?_)
  congr 3
  ring

omit hsm hn hS hF hB hk hh ho hr in
/-- The hypotheses of C141 hold for the Dwork quintic with `psi = 2`, all sections of degree 2 and `h = 1`. -/
example : ∃ (A : AlgebraicMetric 4) (F : MvPolynomial (Fin 5) ℂ) (h : A.H),
    A = ⟨.dwork 5 (.flag true), monomialBasisFull 4 2⟩ ∧ ∃ C > 0, ∀ count : ℕ, count ≠ 0 → ∀ ε > 0,
      normalsLaw 5 (sampleCount count 5)
        {x | ε ≤ |resultOrZero (A.sigmaAccuracy h someOrder someRoots [2] count (asLists (lineDraws x))) -
          accuracy (cyMeasure (n := 3) 0 0 F) (etaAt (n := 3) A h [2])|} ≤
        ENNReal.ofReal (6 * Real.exp (-(count * ε ^ 2) / C)) := by
  obtain ⟨F, hF, hsm⟩ := C114_quintic 2 []
  exact ⟨⟨.dwork 5 (.flag true), monomialBasisFull 4 2⟩, F, 1, rfl,
    C141_sigma (n := 3) (A := ⟨.dwork 5 (.flag true), monomialBasisFull 4 2⟩) someOrder_valid someRoots_complete
      (hsm.2 (by norm_num)) (by norm_num) 0 0 (.dwork 4 (.flag true) (by simp [DworkFactor.value]) 2) hF
      (C105_sections F 2).1 two_ne_zero 1 Matrix.PosDef.one⟩

end Sigma

end Cyjax
