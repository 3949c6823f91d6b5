import Verif.Lemmas.Concentration
import Verif.Props.MonteCarlo
import Mathlib.Probability.StrongLaw
import Mathlib.Probability.Independence.InfinitePi

/-! # C132: convergence of the Monte Carlo estimates -/

namespace Cyjax

open MeasureTheory ProbabilityTheory MvPolynomial Cyjax.Spec Cyjax.Polynomial Cyjax.Variety Set Filter Topology
open scoped ENNReal

variable {n : ℕ} {F : MvPolynomial (Fin (n + 2)) ℂ} {V : HomKind} {ps : List ℂ} {o : SymOrder} (ho : o.Valid)
  {roots : List ℂ → List ℂ} (hr : CompleteRoots roots) (hsm : SmoothHypersurface F) (hn : n ≠ 0) (p : Fin (n + 2))
  (d : Fin (n + 1)) (hS : Samplable V (n + 1) (n + 2) ps) (hF : Hypersurface V (.vec ps) (n + 1) (n + 2) F)

include ho hr hsm hn hS hF

/-- **C132.** For a bounded function the Monte Carlo estimate with `count` points is close to `∫ f |Ω|² / (n + 2)`: the
probability of an error of at least `ε` is at most `C / (count ε²)`, with the same constant for all numbers of points, also
for those that are not multiples of `n + 2`. So the estimate converges to this value in probability. -/
theorem C132_error {f : (Fin (n + 2) → ℂ) → ℝ} (hf : Measurable f) (hinv : ∀ c : ℂ, c ≠ 0 → ∀ Z, f (c • Z) = f Z)
    {M : ℝ} (hM : ∀ Z, Z ≠ 0 → eval Z F = 0 → |f Z| ≤ M) :
    (∃ C : ℝ, ∀ count : ℕ, count ≠ 0 → ∀ ε > 0, normalsLaw (n + 2) (sampleCount count (n + 2))
      {x | ε ≤ |weightedMean f (sampleIntersectOpt n V o roots ps count (asLists (lineDraws x)) false true) -
        (∫ Z, f Z ∂cyMeasure p d F) / (n + 2)|} ≤ ENNReal.ofReal (C / (count * ε ^ 2))) ∧
    ∀ ε > 0, Tendsto (fun count : ℕ => normalsLaw (n + 2) (sampleCount count (n + 2))
      {x | ε ≤ |weightedMean f (sampleIntersectOpt n V o roots ps count (asLists (lineDraws x)) false true) -
        (∫ Z, f Z ∂cyMeasure p d F) / (n + 2)|}) atTop (𝓝 0) := by
  have hom := hF.homogeneous
  have he0 : n + 2 ≠ 0 := by omega
  have hirr := smooth_irreducible (by omega) hom he0 hsm
  obtain ⟨B, hB, hle⟩ := pointWeight_bounded hom hsm
  have hinv' : ∀ c : ℂ, c ≠ 0 → ∀ Z, f (c • Z) * pointWeight (n + 2) F (c • Z) = f Z * pointWeight (n + 2) F Z := by
    intro c hc Z
    rw [pointWeight_smul hom c hc Z, hinv c hc Z]
  have hK : ∀ Z, Z ≠ 0 → eval Z F = 0 → |f Z * pointWeight (n + 2) F Z| ≤ M * B := by
    intro Z hZ h0
    have hw := pointWeight_pos (e := n + 2) Z hZ (hsm Z hZ h0)
    rw [abs_mul, abs_of_pos hw]
    exact mul_le_mul (hM Z hZ h0) (hle Z hZ h0) hw.le ((abs_nonneg _).trans (hM Z hZ h0))
  have hC : ∀ count : ℕ, count ≠ 0 → ∀ ε > 0, normalsLaw (n + 2) (sampleCount count (n + 2))
      {x | ε ≤ |weightedMean f (sampleIntersectOpt n V o roots ps count (asLists (lineDraws x)) false true) -
        (∫ Z, f Z ∂cyMeasure p d F) / (n + 2)|} ≤
      ENNReal.ofReal (10 * ((n + 2) * (M * B)) ^ 2 / (count * ε ^ 2)) := by
    intro count hc ε hε
    obtain ⟨pts, hpts⟩ := sample_sums hS hF hsm hirr ho hr he0 (sampleCount count (n + 2))
    have hc1 := sampleCount_le count (n + 2) (by omega)
    have hc2 := (sampleCount_mul count (n + 2) (by omega)).1
    have h := mean_concentration hS hF hsm hn p d (hf.mul (measurable_pointWeight (F := F) (n + 2))) hinv' hK count
      (sampleCount count (n + 2)) hc hc1.1 hc2 hc1.2 pts (by
        filter_upwards [hpts] with x hx
        exact ⟨hx.1, hx.2.1, hx.2.2.2 _ hinv'⟩) ε hε
    refine le_trans (measure_mono_ae ?_) h
    filter_upwards [hpts] with x hx hbad
    change ε ≤ |weightedMean f (sampleIntersectOpt n V o roots ps count (asLists (lineDraws x)) false true) -
      (∫ Z, f Z ∂cyMeasure p d F) / (n + 2)| at hbad
    rw [(hx.2.2.1 count).2.1, weightedMean_eq, List.length_take, hx.1, min_eq_left hc2, (cy_integral hom p d f).2] at hbad
    exact hbad
  refine ⟨⟨_, hC⟩, fun ε hε => ?_⟩
  have h0 : Tendsto (fun count : ℕ => ENNReal.ofReal (10 * ((n + 2) * (M * B)) ^ 2 / (count * ε ^ 2))) atTop (𝓝 0) := by
    rw [← ENNReal.ofReal_zero]
    refine ENNReal.tendsto_ofReal ?_
    have h1 : Tendsto (fun count : ℕ => (count : ℝ) * ε ^ 2) atTop atTop :=
      tendsto_natCast_atTop_atTop.atTop_mul_const (by positivity)
    exact tendsto_const_nhds.div_atTop h1
  refine tendsto_of_tendsto_of_tendsto_of_le_of_le' tendsto_const_nhds h0 (Eventually.of_forall fun _ => zero_le) ?_
  filter_upwards [eventually_ne_atTop 0] with count hc
  exact hC count hc ε hε

/-- **C132.** With independent batches whose size is a multiple of `n + 2`, the result of `compute_vol` converges almost
surely to `∫ |Ω|² / (n + 2)` as the number of batches grows, and the returned variance, multiplied with the number of
points, converges to the variance of the weights. -/
theorem C132_volume {Ω : Type*} [MeasurableSpace Ω] {P : Measure Ω} {Key : Type*} (split : Key → Key × Key) (key : Key)
    (bs : ℕ) (hbs : bs ≠ 0) (hdvd : (n + 2) ∣ bs)
    (X : Key → Ω → Fin 2 → Fin (sampleCount bs (n + 2)) → Fin (2 * (n + 2)) → ℝ)
    (hX : ∀ i, HasLaw (X (batchKey split key i)) (normalsLaw (n + 2) (sampleCount bs (n + 2))) P)
    (hind : iIndepFun (fun i => X (batchKey split key i)) P) :
    let vol := (cyMeasure p d F univ).toReal / (n + 2)
    let res := fun ω b => computeVol n V o roots ps split (fun k => asLists (lineDraws (X k ω))) key b bs
    ∀ᵐ ω ∂P, Tendsto (fun b => volMean (res ω b)) atTop (𝓝 vol) ∧
      Tendsto (fun b => (b * bs : ℕ) * volVar (res ω b)) atTop
        (𝓝 ((∫ Z, pointWeight (n + 2) F Z ∂cyMeasure p d F) / (n + 2) - vol ^ 2)) := by
  intro vol res
  have hom := hF.homogeneous
  have he0 : n + 2 ≠ 0 := by omega
  have hirr := smooth_irreducible (by omega) hom he0 hsm
  have hd := smooth_pderiv_ne_zero hom (by omega) hsm (p.succAbove d)
  have hcount := sampleCount_dvd he0 hdvd
  obtain ⟨B, hB, hle⟩ := pointWeight_bounded hom hsm
  have hfin : IsFiniteMeasure (cyMeasure p d F) := ⟨(C130_measure hsm hn p d hS hF).1.lt_top⟩
  have hw := (cy_integral hom p d fun _ => 1).1.1 (integrable_const 1)
  simp only [one_mul] at hw
  have hcyae : ∀ᵐ Z ∂cyMeasure p d F, Z ≠ 0 ∧ Z ∈ regularSet p d F := by
    rw [cyMeasure_withDensity p d hom]
    exact (withDensity_absolutelyContinuous _ _).ae_le (ae_fsMeasure hom p d)
  have hwi : Integrable (pointWeight (n + 2) F) (cyMeasure p d F) := by
    refine (integrable_const B).mono' (measurable_pointWeight _).aestronglyMeasurable ?_
    filter_upwards [hcyae] with Z hZ
    rw [Real.norm_eq_abs, abs_of_pos (pointWeight_pos Z hZ.1 ⟨_, hZ.2.2⟩)]
    exact hle Z hZ.1 hZ.2.1
  have hw2 := (cy_integral hom p d (pointWeight (n + 2) F)).1.1 hwi
  simp only [← sq] at hw2
  have hsl : ∀ g : (Fin (n + 2) → ℂ) → ℝ, Measurable g → (∀ c : ℂ, c ≠ 0 → ∀ Z, g (c • Z) = g Z) →
      Integrable g (fsMeasure p d F) → ∀ᵐ ω ∂P, Tendsto (fun b : ℕ => (∑ i ∈ Finset.range b, ∑ j,
        realSum F g (rawLines (X (batchKey split key i) ω) j)) / (b * bs : ℕ)) atTop
        (𝓝 ((∫ Z, g Z ∂fsMeasure p d F) / (n + 2))) := by
    intro g hg hinv hint
    obtain ⟨h1, h2⟩ := realSum_integral p d hirr hom he0 hd hg hinv hint
    have hmeas : Measurable fun x : Fin 2 → Fin (sampleCount bs (n + 2)) → Fin (2 * (n + 2)) → ℝ =>
        ∑ j, realSum F g (rawLines x j) := by
      refine Finset.measurable_sum _ fun j _ => (measurable_realSum hg).comp ?_
      exact (measurable_pi_apply j).comp (rawLines_preserving (n + 2) (sampleCount bs (n + 2))).measurable
    have hlaw := strong_law_ae_real (μ := P) (fun i ω => ∑ j, realSum F g (rawLines (X (batchKey split key i) ω) j))
      (lines_integral (hX 0) h1).1 (fun i j hij => (hind.indepFun hij).comp hmeas hmeas)
      (fun i => ((hX i).identDistrib (hX 0)).comp hmeas)
    rw [(lines_integral (hX 0) h1).2, h2] at hlaw
    have hbsR : (bs : ℝ) = sampleCount bs (n + 2) * (n + 2) := by exact_mod_cast hcount.symm
    have hs0 : (sampleCount bs (n + 2) : ℝ) ≠ 0 := fun h0 => by
      rw [h0, zero_mul] at hbsR
      exact hbs (by exact_mod_cast hbsR)
    filter_upwards [hlaw] with ω hω
    have := hω.div_const (bs : ℝ)
    have e1 : (sampleCount bs (n + 2) * ∫ Z, g Z ∂fsMeasure p d F) / (bs : ℝ) = (∫ Z, g Z ∂fsMeasure p d F) / (n + 2) := by
      rw [hbsR]
      field_simp
    rw [e1] at this
    refine this.congr fun b => ?_
    rw [div_div, Nat.cast_mul]
  have hvol := (cy_integral hom p d fun _ => 1).2
  simp only [one_mul, integral_const, smul_eq_mul, mul_one] at hvol
  have hvol2 := (cy_integral hom p d (pointWeight (n + 2) F)).2
  simp only [← sq] at hvol2
  have hres : ∀ᵐ ω ∂P, ∀ b : ℕ, b ≠ 0 →
      let T := fun (g : (Fin (n + 2) → ℂ) → ℝ) (i : ℕ) => ∑ j, realSum F g (rawLines (X (batchKey split key i) ω) j)
      let m := (∑ i ∈ Finset.range b, T (pointWeight (n + 2) F) i) / (b * bs : ℕ)
      res ω b =
        .ok (m, ((∑ i ∈ Finset.range b, T (fun Z => pointWeight (n + 2) F Z ^ 2) i) / (b * bs : ℕ) - m ^ 2) / (b * bs : ℕ)) := by
    rw [ae_all_iff]
    intro b
    by_cases hb : b = 0
    · exact Eventually.of_forall fun ω h => absurd hb h
    · filter_upwards [vol_sums ho hr hsm hn hS hF split key b bs hb hbs hdvd X fun i _ => hX i] with ω hω _
      exact hω
  filter_upwards [hres, hsl _ (measurable_pointWeight _) (pointWeight_smul hom) hw,
    hsl (fun Z => pointWeight (n + 2) F Z ^ 2) ((measurable_pointWeight _).pow_const 2)
      (fun c hc Z => by rw [pointWeight_smul hom c hc]) hw2] with ω h1 h2 h3
  rw [← hvol] at h2
  rw [← hvol2] at h3
  constructor
  · refine h2.congr' ?_
    filter_upwards [eventually_ne_atTop 0] with b hb
    rw [h1 b hb]
    rfl
  · refine (h3.sub (h2.pow 2)).congr' ?_
    filter_upwards [eventually_ne_atTop 0] with b hb
    rw [h1 b hb]
    have : ((b * bs : ℕ) : ℝ) ≠ 0 := by exact_mod_cast mul_ne_zero hb hbs
    simp only [volVar]
    field_simp

omit ho hr hsm hn hS hF in
/-- Independent batches exist, so the hypotheses of `C132_volume` can be met: the Dwork quintic with `psi = 2` in batches of
2000 points. -/
example : ∃ (P : Measure (ℕ → Fin 2 → Fin (sampleCount 2000 5) → Fin (2 * 5) → ℝ))
    (X : ℕ → (ℕ → Fin 2 → Fin (sampleCount 2000 5) → Fin (2 * 5) → ℝ) → Fin 2 → Fin (sampleCount 2000 5) → Fin (2 * 5) → ℝ),
    (∀ i, HasLaw (X (batchKey (fun k => (k, k + 1)) 0 i)) (normalsLaw 5 (sampleCount 2000 5)) P) ∧
    iIndepFun (fun i => X (batchKey (fun k => (k, k + 1)) 0 i)) P ∧
    ∃ F, ∀ᵐ ω ∂P, Tendsto (fun b => volMean (computeVol 3 (.dwork 5 (.flag true)) someOrder someRoots [2]
      (fun k => (k, k + 1)) (fun k => asLists (lineDraws (X k ω))) 0 b 2000)) atTop
      (𝓝 ((cyMeasure (n := 3) 0 0 F univ).toReal / 5)) := by
  have hk : ∀ i, batchKey (fun k : ℕ => (k, k + 1)) 0 i = i := fun i => by
    unfold batchKey
    simp
  have h1 : ∀ i, HasLaw (fun ω : ℕ → Fin 2 → Fin (sampleCount 2000 5) → Fin (2 * 5) → ℝ =>
      ω (batchKey (fun k => (k, k + 1)) 0 i)) (normalsLaw 5 (sampleCount 2000 5))
      (Measure.infinitePi fun _ => normalsLaw 5 (sampleCount 2000 5)) := fun i =>
    (measurePreserving_eval_infinitePi (fun _ : ℕ => normalsLaw 5 (sampleCount 2000 5)) _).hasLaw
  have h2 : iIndepFun (fun i => fun ω : ℕ → Fin 2 → Fin (sampleCount 2000 5) → Fin (2 * 5) → ℝ =>
      ω (batchKey (fun k => (k, k + 1)) 0 i)) (Measure.infinitePi fun _ => normalsLaw 5 (sampleCount 2000 5)) := by
    simp only [hk]
    exact iIndepFun_infinitePi (X := fun _ x => x) fun _ => measurable_id
  refine ⟨Measure.infinitePi fun _ => normalsLaw 5 (sampleCount 2000 5), fun k ω => ω k, h1, h2, ?_⟩
  obtain ⟨F, hF, hsm⟩ := C114_quintic 2 []
  refine ⟨F, ?_⟩
  filter_upwards [C132_volume someOrder_valid someRoots_complete (hsm.2 (by norm_num)) (by norm_num) 0 0
    (.dwork 4 (.flag true) (by simp [DworkFactor.value]) 2) hF (fun k : ℕ => (k, k + 1)) 0 2000 (by norm_num) (by norm_num)
    (fun k ω => ω k) h1 h2] with ω hω
  have := hω.1
  norm_num at this ⊢
  exact this

end Cyjax
