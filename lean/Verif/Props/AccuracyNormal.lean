import Verif.Lemmas.AllCounts
import Verif.Props.AccuracyLimit
import Verif.Props.LossNormal

/-! # C190: fluctuations of normalised averages and of `sigma_accuracy` -/

namespace Cyjax

open MeasureTheory ProbabilityTheory MvPolynomial Cyjax.Spec Cyjax.Polynomial Cyjax.Variety Cyjax.Donaldson Cyjax.Projective Cyjax.Ml Set
  Filter Topology
open scoped ENNReal NNReal ComplexOrder

section Ratio

variable {S : Type*} [MeasurableSpace S] {μ : Measure S} [IsProbabilityMeasure μ]

/-- Asymptotic normality of the ratio of two means over independent draws. -/
private theorem ratio_draws {k : ℕ} (hk : k ≠ 0) {g w : S → ℝ} (hg : Measurable g) (hw : Measurable w) (hg2 : MemLp g 2 μ)
    (hw2 : MemLp w 2 μ) {γ α : ℝ} (hγ : ∫ s, g s ∂μ = k * γ) (hα : ∫ s, w s ∂μ = k * α) (hα0 : α ≠ 0) :
    TendstoInDistribution (fun (b : ℕ) (x : ℕ → S) => √((b + 1) * k : ℕ) * (drawMean k g b x / drawMean k w b x - γ / α)) atTop id
      (fun _ => Measure.infinitePi fun _ : ℕ => μ) (gaussianReal 0 (Var[fun s => (g s - γ / α * w s) / α; μ] / k).toNNReal) := by
  obtain ⟨G, hG⟩ : ∃ G : S → Bool → ℝ, G = fun s j => if j then g s else w s := ⟨_, rfl⟩
  have hGm : Measurable G := by
    rw [hG]
    refine measurable_pi_lambda _ fun j => ?_
    cases j
    · exact hw
    · exact hg
  obtain ⟨m, hm⟩ : ∃ m : Bool → ℝ, m = fun j => if j then γ else α := ⟨_, rfl⟩
  have hp := measurePreserving_eval_infinitePi (fun _ : ℕ => μ) 0
  have hG2 : ∀ j, MemLp (fun s => G s j) 2 μ := fun j => by
    rw [hG]
    cases j
    · exact hw2
    · exact hg2
  have hder : HasFDerivAt (fun y : Bool → ℝ => y true / y false)
      (α⁻¹ • (ContinuousLinearMap.proj true : (Bool → ℝ) →L[ℝ] ℝ) - (γ / α * α⁻¹) • (ContinuousLinearMap.proj false : (Bool → ℝ) →L[ℝ] ℝ)) m := by
    have d1 : HasFDerivAt (fun y : Bool → ℝ => y true) (ContinuousLinearMap.proj true : (Bool → ℝ) →L[ℝ] ℝ) m :=
      (ContinuousLinearMap.proj true : (Bool → ℝ) →L[ℝ] ℝ).hasFDerivAt
    have d2 : HasFDerivAt (fun y : Bool → ℝ => y false) (ContinuousLinearMap.proj false : (Bool → ℝ) →L[ℝ] ℝ) m :=
      (ContinuousLinearMap.proj false : (Bool → ℝ) →L[ℝ] ℝ).hasFDerivAt
    have hmf : m false = α := by rw [hm]; rfl
    have hmt : m true = γ := by rw [hm]; rfl
    have d3 := d1.mul ((hasDerivAt_inv (show m false ≠ 0 by rw [hmf]; exact hα0)).comp_hasFDerivAt m d2)
    have d4 : HasFDerivAt (fun y : Bool → ℝ => y true / y false) _ m := d3
    refine d4.congr_fderiv (ContinuousLinearMap.ext fun y => ?_)
    simp only [Function.comp_apply, add_apply, sub_apply, smul_apply,
      ContinuousLinearMap.proj_apply, smul_eq_mul, hmf, hmt]
    field_simp
    ring
  have key := delta_batches (P := Measure.infinitePi fun _ : ℕ => μ) hk (T := fun (i : ℕ) (x : ℕ → S) => G (x i)) (m := m)
    (fun j => (hG2 j).comp_measurePreserving hp)
    (iIndepFun_infinitePi (P := fun _ : ℕ => μ) (X := fun _ => G) fun _ => hGm)
    (fun i => ((measurePreserving_eval_infinitePi (fun _ : ℕ => μ) i).hasLaw.identDistrib hp.hasLaw).comp hGm)
    (fun j => by
      have e : ∫ x : ℕ → S, G (x 0) j ∂(Measure.infinitePi fun _ : ℕ => μ) = ∫ s, G s j ∂μ := by
        have h1 := integral_map hp.measurable.aemeasurable (f := fun s => G s j) (by
          rw [hp.map_eq]
          exact (hG2 j).aestronglyMeasurable)
        rw [hp.map_eq] at h1
        exact h1.symm
      rw [e, hG, hm]
      cases j
      · exact hα
      · exact hγ)
    ((measurable_pi_apply true).div (measurable_pi_apply false)) hder
  have hvar : Var[fun x : ℕ → S => (α⁻¹ • (ContinuousLinearMap.proj true : (Bool → ℝ) →L[ℝ] ℝ) -
      (γ / α * α⁻¹) • (ContinuousLinearMap.proj false : (Bool → ℝ) →L[ℝ] ℝ)) (G (x 0)); Measure.infinitePi fun _ : ℕ => μ] =
      Var[fun s => (g s - γ / α * w s) / α; μ] := by
    have hmm : Measurable fun s => (g s - γ / α * w s) / α := (hg.sub (hw.const_mul _)).div_const _
    conv_rhs => rw [← hp.map_eq, variance_map hmm.aemeasurable hp.measurable.aemeasurable]
    congr 1
    funext x
    rw [hG]
    change α⁻¹ * g (x 0) - γ / α * α⁻¹ * w (x 0) = (g (x 0) - γ / α * w (x 0)) / α
    field_simp
  rw [hvar] at key
  refine key.congr (fun b => Filter.Eventually.of_forall fun x => ?_) EventuallyEq.rfl
  rw [hG, hm]
  rfl

end Ratio

variable {n : ℕ} {F : MvPolynomial (Fin (n + 2)) ℂ} {A : AlgebraicMetric (n + 1)} {ps : List ℂ} {o : SymOrder}
  (ho : o.Valid) {roots : List ℂ → List ℂ} (hr : CompleteRoots roots) (hsm : SmoothHypersurface F) (hn : n ≠ 0)
  (p : Fin (n + 2)) (d : Fin (n + 1))

section Average

variable {V : HomKind} (hS : Samplable V (n + 1) (n + 2) ps) (hF : Hypersurface V (.vec ps) (n + 1) (n + 2) F)

include ho hr hsm hn hS hF

/-- **C190.** The weighted average `∑ f w / ∑ w` over `count` sampled points with their weights, where `count` is a multiple of
`n + 2`, is asymptotically normal around the average `∫ f |Ω|² / ∫ |Ω|²`. The variance is `n + 2` times the variance of the
weighted mean of `f` minus its average over the points of one line, divided by the square of the volume. -/
theorem C190_average {f : (Fin (n + 2) → ℂ) → ℝ} {M : ℝ} (hf : Measurable f) (hfi : ∀ c : ℂ, c ≠ 0 → ∀ Z, f (c • Z) = f Z)
    (hfb : ∀ Z, Z ≠ 0 → eval Z F = 0 → |f Z| ≤ M) :
    let avg := (∫ Z, f Z ∂cyMeasure p d F) / (cyMeasure p d F univ).toReal
    let sample := fun (count : ℕ) (x : Fin 2 → Fin (sampleCount count (n + 2)) → Fin (2 * (n + 2)) → ℝ) =>
      sampleIntersectOpt n V o roots ps count (asLists (lineDraws x)) false true
    TendstoInDistribution (fun (b : ℕ) x => √((b + 1) * (n + 2) : ℕ) * (weightedMean f (sample ((b + 1) * (n + 2)) x) /
        weightedMean (fun _ => 1) (sample ((b + 1) * (n + 2)) x) - avg)) atTop id
      (fun b => normalsLaw (n + 2) (sampleCount ((b + 1) * (n + 2)) (n + 2)))
      (gaussianReal 0 ((n + 2) * Var[fun x => weightedMean (fun Z => f Z - avg) (sample (n + 2) x);
        normalsLaw (n + 2) (sampleCount (n + 2) (n + 2))] / ((cyMeasure p d F univ).toReal / (n + 2)) ^ 2).toNNReal) := by
  intro avg sample
  have hom := hF.homogeneous
  have he0 : n + 2 ≠ 0 := by omega
  have hirr := smooth_irreducible (by omega) hom he0 hsm
  have hd := smooth_pderiv_ne_zero hom (by omega) hsm (p.succAbove d)
  obtain ⟨hfin0, hne0, -⟩ := C130_measure hsm hn p d hS hF
  have hfin : IsFiniteMeasure (cyMeasure p d F) := ⟨hfin0.lt_top⟩
  obtain ⟨v, hv⟩ : ∃ v, v = (cyMeasure p d F univ).toReal := ⟨_, rfl⟩
  have hv0 : 0 < v := hv ▸ ENNReal.toReal_pos hne0 hfin0
  obtain ⟨φ, hφ⟩ : ∃ φ, φ = ∫ Z, f Z ∂cyMeasure p d F := ⟨_, rfl⟩
  have havg : avg = φ / v := by rw [hv, hφ]
  clear_value avg
  obtain ⟨B, hB0, hle⟩ := pointWeight_bounded hom hsm
  have hn2 : (0 : ℝ) < n + 2 := by positivity
  have cN : ((n + 2 : ℕ) : ℝ) = n + 2 := by push_cast; ring
  have hwpos : ∀ Z, Z ≠ 0 → eval Z F = 0 → 0 < pointWeight (n + 2) F Z := fun Z hZ h0 =>
    pointWeight_pos (e := n + 2) Z hZ (hsm Z hZ h0)
  have hwm := measurable_pointWeight (F := F) (n + 2)
  have hwi := pointWeight_smul (F := F) hom
  have hcyae : ∀ᵐ Z ∂cyMeasure p d F, Z ≠ 0 ∧ Z ∈ regularSet p d F := by
    rw [cyMeasure_withDensity p d hF.homogeneous]
    exact (withDensity_absolutelyContinuous _ _).ae_le (ae_fsMeasure hF.homogeneous p d)
  have stat : ∀ (f : (Fin (n + 2) → ℂ) → ℝ) (C : ℝ), Measurable f → (∀ c : ℂ, c ≠ 0 → ∀ Z, f (c • Z) = f Z) →
      (∀ Z, Z ≠ 0 → eval Z F = 0 → |f Z| ≤ C) →
      Measurable (realSum F fun Z => f Z * pointWeight (n + 2) F Z) ∧
      MemLp (realSum F fun Z => f Z * pointWeight (n + 2) F Z) 2 (lineLaw (n + 2)) ∧
      ∫ x, realSum F (fun Z => f Z * pointWeight (n + 2) F Z) x ∂lineLaw (n + 2) = ∫ Z, f Z ∂cyMeasure p d F := by
    intro f C hfm hfi hfb
    have hm := measurable_realSum (F := F) (hfm.mul hwm)
    have hbd := realSum_bound hS hF hsm hirr he0 (g := fun Z => f Z * pointWeight (n + 2) F Z) (K := C * B) fun Z hZ h0 => by
      rw [abs_mul, abs_of_pos (hwpos Z hZ h0)]
      exact mul_le_mul (hfb Z hZ h0) (hle Z hZ h0) (hwpos Z hZ h0).le ((abs_nonneg _).trans (hfb Z hZ h0))
    have hint : Integrable f (cyMeasure p d F) := by
      refine (integrable_const C).mono' hfm.aestronglyMeasurable ?_
      filter_upwards [hcyae] with Z hZ
      exact hfb Z hZ.1 hZ.2.1
    obtain ⟨-, h2⟩ := realSum_integral p d hirr hom he0 hd (f := fun Z => f Z * pointWeight (n + 2) F Z) (hfm.mul hwm)
      (fun c hc Z => by rw [hfi c hc, hwi c hc]) ((cy_integral hom p d f).1.1 hint)
    exact ⟨hm, MemLp.of_bound hm.aestronglyMeasurable _ hbd, h2.trans (cy_integral hom p d f).2.symm⟩
  obtain ⟨w1, w2, w3⟩ := stat (fun _ => 1) 1 measurable_const (fun _ _ _ => rfl) (fun _ _ _ => by simp)
  rw [integral_const, smul_eq_mul, mul_one, Measure.real, ← hv] at w3
  obtain ⟨g1, g2, g3⟩ := stat f M hf hfi hfb
  rw [← hφ] at g3
  have key := ratio_draws (μ := lineLaw (n + 2)) he0 g1 w1 g2 w2 (γ := φ / (n + 2)) (α := v / (n + 2))
    (by rw [g3, cN]; field_simp) (by rw [w3, cN]; field_simp) (div_pos hv0 hn2).ne'
  have hra : φ / ((n : ℝ) + 2) / (v / (n + 2)) = avg := by rw [havg, div_div_div_cancel_right₀ hn2.ne']
  rw [hra] at key
  -- the sample means
  have hmeans : ∀ (L count : ℕ), L * (n + 2) = count → ∀ᵐ x ∂normalsLaw (n + 2) L, ∀ g : (Fin (n + 2) → ℂ) → ℝ,
      (∀ c : ℂ, c ≠ 0 → ∀ Z, g (c • Z) = g Z) → weightedMean g
        (sampleIntersectOpt n V o roots ps count (asLists (lineDraws x)) false true) =
        (∑ j, realSum F (fun Z => g Z * pointWeight (n + 2) F Z) (rawLines x j)) / count := by
    intro L count hL
    obtain ⟨pts, hpts⟩ := sample_sums hS hF hsm hirr ho hr he0 L
    filter_upwards [hpts] with x hx g hg
    rw [(hx.2.2.1 count).2.1, List.take_of_length_le (by rw [hx.1, hL]), weightedMean_eq, hx.1, hL,
      hx.2.2.2 (fun Z => g Z * pointWeight (n + 2) F Z) fun c hc Z => by rw [hg c hc, hwi c hc]]
  -- the variance in terms of one line
  have hvar : Var[fun s => (realSum F (fun Z => f Z * pointWeight (n + 2) F Z) s -
        avg * realSum F (fun Z => 1 * pointWeight (n + 2) F Z) s) / (v / (n + 2)); lineLaw (n + 2)] / (n + 2 : ℕ) =
      (n + 2) * Var[fun x => weightedMean (fun Z => f Z - avg) (sample (n + 2) x);
        normalsLaw (n + 2) (sampleCount (n + 2) (n + 2))] / (v / (n + 2)) ^ 2 := by
    obtain ⟨G, hG⟩ : ∃ G : (Fin (n + 2) → ℂ) × (Fin (n + 2) → ℂ) → ℝ, G = fun s =>
      realSum F (fun Z => f Z * pointWeight (n + 2) F Z) s - avg * realSum F (fun Z => 1 * pointWeight (n + 2) F Z) s := ⟨_, rfl⟩
    have hGm : Measurable G := by
      rw [hG]
      exact g1.sub (w1.const_mul _)
    have hL1 : sampleCount (n + 2) (n + 2) = 1 := by
      have := sampleCount_dvd he0 (dvd_refl (n + 2))
      exact Nat.eq_of_mul_eq_mul_right (Nat.pos_of_ne_zero he0) (by rw [this, one_mul])
    have hone : ∀ L : ℕ, L = 1 → Var[fun x => weightedMean (fun Z => f Z - avg)
        (sampleIntersectOpt n V o roots ps (n + 2) (asLists (lineDraws x)) false true); normalsLaw (n + 2) L] =
        ((n + 2 : ℝ)⁻¹) ^ 2 * Var[G; lineLaw (n + 2)] := by
      rintro L rfl
      obtain ⟨pts, hpts⟩ := sample_sums hS hF hsm hirr ho hr he0 1
      have e : (fun x => weightedMean (fun Z => f Z - avg)
          (sampleIntersectOpt n V o roots ps (n + 2) (asLists (lineDraws x)) false true)) =ᵐ[normalsLaw (n + 2) 1]
          fun x => (n + 2 : ℝ)⁻¹ * G (rawLines x 0) := by
        filter_upwards [hpts] with x hx
        have s1 := hx.2.2.2 (fun Z => f Z * pointWeight (n + 2) F Z) fun c hc Z => by rw [hfi c hc, hwi c hc]
        have s2 := hx.2.2.2 (fun Z => 1 * pointWeight (n + 2) F Z) fun c hc Z => by rw [hwi c hc]
        rw [Fin.sum_univ_one] at s1 s2
        rw [(hx.2.2.1 (n + 2)).2.1, List.take_of_length_le (by rw [hx.1, one_mul]), weightedMean_eq, hx.1, one_mul, cN, hG,
          div_eq_inv_mul]
        simp only
        rw [← s1, ← s2]
        congr 1
        generalize pts x = Zs
        induction Zs with
        | nil => simp
        | cons Z Zs ih =>
          simp only [List.map_cons, List.sum_cons]
          rw [ih]
          ring
      have hl := line_law (HasLaw.id (μ := normalsLaw (n + 2) 1)) 0
      rw [variance_congr e, variance_const_mul]
      conv_rhs => rw [← hl.map_eq, variance_map hGm.aemeasurable hl.aemeasurable]
      rfl
    change _ = (n + 2) * Var[fun x => weightedMean (fun Z => f Z - avg)
      (sampleIntersectOpt n V o roots ps (n + 2) (asLists (lineDraws x)) false true); _] / _
    rw [hone _ hL1, cN]
    have e2 : (fun s => (realSum F (fun Z => f Z * pointWeight (n + 2) F Z) s -
        avg * realSum F (fun Z => 1 * pointWeight (n + 2) F Z) s) / (v / (n + 2))) = fun s => (v / (n + 2))⁻¹ * G s := by
      funext s
      rw [hG, div_eq_inv_mul]
    rw [e2, variance_const_mul]
    field_simp
  rw [hvar] at key
  rw [← hv]
  -- transfer to the draws of the code
  obtain ⟨H, hH⟩ : ∃ H : (L : ℕ) → (Fin L → (Fin (n + 2) → ℂ) × (Fin (n + 2) → ℂ)) → ℝ, H = fun L y =>
    √(L * (n + 2) : ℕ) * ((∑ j, realSum F (fun Z => f Z * pointWeight (n + 2) F Z) (y j)) / (L * (n + 2) : ℕ) /
      ((∑ j, realSum F (fun Z => 1 * pointWeight (n + 2) F Z) (y j)) / (L * (n + 2) : ℕ)) - avg) := ⟨_, rfl⟩
  have hHm : ∀ L, Measurable (H L) := fun L => by
    have s : ∀ g : (Fin (n + 2) → ℂ) × (Fin (n + 2) → ℂ) → ℝ, Measurable g →
        Measurable fun y : Fin L → (Fin (n + 2) → ℂ) × (Fin (n + 2) → ℂ) => (∑ j, g (y j)) / (L * (n + 2) : ℕ) := fun g hg =>
      (Finset.measurable_sum _ fun j _ => hg.comp (measurable_pi_apply j)).div_const _
    rw [hH]
    exact (((s _ g1).div (s _ w1)).sub_const _).const_mul _
  have hLb : ∀ b : ℕ, sampleCount ((b + 1) * (n + 2)) (n + 2) = b + 1 := fun b => by
    have := sampleCount_dvd (count := (b + 1) * (n + 2)) he0 (Dvd.intro_left _ rfl)
    exact Nat.eq_of_mul_eq_mul_right (Nat.pos_of_ne_zero he0) this
  have hcong : ∀ (b L : ℕ), L = b + 1 → (fun x => √((b + 1) * (n + 2) : ℕ) * (weightedMean f (sampleIntersectOpt n V o roots ps
      ((b + 1) * (n + 2)) (asLists (lineDraws x)) false true) / weightedMean (fun _ => 1) (sampleIntersectOpt n V o roots ps
      ((b + 1) * (n + 2)) (asLists (lineDraws x)) false true) - avg)) =ᵐ[normalsLaw (n + 2) L] fun x => H L (rawLines x) := by
    rintro b L rfl
    filter_upwards [hmeans (b + 1) _ rfl] with x hx
    rw [hx f hfi, hx (fun _ => 1) fun _ _ _ => rfl, hH]
  have hlaw : ∀ (b L : ℕ), L = b + 1 → (normalsLaw (n + 2) L).map (fun x => √((b + 1) * (n + 2) : ℕ) *
      (weightedMean f (sampleIntersectOpt n V o roots ps
      ((b + 1) * (n + 2)) (asLists (lineDraws x)) false true) / weightedMean (fun _ => 1) (sampleIntersectOpt n V o roots ps
      ((b + 1) * (n + 2)) (asLists (lineDraws x)) false true) - avg)) =
      (Measure.infinitePi fun _ : ℕ => lineLaw (n + 2)).map (fun x => √((b + 1) * (n + 2) : ℕ) *
        (drawMean (n + 2) (realSum F fun Z => f Z * pointWeight (n + 2) F Z) b x /
          drawMean (n + 2) (realSum F fun Z => 1 * pointWeight (n + 2) F Z) b x - avg)) := by
    intro b L hL
    rw [Measure.map_congr (hcong b L hL)]
    subst hL
    have h1 := Measure.map_map (hHm (b + 1)) (rawLines_preserving (n + 2) (b + 1)).measurable (μ := normalsLaw (n + 2) (b + 1))
    rw [(rawLines_preserving (n + 2) (b + 1)).map_eq, ← (draws_prefix (μ := lineLaw (n + 2)) (b + 1)).map_eq,
      Measure.map_map (hHm (b + 1)) (by fun_prop)] at h1
    refine h1.symm.trans ?_
    congr 1
    funext x
    simp only [Function.comp_apply, hH, drawMean, Finset.sum_range]
  refine ⟨fun b => ?_, aemeasurable_id, ?_⟩
  · exact ⟨_, (hHm _).comp (rawLines_preserving (n + 2) _).measurable, hcong b _ (hLb b)⟩
  · refine key.tendsto.congr fun b => ?_
    apply Subtype.ext
    exact (hlaw b _ (hLb b)).symm

omit ho hr hsm hn hS hF in
/-- The average over the sampled points. -/
private noncomputable abbrev avgOf (V : HomKind) (o : SymOrder) (roots : List ℂ → List ℂ) (ps : List ℂ) (f : (Fin (n + 2) → ℂ) → ℝ)
    (count : ℕ) {L : ℕ} (x : Fin 2 → Fin L → Fin (2 * (n + 2)) → ℝ) : ℝ :=
  weightedMean f (sampleIntersectOpt n V o roots ps count (asLists (lineDraws x)) false true) /
    weightedMean (fun _ => 1) (sampleIntersectOpt n V o roots ps count (asLists (lineDraws x)) false true)

/-- The points left out on the last line change the average by little. -/
private theorem average_close {f : (Fin (n + 2) → ℂ) → ℝ} {M : ℝ} (hfb : ∀ Z, Z ≠ 0 → eval Z F = 0 → |f Z| ≤ M) :
    ∃ C : ℝ, 0 ≤ C ∧ ∀ count : ℕ, count ≠ 0 → ∀ᵐ x ∂normalsLaw (n + 2) (sampleCount count (n + 2)),
      |avgOf V o roots ps f count x - avgOf V o roots ps f (sampleCount count (n + 2) * (n + 2)) x| ≤ C / count := by
  have hom := hF.homogeneous
  have he0 : n + 2 ≠ 0 := by omega
  have hirr := smooth_irreducible (by omega) hom he0 hsm
  obtain ⟨B, hB0, hle⟩ := pointWeight_bounded hom hsm
  obtain ⟨c, hc0, hge⟩ := pointWeight_lower hom hsm
  refine ⟨2 * |M| * (n + 2 : ℕ) * B / c, by positivity, fun count hc => ?_⟩
  obtain ⟨pts, hpts⟩ := sample_sums hS hF hsm hirr ho hr he0 (sampleCount count (n + 2))
  obtain ⟨-, hc2, hc3⟩ := sampleCount_near n hc
  have hct : (0 : ℝ) < count := by exact_mod_cast Nat.pos_of_ne_zero hc
  filter_upwards [hpts] with x hx
  have hav : ∀ k : ℕ, k ≠ 0 → k ≤ (pts x).length → avgOf V o roots ps f k x =
      (((pts x).take k).map fun Z => f Z * pointWeight (n + 2) F Z).sum / (((pts x).take k).map (pointWeight (n + 2) F)).sum := by
    intro k hk0 hk
    have hk1 : (0 : ℝ) < k := by exact_mod_cast Nat.pos_of_ne_zero hk0
    rw [avgOf, (hx.2.2.1 k).2.1, weightedMean_eq, weightedMean_eq, List.length_take, min_eq_left hk,
      div_div_div_cancel_right₀ hk1.ne']
    simp only [one_mul]
  have h1 : count ≤ (pts x).length := by rw [hx.1]; exact hc2
  rw [hav count hc h1, hav _ (by omega) (by rw [hx.1]), List.take_of_length_le (i := sampleCount count (n + 2) * (n + 2)) (by rw [hx.1])]
  exact average_take (pts x) f (pointWeight (n + 2) F) hc0 (abs_nonneg M)
    (fun Z hZ => ⟨hge Z (hx.2.1 Z hZ).1 (hx.2.1 Z hZ).2, hle Z (hx.2.1 Z hZ).1 (hx.2.1 Z hZ).2,
      (hfb Z (hx.2.1 Z hZ).1 (hx.2.1 Z hZ).2).trans (le_abs_self M)⟩) hc h1 (by rw [hx.1]; exact hc3)

/-- The statistic for full lines, for the number of lines that belongs to any number of points. -/
private theorem average_lines {f : (Fin (n + 2) → ℂ) → ℝ} {M : ℝ} (hf : Measurable f) (hfi : ∀ c : ℂ, c ≠ 0 → ∀ Z, f (c • Z) = f Z)
    (hfb : ∀ Z, Z ≠ 0 → eval Z F = 0 → |f Z| ≤ M) :
    let avg := (∫ Z, f Z ∂cyMeasure p d F) / (cyMeasure p d F univ).toReal
    (∀ L : ℕ, L ≠ 0 → AEMeasurable (fun x => √(L * (n + 2) : ℕ) * (avgOf V o roots ps f (L * (n + 2)) x - avg)) (normalsLaw (n + 2) L)) ∧
    ∀ t : ℝ, 0 < t → Tendsto (fun count : ℕ => normalsLaw (n + 2) (sampleCount count (n + 2))
        {x | |√(sampleCount count (n + 2) * (n + 2) : ℕ) * (avgOf V o roots ps f (sampleCount count (n + 2) * (n + 2)) x - avg)| ≤ t}) atTop
      (𝓝 (gaussianReal 0 ((n + 2) * Var[fun x => weightedMean (fun Z => f Z - avg)
        (sampleIntersectOpt n V o roots ps (n + 2) (asLists (lineDraws x)) false true);
        normalsLaw (n + 2) (sampleCount (n + 2) (n + 2))] / ((cyMeasure p d F univ).toReal / (n + 2)) ^ 2).toNNReal (Icc (-t) t))) := by
  intro avg
  have he0 : n + 2 ≠ 0 := by omega
  have key := C190_average ho hr hsm hn p d hS hF hf hfi hfb
  have hLb : ∀ b : ℕ, sampleCount ((b + 1) * (n + 2)) (n + 2) = b + 1 := fun b => by
    have := sampleCount_dvd (count := (b + 1) * (n + 2)) he0 (Dvd.intro_left _ rfl)
    exact Nat.eq_of_mul_eq_mul_right (Nat.pos_of_ne_zero he0) this
  refine ⟨fun L hL => ?_, fun t ht => ?_⟩
  · obtain ⟨b, rfl⟩ := Nat.exists_eq_succ_of_ne_zero hL
    have gen : ∀ L : ℕ, sampleCount ((b + 1) * (n + 2)) (n + 2) = L →
        AEMeasurable (fun x => √((b + 1) * (n + 2) : ℕ) * (avgOf V o roots ps f ((b + 1) * (n + 2)) x - avg)) (normalsLaw (n + 2) L) := by
      rintro L rfl
      exact key.forall_aemeasurable b
    exact gen _ (hLb b)
  · refine ((normal_interval key ht).comp (sampleCount_tendsto n)).congr' ?_
    filter_upwards [eventually_ne_atTop 0] with count hc
    have hL : sampleCount count (n + 2) - 1 + 1 = sampleCount count (n + 2) :=
      Nat.sub_add_cancel (Nat.pos_of_ne_zero (sampleCount_near n hc).1)
    have gen : ∀ L : ℕ, L = sampleCount count (n + 2) - 1 + 1 →
        normalsLaw (n + 2) (sampleCount ((sampleCount count (n + 2) - 1 + 1) * (n + 2)) (n + 2))
          {x | |√((sampleCount count (n + 2) - 1 + 1) * (n + 2) : ℕ) *
            (avgOf V o roots ps f ((sampleCount count (n + 2) - 1 + 1) * (n + 2)) x - avg)| ≤ t} =
        normalsLaw (n + 2) L {x | |√(L * (n + 2) : ℕ) * (avgOf V o roots ps f (L * (n + 2)) x - avg)| ≤ t} := by
      rintro L rfl
      rw [hLb]
    exact gen _ hL.symm

/-- **C190.** For any number of points, the probability that the weighted average is within `t / √count` of its limit converges to
the probability that a normal variable with the variance of `C190_average` is at most `t` in absolute value. -/
theorem C190_interval {f : (Fin (n + 2) → ℂ) → ℝ} {M : ℝ} (hf : Measurable f) (hfi : ∀ c : ℂ, c ≠ 0 → ∀ Z, f (c • Z) = f Z)
    (hfb : ∀ Z, Z ≠ 0 → eval Z F = 0 → |f Z| ≤ M) {t : ℝ} (ht : 0 < t) :
    let avg := (∫ Z, f Z ∂cyMeasure p d F) / (cyMeasure p d F univ).toReal
    let sample := fun (count : ℕ) (x : Fin 2 → Fin (sampleCount count (n + 2)) → Fin (2 * (n + 2)) → ℝ) =>
      sampleIntersectOpt n V o roots ps count (asLists (lineDraws x)) false true
    Tendsto (fun count : ℕ => normalsLaw (n + 2) (sampleCount count (n + 2))
        {x | |weightedMean f (sample count x) / weightedMean (fun _ => 1) (sample count x) - avg| ≤ t / √(count : ℝ)}) atTop
      (𝓝 (gaussianReal 0 ((n + 2) * Var[fun x => weightedMean (fun Z => f Z - avg) (sample (n + 2) x);
        normalsLaw (n + 2) (sampleCount (n + 2) (n + 2))] / ((cyMeasure p d F univ).toReal / (n + 2)) ^ 2).toNNReal (Icc (-t) t))) := by
  intro avg sample
  obtain ⟨-, hlin⟩ := average_lines ho hr hsm hn p d hS hF hf hfi hfb
  obtain ⟨C, hC0, hC⟩ := average_close ho hr hsm hn hS hF hfb
  exact interval_counts (P := fun count => normalsLaw (n + 2) (sampleCount count (n + 2))) hC
    (fun c hc => (sampleCount_near n hc).2) hlin ht

omit ho hr hsm hn hS hF in
/-- The hypotheses of C190 hold on the Dwork quintic with `psi = 2` for the function `|Z₀|² / ∑ |Zᵢ|²`. -/
example : ∃ (F : MvPolynomial (Fin 5) ℂ) (v : ℝ≥0), TendstoInDistribution (fun (b : ℕ) x => √((b + 1) * 5 : ℕ) *
      (weightedMean (fun Z : Fin 5 → ℂ => ‖Z 0‖ ^ 2 / ∑ i, ‖Z i‖ ^ 2)
          (sampleIntersectOpt 3 (.dwork 5 (.flag true)) someOrder someRoots [2] ((b + 1) * 5) (asLists (lineDraws x)) false true) /
        weightedMean (fun _ : Fin 5 → ℂ => 1)
          (sampleIntersectOpt 3 (.dwork 5 (.flag true)) someOrder someRoots [2] ((b + 1) * 5) (asLists (lineDraws x)) false true) -
        (∫ Z, ‖Z 0‖ ^ 2 / ∑ i, ‖Z i‖ ^ 2 ∂cyMeasure (n := 3) 0 0 F) / (cyMeasure (n := 3) 0 0 F univ).toReal)) atTop id
      (fun b => normalsLaw 5 (sampleCount ((b + 1) * 5) 5)) (gaussianReal 0 v) := by
  obtain ⟨F, hF, hsm⟩ := C114_quintic 2 []
  have key := C190_average (n := 3) (V := .dwork 5 (.flag true)) someOrder_valid someRoots_complete (hsm.2 (by norm_num))
    (by norm_num) 0 0 (.dwork 4 (.flag true) (by simp [DworkFactor.value]) 2) hF
    (f := fun Z : Fin 5 → ℂ => ‖Z 0‖ ^ 2 / ∑ i, ‖Z i‖ ^ 2) (M := 1) (by fun_prop)
    (fun c hc Z => by
      have hc' : ‖c‖ ^ 2 ≠ 0 := pow_ne_zero 2 (norm_ne_zero_iff.2 hc)
      simp only [Pi.smul_apply, smul_eq_mul, norm_mul, mul_pow]
      rw [← Finset.mul_sum, mul_div_mul_left _ _ hc'])
    (fun Z _ _ => by
      rw [abs_of_nonneg (by positivity)]
      exact div_le_one_of_le₀ (Finset.single_le_sum (f := fun i => ‖Z i‖ ^ 2) (fun i _ => by positivity) (Finset.mem_univ 0))
        (by positivity))
  exact ⟨F, _, key⟩

end Average

section Sigma

/-- The error made in `sigma_accuracy` by the estimated ratio of volumes. -/
private theorem deviation_shift {ι : Type*} (Zs : List ι) (hne : Zs ≠ []) (η w : ι → ℝ) (hp : ∀ Z ∈ Zs, 0 < η Z ∧ 0 < w Z) (ρ : ℝ) :
    |(Zs.map fun Z => |1 - η Z * (Zs.map w).sum / (Zs.map fun Z => η Z * w Z).sum| * w Z).sum / (Zs.map w).sum -
      (Zs.map fun Z => |1 - η Z * ρ| * w Z).sum / (Zs.map w).sum| ≤
      |(Zs.map fun Z => η Z * ρ * w Z).sum / (Zs.map w).sum - 1| := by
  have pos : ∀ f : ι → ℝ, (∀ Z ∈ Zs, 0 < f Z) → 0 < (Zs.map f).sum := fun f hf =>
    List.sum_pos _ (fun y hy => by obtain ⟨Z, hZ, rfl⟩ := List.mem_map.1 hy; exact hf Z hZ) (by simpa using hne)
  have hW := pos w fun Z hZ => (hp Z hZ).2
  have hE := pos (fun Z => η Z * w Z) fun Z hZ => mul_pos (hp Z hZ).1 (hp Z hZ).2
  generalize (Zs.map w).sum = W at hW ⊢
  obtain ⟨E, hEd⟩ : ∃ E, E = (Zs.map fun Z => η Z * w Z).sum := ⟨_, rfl⟩
  have e1 : (Zs.map fun Z => η Z * ρ * w Z).sum = ρ * E := by
    rw [hEd, ← List.sum_map_mul_left]
    exact congrArg List.sum (List.map_congr_left fun Z _ => by ring)
  rw [← hEd] at hE
  have main : ∀ l : List ι, (∀ Z ∈ l, 0 < η Z ∧ 0 < w Z) →
      |(l.map fun Z => |1 - η Z * W / E| * w Z).sum - (l.map fun Z => |1 - η Z * ρ| * w Z).sum| ≤
      |ρ - W / E| * (l.map fun Z => η Z * w Z).sum := by
    intro l
    induction l with
    | nil => intro _; simp
    | cons Z l ih =>
      intro hl
      have h1 := ih fun Y hY => hl Y (List.mem_cons_of_mem _ hY)
      obtain ⟨a, b⟩ := hl Z List.mem_cons_self
      simp only [List.map_cons, List.sum_cons]
      have h2 : |(|1 - η Z * W / E| * w Z) - |1 - η Z * ρ| * w Z| ≤ |ρ - W / E| * (η Z * w Z) := by
        rw [← sub_mul, abs_mul, abs_of_pos b, ← mul_assoc]
        refine mul_le_mul_of_nonneg_right ((abs_abs_sub_abs_le _ _).trans (le_of_eq ?_)) b.le
        rw [← abs_of_pos a, ← abs_mul, abs_of_pos a]
        congr 1
        ring
      rw [mul_add]
      refine le_trans ?_ (add_le_add h2 h1)
      refine le_trans (le_of_eq ?_) (abs_add_le _ _)
      congr 1
      ring
  have h1 := main Zs hp
  rw [← hEd] at h1 ⊢
  rw [e1, ← sub_div, abs_div, abs_of_pos hW, div_le_iff₀ hW]
  refine h1.trans (le_of_eq ?_)
  conv_lhs => rw [← abs_of_pos hE]
  conv_rhs => rw [← abs_of_pos hW]
  rw [← abs_mul, ← abs_mul, abs_of_pos hE, abs_of_pos hW]
  congr 1
  field_simp

variable (hS : Samplable A.variety (n + 1) (n + 2) ps) (hF : Hypersurface A.variety (.vec ps) (n + 1) (n + 2) F)
  (hB : SpansModulo F A.sections.degree A.sections.rows) (hk : A.sections.degree ≠ 0) (h : A.H) (hh : h.PosDef)

include ho hr hsm hn hS hF hB hk hh

/-- The error of `sigma_accuracy` is at most the sum of the errors of two averages. -/
private theorem sigma_error {count : ℕ} (hc : count ≠ 0) :
    let V := (cyMeasure p d F univ).toReal
    let K := ∫ Z, etaAt A h ps Z ∂cyMeasure p d F
    let σ := accuracy (cyMeasure p d F) (etaAt A h ps)
    ∀ᵐ x ∂normalsLaw (n + 2) (sampleCount count (n + 2)),
      |resultOrZero (A.sigmaAccuracy h o roots ps count (asLists (lineDraws x))) - σ| ≤
        |avgOf A.variety o roots ps (fun Z => |1 - etaAt A h ps Z * V / K|) count x - σ| +
        |avgOf A.variety o roots ps (fun Z => etaAt A h ps Z * V / K) count x - 1| := by
  intro V K σ
  have hom := hF.homogeneous
  have he0 : n + 2 ≠ 0 := by omega
  have hirr := smooth_irreducible (by omega) hom he0 hsm
  have hct : (0 : ℝ) < count := by exact_mod_cast Nat.pos_of_ne_zero hc
  have hc2 := (sampleCount_mul count (n + 2) (by omega)).1
  obtain ⟨pts, hpts⟩ := sample_sums hS hF hsm hirr ho hr he0 (sampleCount count (n + 2))
  filter_upwards [hpts, ae_admissible (count := sampleCount count (n + 2)) F (smooth_ne_zero hsm) hom] with x hx hadm
  have hL0 : sampleCount count (n + 2) ≠ 0 := fun h0 => by
    rw [h0, zero_mul] at hc2
    omega
  have hdr : lineDraws x ≠ [] := by
    rw [← List.length_pos_iff, lineDraws, List.length_ofFn]
    exact Nat.pos_of_ne_zero hL0
  obtain ⟨Zs, η', w', σ', g1, -, g3, g4, g5, -⟩ :=
    C110_sigma hS hF hsm he0 hB hk h hh ho hr.exact count hc (lineDraws x) hdr hadm.2
  have hZs : Zs = (pts x).take count := by
    refine List.map_injective_iff.2 List.ofFn_injective (Except.ok.inj (g1.symm.trans ?_))
    exact hom_of_weights (hx.2.2.1 count).2.1
  have hη' : ∀ Z ∈ Zs, η' Z = etaAt A h ps Z := by
    intro Z hZ
    have h1 := (g3 Z hZ).2.2.2.2.1
    have h2 := (etaAt_pos hF h hB hh hsm hk Z (g3 Z hZ).1 (g3 Z hZ).2.1).2
    exact_mod_cast Except.ok.inj (h1.symm.trans h2)
  have hw' : ∀ Z ∈ Zs, w' Z = pointWeight (n + 2) F Z := by
    intro Z hZ
    have h1 := (g3 Z hZ).2.2.2.2.2
    have h2 := weight_auto hF Z (g3 Z hZ).1 (g3 Z hZ).2.1 (hsm Z (g3 Z hZ).1 (g3 Z hZ).2.1)
    exact Except.ok.inj (h1.symm.trans h2)
  have e1 : Zs.map w' = Zs.map (pointWeight (n + 2) F) := List.map_congr_left hw'
  have e2 : (Zs.map fun Z => η' Z * w' Z) = Zs.map fun Z => etaAt A h ps Z * pointWeight (n + 2) F Z :=
    List.map_congr_left fun Z hZ => by rw [hη' Z hZ, hw' Z hZ]
  rw [e1, e2, List.map_congr_left (g := fun Z => |1 - etaAt A h ps Z * (Zs.map (pointWeight (n + 2) F)).sum /
    (Zs.map fun Z => etaAt A h ps Z * pointWeight (n + 2) F Z).sum| * pointWeight (n + 2) F Z)
    fun Z hZ => by rw [hη' Z hZ, hw' Z hZ]] at g5
  have hlen : Zs.length = count := by rw [hZs, List.length_take, hx.1, min_eq_left hc2]
  have hne : Zs ≠ [] := fun h0 => hc (by rw [← hlen, h0]; rfl)
  have hsh := deviation_shift Zs hne (etaAt A h ps) (pointWeight (n + 2) F) (fun Z hZ =>
    ⟨(etaAt_pos hF h hB hh hsm hk Z (g3 Z hZ).1 (g3 Z hZ).2.1).1,
      pointWeight_pos (e := n + 2) Z (g3 Z hZ).1 (hsm Z (g3 Z hZ).1 (g3 Z hZ).2.1)⟩) (V / K)
  rw [← g5] at hsh
  simp only [← mul_div_assoc] at hsh
  have hmx : ∀ f : (Fin (n + 2) → ℂ) → ℝ, weightedMean f
      (sampleIntersectOpt n A.variety o roots ps count (asLists (lineDraws x)) false true) =
      (Zs.map fun Z => f Z * pointWeight (n + 2) F Z).sum / count := fun f => by
    rw [(hx.2.2.1 count).2.1, weightedMean_eq, ← hZs, hlen]
  have hra : ∀ f : (Fin (n + 2) → ℂ) → ℝ, weightedMean f
      (sampleIntersectOpt n A.variety o roots ps count (asLists (lineDraws x)) false true) / weightedMean (fun _ => 1)
      (sampleIntersectOpt n A.variety o roots ps count (asLists (lineDraws x)) false true) =
      (Zs.map fun Z => f Z * pointWeight (n + 2) F Z).sum / (Zs.map (pointWeight (n + 2) F)).sum := fun f => by
    rw [hmx, hmx, div_div_div_cancel_right₀ hct.ne']
    simp only [one_mul]
  rw [avgOf, avgOf, hra, hra, g4]
  change |σ' - σ| ≤ _
  refine (abs_sub_le σ' ((Zs.map fun Z => |1 - etaAt A h ps Z * V / K| * pointWeight (n + 2) F Z).sum /
    (Zs.map (pointWeight (n + 2) F)).sum) σ).trans ?_
  rw [add_comm]
  exact add_le_add le_rfl hsh

/-- **C190.** The result of `sigma_accuracy` with `count` points is within `(s + t) / √count` of the accuracy
`σ = 1/V ∫ |1 - η V/K| |Ω|²` with a probability that is asymptotically at least the sum of two normal probabilities minus 1. The
first variance is that of the average of `|1 - η V/K|`, the second that of the average of `η V/K`, which replaces the ratio
`V/K` by its estimate. -/
theorem C190_sigma {s t : ℝ} (hs : 0 < s) (ht : 0 < t) :
    let V := (cyMeasure p d F univ).toReal
    let K := ∫ Z, etaAt A h ps Z ∂cyMeasure p d F
    let σ := accuracy (cyMeasure p d F) (etaAt A h ps)
    let lineVar := fun f : (Fin (n + 2) → ℂ) → ℝ => Var[fun x => weightedMean f
      (sampleIntersectOpt n A.variety o roots ps (n + 2) (asLists (lineDraws x)) false true);
        normalsLaw (n + 2) (sampleCount (n + 2) (n + 2))]
    gaussianReal 0 ((n + 2) * lineVar (fun Z => |1 - etaAt A h ps Z * V / K| - σ) / (V / (n + 2)) ^ 2).toNNReal (Icc (-s) s) +
      gaussianReal 0 ((n + 2) * lineVar (fun Z => etaAt A h ps Z * V / K - 1) / (V / (n + 2)) ^ 2).toNNReal (Icc (-t) t) - 1 ≤
      liminf (fun count : ℕ => normalsLaw (n + 2) (sampleCount count (n + 2))
        {x | |resultOrZero (A.sigmaAccuracy h o roots ps count (asLists (lineDraws x))) - σ| ≤ (s + t) / √(count : ℝ)}) atTop := by
  intro V K σ lineVar
  obtain ⟨hη, hK, -, -, -⟩ := C133_accuracy hsm hn p d hS hF hB hk h hh
  obtain ⟨hfin0, hne0, -⟩ := C130_measure hsm hn p d hS hF
  have hV0 : 0 < V := ENNReal.toReal_pos hne0 hfin0
  obtain ⟨M, hM⟩ := etaAt_bounded hF h hB hh hsm
  have hηm := measurable_etaAt hF h hB
  have hηi := etaAt_smul hF h
  have m2 : Measurable fun Z => etaAt A h ps Z * V / K := (hηm.mul_const _).div_const _
  have b2 : ∀ Z, Z ≠ 0 → eval Z F = 0 → |etaAt A h ps Z * V / K| ≤ M * V / K := fun Z hZ h0 => by
    rw [abs_div, abs_mul, abs_of_pos hV0, abs_of_pos hK]
    have := hM Z hZ h0
    gcongr
  have m1 : Measurable fun Z => |1 - etaAt A h ps Z * V / K| := by
    simp only [← Real.norm_eq_abs]
    exact (measurable_const.sub m2).norm
  have b1 : ∀ Z, Z ≠ 0 → eval Z F = 0 → |(|1 - etaAt A h ps Z * V / K|)| ≤ 1 + M * V / K := fun Z hZ h0 => by
    rw [abs_abs]
    refine (abs_sub _ _).trans ?_
    rw [abs_one]
    linarith [b2 Z hZ h0]
  have n1 := average_lines ho hr hsm hn p d hS hF m1 (fun c hc Z => by simp only [hηi c hc Z]) b1
  have n2 := average_lines ho hr hsm hn p d hS hF m2 (fun c hc Z => by rw [hηi c hc Z]) b2
  obtain ⟨C1, hC10, hC1⟩ := average_close ho hr hsm hn hS hF b1
  obtain ⟨C2, hC20, hC2⟩ := average_close ho hr hsm hn hS hF b2
  have a2 : (∫ Z, etaAt A h ps Z * V / K ∂cyMeasure p d F) / (cyMeasure p d F univ).toReal = 1 := by
    rw [integral_div, integral_mul_const]
    change K * V / K / V = 1
    rw [mul_div_right_comm, div_self hK.ne', one_mul, div_self hV0.ne']
  simp only [a2] at n2
  obtain ⟨-, i1⟩ := n1
  obtain ⟨q2, i2⟩ := n2
  obtain ⟨v1, hv1⟩ : ∃ v, v = ((n + 2) * lineVar (fun Z => |1 - etaAt A h ps Z * V / K| - σ) / (V / (n + 2)) ^ 2).toNNReal := ⟨_, rfl⟩
  obtain ⟨v2, hv2⟩ : ∃ v, v = ((n + 2) * lineVar (fun Z => etaAt A h ps Z * V / K - 1) / (V / (n + 2)) ^ 2).toNNReal := ⟨_, rfl⟩
  rw [← hv1, ← hv2]
  have hroot : Tendsto (fun count : ℕ => √(count : ℝ)) atTop atTop := Real.tendsto_sqrt_atTop.comp tendsto_natCast_atTop_atTop
  have hsmall : Tendsto (fun count : ℕ => (C1 + C2) / √(count : ℝ)) atTop (𝓝 0) := tendsto_const_nhds.div_atTop hroot
  have hstep : ∀ s' t' : ℝ, 0 < s' → 0 < t' → s' + t' < s + t →
      gaussianReal 0 v1 (Icc (-s') s') + gaussianReal 0 v2 (Icc (-t') t') - 1 ≤
      liminf (fun count : ℕ => normalsLaw (n + 2) (sampleCount count (n + 2))
        {x | |resultOrZero (A.sigmaAccuracy h o roots ps count (asLists (lineDraws x))) - σ| ≤ (s + t) / √(count : ℝ)}) atTop := by
    intro s' t' hs' ht' hst
    have j1 := i1 s' hs'
    have j2 := i2 t' ht'
    have hlim := ENNReal.Tendsto.sub (j1.add j2) (tendsto_const_nhds (x := (1 : ℝ≥0∞))) (Or.inr ENNReal.one_ne_top)
    rw [hv1, hv2]
    refine hlim.liminf_eq.symm.le.trans (liminf_le_liminf ?_)
    filter_upwards [eventually_ne_atTop 0, hsmall.eventually (gt_mem_nhds (show 0 < s + t - (s' + t') by linarith))] with count hc hcδ
    obtain ⟨hL0, hc2, -⟩ := sampleCount_near n hc
    have hct : (0 : ℝ) < count := by exact_mod_cast Nat.pos_of_ne_zero hc
    have hct' : 0 < √(count : ℝ) := Real.sqrt_pos.2 hct
    have hm := q2 _ hL0
    rw [tsub_le_iff_right]
    refine (measure_union_add_inter₀ _ (hm.abs.nullMeasurableSet_preimage (measurableSet_Iic (a := t')))).symm.le.trans ?_
    rw [add_comm]
    refine add_le_add (measure_mono_ae ?_) prob_le_one
    filter_upwards [sigma_error ho hr hsm hn p d hS hF hB hk h hh hc, hC1 count hc, hC2 count hc] with x hx h1 h2 hgood
    obtain ⟨c1, c2⟩ := hgood
    replace c1 : |√(sampleCount count (n + 2) * (n + 2) : ℕ) * (avgOf A.variety o roots ps (fun Z => |1 - etaAt A h ps Z * V / K|)
      (sampleCount count (n + 2) * (n + 2)) x - σ)| ≤ s' := c1
    replace c2 : |√(sampleCount count (n + 2) * (n + 2) : ℕ) * (avgOf A.variety o roots ps (fun Z => etaAt A h ps Z * V / K)
      (sampleCount count (n + 2) * (n + 2)) x - 1)| ≤ t' := c2
    change |resultOrZero (A.sigmaAccuracy h o roots ps count (asLists (lineDraws x))) - σ| ≤ _
    rw [le_div_iff₀ hct']
    rw [abs_mul, abs_of_nonneg (Real.sqrt_nonneg _)] at c1 c2
    have hsq : √(count : ℝ) ≤ √((sampleCount count (n + 2) * (n + 2) : ℕ) : ℝ) := Real.sqrt_le_sqrt (by exact_mod_cast hc2)
    have h3 : ∀ C : ℝ, C / (count : ℝ) * √(count : ℝ) = C / √(count : ℝ) := fun C => by
      conv_lhs => rw [← Real.mul_self_sqrt (Nat.cast_nonneg count)]
      rw [Real.sqrt_mul_self hct'.le]
      field_simp
    have comb : ∀ a b m C r : ℝ, |a - b| ≤ C / count → √((sampleCount count (n + 2) * (n + 2) : ℕ) : ℝ) * |b - m| ≤ r →
        |a - m| * √(count : ℝ) ≤ C / √(count : ℝ) + r := by
      intro a b m C r hab hbm
      have k1 := mul_le_mul_of_nonneg_right ((abs_sub_le a b m).trans (add_le_add hab le_rfl)) hct'.le
      have k2 := mul_le_mul_of_nonneg_right hsq (abs_nonneg (b - m))
      rw [add_mul, h3] at k1
      linarith
    have k1 := comb _ _ _ _ _ h1 c1
    have k2 := comb _ _ _ _ _ h2 c2
    have k3 := mul_le_mul_of_nonneg_right hx hct'.le
    rw [add_mul] at k3
    rw [add_div] at hcδ
    exact k3.trans (by linarith)
  have hcont := ENNReal.Tendsto.sub ((gaussian_below v1 hs).add (gaussian_below v2 ht)) (tendsto_const_nhds (x := (1 : ℝ≥0∞)))
    (Or.inr ENNReal.one_ne_top)
  refine le_of_tendsto hcont (Eventually.of_forall fun k => ?_)
  have hk0 : (0 : ℝ) ≤ k := Nat.cast_nonneg k
  have hp : ∀ r : ℝ, 0 < r → 0 < r / ((k : ℝ) + 2) ∧ r / ((k : ℝ) + 2) < r := fun r hr =>
    ⟨by positivity, div_lt_self hr (by linarith)⟩
  exact hstep _ _ (by linarith [(hp s hs).2]) (by linarith [(hp t ht).2]) (by linarith [(hp s hs).1, (hp t ht).1])

omit hsm hn hS hF hB hk hh ho hr in
/-- The hypotheses of C190 hold for the Dwork quintic with `psi = 2`, all sections of degree 2 and `h = 1`. -/
example : ∃ (A : AlgebraicMetric 4) (F : MvPolynomial (Fin 5) ℂ) (h : A.H) (v₁ v₂ : ℝ≥0),
    A = ⟨.dwork 5 (.flag true), monomialBasisFull 4 2⟩ ∧
      gaussianReal 0 v₁ (Icc (-1) 1) + gaussianReal 0 v₂ (Icc (-1) 1) - 1 ≤
      liminf (fun count : ℕ => normalsLaw 5 (sampleCount count 5)
        {x | |resultOrZero (A.sigmaAccuracy h someOrder someRoots [2] count (asLists (lineDraws x))) -
          accuracy (cyMeasure (n := 3) 0 0 F) (etaAt (n := 3) A h [2])| ≤ (1 + 1) / √(count : ℝ)}) atTop := by
  obtain ⟨F, hF, hsm⟩ := C114_quintic 2 []
  have key := C190_sigma (n := 3) (A := ⟨.dwork 5 (.flag true), monomialBasisFull 4 2⟩) someOrder_valid someRoots_complete
      (hsm.2 (by norm_num)) (by norm_num) 0 0 (.dwork 4 (.flag true) (by simp [DworkFactor.value]) 2) hF
      (C105_sections F 2).1 two_ne_zero 1 Matrix.PosDef.one one_pos one_pos
  exact ⟨⟨.dwork 5 (.flag true), monomialBasisFull 4 2⟩, F, 1, _, _, rfl, key⟩

end Sigma

end Cyjax
