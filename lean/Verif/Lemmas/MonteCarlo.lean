import Verif.Lemmas.SampleSums
import Mathlib.Probability.Moments.Variance
import Mathlib.Probability.HasLaw

/-! # Masses of the measures on a hypersurface, moments of sums over independent lines -/

namespace Cyjax

open MeasureTheory ProbabilityTheory MvPolynomial Cyjax.Spec Cyjax.Polynomial Cyjax.Variety Set
open scoped ENNReal

section Lines

variable {m L : ℕ} {Ω : Type*} [MeasurableSpace Ω] {P : Measure Ω} {X : Ω → Fin 2 → Fin L → Fin (2 * m) → ℝ}
  (hX : HasLaw X (normalsLaw m L) P)

include hX

theorem lines_law : HasLaw (fun ω => rawLines (X ω)) (Measure.pi fun _ : Fin L => lineLaw m) P :=
  (rawLines_preserving m L).hasLaw.fun_comp hX

theorem line_law (j : Fin L) : HasLaw (fun ω => rawLines (X ω) j) (lineLaw m) P :=
  (measurePreserving_eval (fun _ : Fin L => lineLaw m) j).hasLaw.fun_comp (lines_law hX)

theorem lines_integral {G : (Fin m → ℂ) × (Fin m → ℂ) → ℝ} (hG : Integrable G (lineLaw m)) :
    Integrable (fun ω => ∑ j, G (rawLines (X ω) j)) P ∧
      ∫ ω, ∑ j, G (rawLines (X ω) j) ∂P = L * ∫ x, G x ∂lineLaw m := by
  have h : ∀ j, Integrable (fun ω => G (rawLines (X ω) j)) P := fun j => by
    have h1 := line_law hX j
    exact (h1.map_eq ▸ hG).comp_aemeasurable h1.aemeasurable
  refine ⟨integrable_finsetSum _ fun j _ => h j, ?_⟩
  rw [integral_finsetSum _ fun j _ => h j]
  have h2 : ∀ j, ∫ ω, G (rawLines (X ω) j) ∂P = ∫ x, G x ∂lineLaw m := fun j => by
    have h1 := line_law hX j
    exact h1.integral_comp (h1.map_eq ▸ hG.aestronglyMeasurable)
  rw [Finset.sum_congr rfl fun j _ => h2 j, Finset.sum_const, Finset.card_univ, Fintype.card_fin, nsmul_eq_mul]

theorem lines_variance {G : (Fin m → ℂ) × (Fin m → ℂ) → ℝ} (hG : MemLp G 2 (lineLaw m)) :
    ∫ ω, (∑ j, G (rawLines (X ω) j) - L * ∫ x, G x ∂lineLaw m) ^ 2 ∂P = L * Var[G; lineLaw m] := by
  have h := variance_sum_pi (μ := fun _ : Fin L => lineLaw m) (X := fun _ => G) fun _ => hG
  have hint := hG.integrable one_le_two
  have hl := lines_integral hX hint
  have hlaw := lines_law hX
  have haem : AEMeasurable (∑ j : Fin L, fun y : Fin L → (Fin m → ℂ) × (Fin m → ℂ) => G (y j))
      (Measure.pi fun _ : Fin L => lineLaw m) := by
    refine Finset.aemeasurable_sum _ fun j _ => ?_
    exact hG.aestronglyMeasurable.aemeasurable.comp_quasiMeasurePreserving
      (measurePreserving_eval (fun _ : Fin L => lineLaw m) j).quasiMeasurePreserving
  have hfun : (∑ j : Fin L, fun y : Fin L → (Fin m → ℂ) × (Fin m → ℂ) => G (y j)) ∘ (fun ω => rawLines (X ω)) =
      fun ω => ∑ j, G (rawLines (X ω) j) := by
    funext ω
    simp
  rw [Finset.sum_const, Finset.card_univ, Fintype.card_fin, nsmul_eq_mul, ← hlaw.map_eq,
    variance_map (hlaw.map_eq ▸ haem) hlaw.aemeasurable, hfun, variance_eq_integral hl.1.aemeasurable, hl.2] at h
  exact h

end Lines

variable {n e : ℕ} {F : MvPolynomial (Fin (n + 2)) ℂ}

section Mass

variable {V : HomKind} {ps : List ℂ} (hS : Samplable V (n + 1) e ps) (hF : Hypersurface V (.vec ps) (n + 1) e F)
  (hsm : SmoothHypersurface F) (hirr : Irreducible F) (p : Fin (n + 2)) (d : Fin (n + 1))

include hS hF hsm hirr

theorem fs_mass (he : e ≠ 0) (hd : pderiv (p.succAbove d) F ≠ 0) : fsMeasure p d F univ = e := by
  obtain ⟨R, hR, -⟩ := sample_all hS hF someOrder_valid someRoots_complete
  have hom := hF.homogeneous
  rw [← lintegral_one, ← simpleSum_fs p d hirr hom he hd measurable_const fun _ _ _ => rfl]
  have hae : ∀ᵐ x ∂lineLaw (n + 2), simpleSum F (fun _ => 1) x = e := by
    filter_upwards [ae_admissible_line F (smooth_ne_zero hsm), ae_transversal hirr hom he] with x hx htr
    obtain ⟨h1, h2⟩ := sum_roots hx.2 (hR x hx).2 htr
    rw [simpleSum_eq htr, lineSum, sum_list_eq_tsum h1 (S := {t | eval (linePoint x t) F = 0}) h2, List.map_const',
      List.sum_replicate, (hR x hx).1, nsmul_eq_mul, mul_one]
  have : IsProbabilityMeasure (lineLaw (n + 2)) := by unfold lineLaw; infer_instance
  rw [lintegral_congr_ae hae, lintegral_const, measure_univ, mul_one]

end Mass

/-- The measures live on the hypersurface. -/
theorem ae_fsMeasure (hom : F.IsHomogeneous e) (p : Fin (n + 2)) (d : Fin (n + 1)) :
    ∀ᵐ Z ∂fsMeasure p d F, Z ≠ 0 ∧ Z ∈ regularSet p d F := by
  have hms : MeasurableSet {Z : Fin (n + 2) → ℂ | Z ≠ 0 ∧ Z ∈ regularSet p d F} :=
    (measurableSet_singleton (0 : Fin (n + 2) → ℂ)).compl.inter (measurableSet_regularSet p d F)
  rw [ae_iff]
  change fsMeasure p d F {Z : Fin (n + 2) → ℂ | Z ≠ 0 ∧ Z ∈ regularSet p d F}ᶜ = 0
  rw [← lintegral_indicator_one hms.compl, fsMeasure_eq p d hom,
    lintegral_sheetMeasure p d F (measurable_lineRho p d F) (measurable_one.indicator hms.compl)]
  refine (lintegral_congr fun w => ?_).trans lintegral_zero
  refine ENNReal.tsum_eq_zero.2 fun y => ?_
  by_cases hy : hpoint p d 1 y w ∈ regularSet p d F
  · rw [indicator_of_mem hy, indicator_of_notMem, zero_mul]
    refine fun h => h ⟨fun h0 => ?_, hy⟩
    have := hpoint_p p d 1 y w
    rw [h0] at this
    simp at this
  · rw [indicator_of_notMem hy]

/-- Integrals for the holomorphic volume form as integrals of weighted functions. -/
theorem cy_integral (hom : F.IsHomogeneous (n + 2)) (p : Fin (n + 2)) (d : Fin (n + 1)) (f : (Fin (n + 2) → ℂ) → ℝ) :
    (Integrable f (cyMeasure p d F) ↔ Integrable (fun Z => f Z * pointWeight (n + 2) F Z) (fsMeasure p d F)) ∧
      ∫ Z, f Z ∂cyMeasure p d F = ∫ Z, f Z * pointWeight (n + 2) F Z ∂fsMeasure p d F := by
  have hae : ∀ᵐ Z ∂fsMeasure p d F, 0 < pointWeight (n + 2) F Z := by
    filter_upwards [ae_fsMeasure hom p d] with Z hZ
    exact pointWeight_pos Z hZ.1 ⟨_, hZ.2.2⟩
  have hm : Measurable fun Z : Fin (n + 2) → ℂ => ENNReal.ofReal (pointWeight (n + 2) F Z) :=
    (measurable_pointWeight _).ennreal_ofReal
  have hcongr : ∀ᵐ Z ∂fsMeasure p d F, f Z * (ENNReal.ofReal (pointWeight (n + 2) F Z)).toReal =
      f Z * pointWeight (n + 2) F Z := by
    filter_upwards [hae] with Z hZ
    rw [ENNReal.toReal_ofReal hZ.le]
  rw [cyMeasure_withDensity p d hom]
  constructor
  · rw [integrable_withDensity_iff hm (Filter.Eventually.of_forall fun Z => ENNReal.ofReal_lt_top)]
    exact integrable_congr hcongr
  · rw [integral_withDensity_eq_integral_toReal_smul hm (Filter.Eventually.of_forall fun Z => ENNReal.ofReal_lt_top)]
    refine integral_congr_ae ?_
    filter_upwards [hcongr] with Z hZ
    rw [smul_eq_mul, mul_comm, hZ]

theorem cy_finite (hom : F.IsHomogeneous (n + 2)) (hsm : SmoothHypersurface F) (p : Fin (n + 2)) (d : Fin (n + 1))
    (hfs : fsMeasure p d F univ ≠ ∞) (hpos : fsMeasure p d F univ ≠ 0) :
    cyMeasure p d F univ ≠ ∞ ∧ cyMeasure p d F univ ≠ 0 := by
  obtain ⟨B, hB, hle⟩ := pointWeight_bounded hom hsm
  rw [cyMeasure_withDensity p d hom, withDensity_apply _ MeasurableSet.univ, Measure.restrict_univ]
  constructor
  · have : ∫⁻ Z, ENNReal.ofReal (pointWeight (n + 2) F Z) ∂fsMeasure p d F ≤ ENNReal.ofReal B * fsMeasure p d F univ := by
      rw [← lintegral_const]
      refine lintegral_mono_ae ?_
      filter_upwards [ae_fsMeasure hom p d] with Z hZ
      exact ENNReal.ofReal_le_ofReal (hle Z hZ.1 hZ.2.1)
    exact ne_top_of_le_ne_top (ENNReal.mul_ne_top ENNReal.ofReal_ne_top hfs) this
  · intro h0
    rw [lintegral_eq_zero_iff (measurable_pointWeight _).ennreal_ofReal] at h0
    have : ∀ᵐ Z ∂fsMeasure p d F, False := by
      filter_upwards [ae_fsMeasure hom p d, h0] with Z hZ h
      have := pointWeight_pos (e := n + 2) Z hZ.1 ⟨_, hZ.2.2⟩
      rw [Pi.zero_apply, ENNReal.ofReal_eq_zero] at h
      exact absurd this (not_lt.2 h)
    rw [Filter.eventually_false_iff_eq_bot, ae_eq_bot] at this
    exact hpos (by rw [this]; rfl)

end Cyjax
