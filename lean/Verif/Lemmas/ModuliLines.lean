import Verif.Lemmas.GenericSmooth
import Verif.Lemmas.Family

/-! # Lines and moduli drawn independently -/

namespace Cyjax

open Cyjax.Donaldson Cyjax.Spec Cyjax.Projective Cyjax.Variety Cyjax.Ml Cyjax.TrainScript MvPolynomial
open MeasureTheory ProbabilityTheory

variable {n k e : ℕ} {Φ : MvPolynomial (Fin (n + 2)) (MvPolynomial (Fin k) ℂ)}

/-- Moduli and lines drawn independently: almost surely the member is smooth and all lines are admissible. -/
theorem ae_moduli_lines (hΦ : Φ.IsHomogeneous e) (he : e ≠ 0) (ps₀ : Fin k → ℂ) (h0 : SmoothHypersurface (map (eval ps₀) Φ))
    (b : Fin k → ℝ) (hb : ∀ j, b j ≠ 0) {rows count : ℕ} (i : Fin rows) :
    ∀ᵐ y ∂(cubeLaw rows k).prod (normalsLaw (n + 2) count),
      SmoothHypersurface (map (eval (cubeRow b y.1 i)) Φ) ∧ ∀ z ∈ lineDraws y.2, Admissible (map (eval (cubeRow b y.1 i)) Φ) z := by
  obtain ⟨a, ha, hs⟩ := generic_smooth he Φ hΦ ps₀ h0
  have h1 : ∀ᵐ y ∂(cubeLaw rows k).prod (normalsLaw (n + 2) count), eval (cubeRow b y.1 i) a ≠ 0 :=
    Measure.quasiMeasurePreserving_fst.ae (ae_cube b hb a ha i)
  have h2 : ∀ᵐ y ∂(cubeLaw rows k).prod (normalsLaw (n + 2) count), ∀ j,
      Admissible (1 : MvPolynomial (Fin (n + 2)) ℂ) (rawLines y.2 j) := by
    have := (ae_admissible (count := count) (1 : MvPolynomial (Fin (n + 2)) ℂ) one_ne_zero (isHomogeneous_one _ _)).mono
      fun x hx => hx.1
    exact Measure.quasiMeasurePreserving_snd.ae this
  have h3 : ∀ᵐ y ∂(cubeLaw rows k).prod (normalsLaw (n + 2) count), ∀ j,
      ¬ (eval (cubeRow b y.1 i) a ≠ 0 ∧ eval (rawLines y.2 j).2 (map (eval (cubeRow b y.1 i)) Φ) = 0) := by
    rw [ae_all_iff]
    intro j
    have hcont : Continuous fun y : (Fin 2 → Fin rows → Fin k → ℝ) × (Fin 2 → Fin count → Fin (2 * (n + 2)) → ℝ) =>
        eval (rawLines y.2 j).2 (map (eval (cubeRow b y.1 i)) Φ) := by
      have e : (fun y : (Fin 2 → Fin rows → Fin k → ℝ) × (Fin 2 → Fin count → Fin (2 * (n + 2)) → ℝ) =>
          eval (rawLines y.2 j).2 (map (eval (cubeRow b y.1 i)) Φ)) =
          fun y => ∑ s ∈ Φ.support, eval (cubeRow b y.1 i) (coeff s Φ) * ∏ l, (rawLines y.2 j).2 l ^ s l := by
        funext y
        rw [eval_map, eval₂_eq']
      rw [e]
      refine continuous_finset_sum _ fun s _ => Continuous.mul ?_ (continuous_finset_prod _ fun l _ => Continuous.pow ?_ _)
      · exact (MvPolynomial.continuous_eval _).comp ((continuous_cubeRow b i).comp continuous_fst)
      · have := continuous_cvec (n + 2)
        unfold rawLines
        simp only
        exact (continuous_apply l).comp (this.comp ((continuous_apply j).comp ((continuous_apply 1).comp continuous_snd)))
    have hmeas : MeasurableSet {y : (Fin 2 → Fin rows → Fin k → ℝ) × (Fin 2 → Fin count → Fin (2 * (n + 2)) → ℝ) |
        eval (cubeRow b y.1 i) a ≠ 0 ∧ eval (rawLines y.2 j).2 (map (eval (cubeRow b y.1 i)) Φ) = 0} := by
      refine MeasurableSet.inter ?_ (isClosed_singleton.preimage hcont).measurableSet
      exact (isClosed_singleton.preimage ((MvPolynomial.continuous_eval a).comp
        ((continuous_cubeRow b i).comp continuous_fst))).measurableSet.compl
    rw [ae_iff]
    simp only [not_not]
    rw [Measure.measure_prod_null hmeas]
    refine Filter.Eventually.of_forall fun u => ?_
    by_cases hu : eval (cubeRow b u i) a ≠ 0
    · have hne := smooth_ne_zero (hs _ hu)
      have := ae_admissible (count := count) _ hne (hΦ.map (eval (cubeRow b u i)))
      rw [ae_iff] at this
      refine measure_mono_null ?_ this
      intro x hx hx'
      exact (hx'.1 j).2 hx.2
    · have : (Prod.mk u ⁻¹' {y : (Fin 2 → Fin rows → Fin k → ℝ) × (Fin 2 → Fin count → Fin (2 * (n + 2)) → ℝ) |
          eval (cubeRow b y.1 i) a ≠ 0 ∧ eval (rawLines y.2 j).2 (map (eval (cubeRow b y.1 i)) Φ) = 0}) = ∅ := by
        ext x
        simp only [Set.mem_preimage, Set.mem_setOf_eq, Set.mem_empty_iff_false, iff_false]
        exact fun h => hu h.1
      exact (congrArg _ this).trans measure_empty
  filter_upwards [h1, h2, h3] with y y1 y2 y3
  refine ⟨hs _ y1, admissible_lineDraws (hΦ.map _) fun j => ⟨(y2 j).1, fun h => y3 j ⟨y1, h⟩⟩⟩

end Cyjax
