import Verif.Lemmas.ConeScaling
import Verif.Lemmas.GenericPoints
import Verif.Spec.Samplable
import Verif.Lemmas.Jet
import Mathlib.Algebra.MvPolynomial.NoZeroDivisors

/-! # The expected sum over the intersections of a random line with a hypersurface -/

namespace Cyjax

open MeasureTheory MvPolynomial Cyjax.Spec Set
open scoped ENNReal

section Transversal

variable {m : ℕ} {F : MvPolynomial (Fin m) ℂ} {e : ℕ}

theorem not_dvd_of_lower {f : MvPolynomial (Fin m) ℂ} (hom : F.IsHomogeneous e) (he : e ≠ 0) (hF : F ≠ 0)
    (hf : f.IsHomogeneous (e - 1)) (hf0 : f ≠ 0) : ¬ F ∣ f := by
  rintro ⟨g, rfl⟩
  have hg : g ≠ 0 := right_ne_zero_of_mul hf0
  have h1 := hf.totalDegree hf0
  rw [totalDegree_mul_of_isDomain hF hg, hom.totalDegree hF] at h1
  omega

/-- The derivative in a direction, as a polynomial. -/
noncomputable def dirPoly (F : MvPolynomial (Fin m) ℂ) (q : Fin m → ℂ) : MvPolynomial (Fin m) ℂ := ∑ i, C (q i) * pderiv i F

theorem eval_dirPoly (q Z : Fin m → ℂ) : eval Z (dirPoly F q) = dirD F q Z := by
  simp [dirPoly, dirD]

theorem dirPoly_homogeneous (hom : F.IsHomogeneous e) (q : Fin m → ℂ) : (dirPoly F q).IsHomogeneous (e - 1) := by
  refine IsHomogeneous.sum _ _ _ fun i _ => ?_
  have := (isHomogeneous_C (Fin m) (q i)).mul (hom.pderiv (i := i))
  rwa [zero_add] at this

theorem dirPoly_ne_zero (hom : F.IsHomogeneous e) (he : e ≠ 0) {q : Fin m → ℂ} (hq : eval q F ≠ 0) : dirPoly F q ≠ 0 := by
  intro h0
  have h := congrArg (eval q) hom.sum_X_mul_pderiv
  have h1 := eval_dirPoly (F := F) q q
  rw [h0, map_zero] at h1
  simp only [map_sum, map_mul, eval_X, map_nsmul] at h
  have h2 : (e : ℂ) * eval q F = 0 := by
    rw [← nsmul_eq_mul, ← h]
    exact h1.symm
  rcases mul_eq_zero.1 h2 with h3 | h3
  · exact he (Nat.cast_eq_zero.1 h3)
  · exact hq h3

/-- Almost every line is transversal to the hypersurface. -/
theorem ae_transversal (hF : Irreducible F) (hom : F.IsHomogeneous e) (he : e ≠ 0) :
    ∀ᵐ x ∂lineLaw m, ∀ t, eval (linePoint x t) F = 0 → dirD F x.2 (linePoint x t) ≠ 0 := by
  have hmeas : MeasurableSet {x : (Fin m → ℂ) × (Fin m → ℂ) | ∃ t, eval (linePoint x t) F = 0 ∧ dirD F x.2 (linePoint x t) = 0} := by
    refine measurableSet_exists (X := (Fin m → ℂ) × (Fin m → ℂ)) (Y := ℂ)
      (S := {y | eval (linePoint y.1 y.2) F = 0 ∧ dirD F y.1.2 (linePoint y.1 y.2) = 0}) ?_
    refine (isClosed_singleton.preimage ((MvPolynomial.continuous_eval F).comp continuous_linePoint)).inter ?_
    have hc : Continuous fun y : ((Fin m → ℂ) × (Fin m → ℂ)) × ℂ => dirD F y.1.2 (linePoint y.1 y.2) :=
      (continuous_dirD F).comp ((continuous_snd.comp continuous_fst).prodMk continuous_linePoint)
    exact isClosed_singleton.preimage hc
  have hnull : lineLaw m {x : (Fin m → ℂ) × (Fin m → ℂ) | ∃ t, eval (linePoint x t) F = 0 ∧ dirD F x.2 (linePoint x t) = 0} = 0 := by
    unfold lineLaw
    rw [← Measure.prod_swap, Measure.map_apply measurable_swap hmeas, Measure.measure_prod_null (measurable_swap hmeas)]
    filter_upwards [cnormal_ne_zero F hF.ne_zero] with q hq
    obtain ⟨D, hD, hall⟩ := line_avoid F (dirPoly F q) hF hom
      (not_dvd_of_lower hom he hF.ne_zero (dirPoly_homogeneous hom q) (dirPoly_ne_zero hom he hq)) q hq
    have := cnormal_ne_zero D hD
    rw [ae_iff] at this
    refine measure_mono_null ?_ this
    rintro p ⟨t, h1, h2⟩
    exact not_not.2 (hall p t h1 (by rw [eval_dirPoly]; exact h2))
  rw [ae_iff]
  refine measure_mono_null ?_ hnull
  intro x hx
  simp only [mem_ofPred_eq, not_forall, not_not] at hx
  obtain ⟨t, h1, h2⟩ := hx
  exact ⟨t, h1, h2⟩

end Transversal

variable {n : ℕ} {F : MvPolynomial (Fin (n + 2)) ℂ} {e : ℕ}

/-- A coordinate that is never dependent is a singular point. -/
theorem smooth_pderiv_ne_zero (hom : F.IsHomogeneous e) (he : 2 ≤ e) (hsm : SmoothHypersurface F) (i : Fin (n + 2)) :
    pderiv i F ≠ 0 := by
  intro h0
  set Z : Fin (n + 2) → ℂ := Pi.single i 1 with hZ
  have euler : ∀ {G : MvPolynomial (Fin (n + 2)) ℂ} {k : ℕ}, G.IsHomogeneous k → pderiv i G = 0 → k ≠ 0 → eval Z G = 0 := by
    intro G k hG hi hk
    have h := congrArg (eval Z) hG.sum_X_mul_pderiv
    simp only [map_sum, map_mul, eval_X, map_nsmul] at h
    rw [Finset.sum_eq_single i (fun j _ hj => by rw [hZ, Pi.single_eq_of_ne hj, zero_mul]) (by simp), hi, map_zero, mul_zero,
      nsmul_eq_mul, eq_comm, mul_eq_zero] at h
    exact h.resolve_left (Nat.cast_ne_zero.2 hk)
  have hne : Z ≠ 0 := fun h => by
    have := congrFun h i
    simp [hZ] at this
  obtain ⟨j, hj⟩ := hsm Z hne (euler hom h0 (by omega))
  exact hj (euler hom.pderiv (by rw [Donaldson.pderiv_comm, h0, map_zero]) (by omega))

theorem line_average (hF : Irreducible F) (hom : F.IsHomogeneous e) (he : e ≠ 0) (p : Fin (n + 2)) (d : Fin (n + 1))
    (hd : pderiv (p.succAbove d) F ≠ 0) {φ : (Fin (n + 2) → ℂ) → ℝ≥0∞} (hφ : Measurable φ)
    (hinv : ∀ c : ℂ, c ≠ 0 → ∀ Z, φ (c • Z) = φ Z) :
    ∫⁻ x, ∑' t, {t | eval (linePoint x t) F = 0}.indicator (fun t => φ (linePoint x t)) t ∂lineLaw (n + 2) =
      ENNReal.ofReal (n.factorial / Real.pi ^ n) * ∫⁻ w, ∑' y, (regularSet p d F).indicator
        (fun Z => φ Z * ENNReal.ofReal (gradSq F Z / (∑ k, ‖Z k‖ ^ 2) ^ (n + 1)) /
          ‖eval Z (pderiv (p.succAbove d) F)‖ₑ ^ 2) (hpoint p d 1 y w) := by
  have hlp : ∀ (x : (Fin (n + 2) → ℂ) × (Fin (n + 2) → ℂ)) (t : ℂ), linePoint x t = x.1 + t • x.2 := fun x t => rfl
  have hmS : Measurable fun x : (Fin (n + 2) → ℂ) × (Fin (n + 2) → ℂ) =>
      ∑' t : ℂ, (goodSet p d F x.2).indicator φ (x.1 + t • x.2) := by
    refine measurable_rootSum_indicator F (A := fun x : (Fin (n + 2) → ℂ) × (Fin (n + 2) → ℂ) => x.1) (r := fun x => x.2)
      (G := fun x => goodSet p d F x.2) (k := fun _ => φ) continuous_fst continuous_snd ?_ (fun x Z hZ => ⟨hZ.1, hZ.2.1⟩)
      (hφ.comp (by fun_prop))
    have m1 : Measurable fun z : ((Fin (n + 2) → ℂ) × (Fin (n + 2) → ℂ)) × ℂ => eval (z.1.1 + z.2 • z.1.2) F := by fun_prop
    have m2 : Measurable fun z : ((Fin (n + 2) → ℂ) × (Fin (n + 2) → ℂ)) × ℂ => dirD F z.1.2 (z.1.1 + z.2 • z.1.2) := by fun_prop
    have m3 : Measurable fun z : ((Fin (n + 2) → ℂ) × (Fin (n + 2) → ℂ)) × ℂ =>
        eval (z.1.1 + z.2 • z.1.2) (pderiv (p.succAbove d) F) := by fun_prop
    exact (m1 (measurableSet_singleton 0)).inter ((m2 (measurableSet_singleton 0).compl).inter (m3 (measurableSet_singleton 0).compl))
  have hae : ∀ᵐ x ∂lineLaw (n + 2), ∑' t, {t | eval (linePoint x t) F = 0}.indicator (fun t => φ (linePoint x t)) t =
      ∑' t : ℂ, (goodSet p d F x.2).indicator φ (x.1 + t • x.2) := by
    filter_upwards [ae_transversal hF hom he, ae_avoid hF hom (pderiv (p.succAbove d) F)
      (not_dvd_of_lower hom he hF.ne_zero hom.pderiv hd)] with x h1 h2
    refine tsum_congr fun t => ?_
    by_cases ht : eval (linePoint x t) F = 0
    · rw [indicator_of_mem (show t ∈ {t | eval (linePoint x t) F = 0} from ht),
        indicator_of_mem (show x.1 + t • x.2 ∈ goodSet p d F x.2 from ⟨ht, h1 t ht, h2.2 t ht⟩)]
      rfl
    · rw [indicator_of_notMem (show t ∉ {t | eval (linePoint x t) F = 0} from ht),
        indicator_of_notMem (show x.1 + t • x.2 ∉ goodSet p d F x.2 from fun h => ht h.1)]
  rw [lintegral_congr_ae hae, lineLaw, lintegral_prod_symm _ hmS.aemeasurable, lintegral_cnormal hmS.lintegral_prod_left',
    ← cone_average p d hom hφ hinv]
  refine lintegral_congr fun q => ?_
  congr 1
  exact lintegral_cnormal (hmS.comp (f := fun P => (P, q)) (by fun_prop))

end Cyjax
