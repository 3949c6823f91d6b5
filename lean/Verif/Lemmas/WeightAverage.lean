import Verif.Lemmas.SheetMeasure
import Verif.Lemmas.LineAverage
import Verif.Lemmas.Density
import Verif.Spec.Samplable
import Mathlib.RingTheory.MvPolynomial.EulerIdentity

/-! # The average over random lines as an integral over the hypersurface -/

namespace Cyjax

open MeasureTheory MvPolynomial Cyjax.Spec Set Cyjax.Projective Cyjax.Differential
open scoped ENNReal

variable {n : ℕ} (p : Fin (n + 2)) (d : Fin (n + 1)) (F : MvPolynomial (Fin (n + 2)) ℂ)

/-- The density of the points of intersection with random lines. -/
noncomputable def lineRho (Z : Fin (n + 2) → ℂ) : ℝ :=
  n.factorial / Real.pi ^ n * (gradSq F Z / (∑ k, ‖Z k‖ ^ 2) ^ (n + 1) / ‖eval Z (pderiv (p.succAbove d) F)‖ ^ 2)

theorem measurable_lineRho : Measurable (lineRho p d F) := by
  have h1 := measurable_gradSq F
  have h2 : Measurable fun Z : Fin (n + 2) → ℂ => eval Z (pderiv (p.succAbove d) F) :=
    (MvPolynomial.continuous_eval _).measurable
  unfold lineRho
  fun_prop

theorem hpoint_sub (Z : Fin (n + 2) → ℂ) :
    Z = hpoint p d (Z p) (Z (p.succAbove d)) fun k => Z (p.succAbove (d.succAbove k)) := by
  refine ext_hpoint p d ?_ ?_ fun k => ?_
  · rw [hpoint_p]
  · rw [hpoint_d]
  · rw [hpoint_w]

theorem sheetTangent_eq (Z : Fin (n + 2) → ℂ) (k : Fin n) (a : Fin (n + 1)) :
    sheetTangent p d F Z k (p.succAbove a) = jacobianEmbed (fun a => eval Z (pderiv (p.succAbove a) F)) (d : ℕ) k a := by
  rcases Fin.eq_self_or_eq_succAbove d a with rfl | ⟨j, rfl⟩
  · rw [sheetTangent, hpoint_d, jacobianEmbed_dep, neg_div]
  · rw [sheetTangent, hpoint_w, jacobianEmbed_indep, Pi.single_apply]
    simp only [eq_comm]

theorem hermitian_sum {m : ℕ} (u v z : Fin m → ℂ) (N : ℂ) :
    ((∑ a, u a * v a) * N - (∑ a, u a * (starRingEnd ℂ) (z a)) * ∑ b, z b * v b) / N ^ 2 =
      ∑ a, ∑ b, u a * v b * (((if a = b then 1 else 0) * N - (starRingEnd ℂ) (z a) * z b) / N ^ 2) := by
  have h : ∀ a, ∑ b, u a * v b * (((if a = b then 1 else 0) * N - (starRingEnd ℂ) (z a) * z b) / N ^ 2) =
      (u a * v a * N - u a * (starRingEnd ℂ) (z a) * ∑ b, z b * v b) / N ^ 2 := by
    intro a
    have h1 : ∀ b, u a * v b * (((if a = b then 1 else 0) * N - (starRingEnd ℂ) (z a) * z b) / N ^ 2) =
        (if a = b then u a * v b * N / N ^ 2 else 0) - u a * (starRingEnd ℂ) (z a) * (z b * v b) / N ^ 2 := by
      intro b
      split_ifs <;> ring
    simp only [h1, Finset.sum_sub_distrib, Finset.sum_ite_eq, Finset.mem_univ, if_true]
    rw [← Finset.sum_div, ← Finset.mul_sum, sub_div]
  simp only [h]
  rw [← Finset.sum_div, Finset.sum_sub_distrib, ← Finset.sum_mul, ← Finset.sum_mul]

theorem fsHermitian_tangent (Z : Fin (n + 2) → ℂ) (hp : Z p = 1) (k l : Fin n) :
    fsHermitian Z (sheetTangent p d F Z k) (sheetTangent p d F Z l) =
      inducedMetric (fsMetricAt fun a => Z (p.succAbove a)) (fun a => eval Z (pderiv (p.succAbove a) F)) (d : ℕ) none k l := by
  have h0 : ∀ j, sheetTangent p d F Z j p = 0 := fun j => by rw [sheetTangent, hpoint_p]
  have h := hermitian_sum (fun a => sheetTangent p d F Z k (p.succAbove a))
    (fun a => (starRingEnd ℂ) (sheetTangent p d F Z l (p.succAbove a))) (fun a => Z (p.succAbove a))
    (1 + ∑ a, Z (p.succAbove a) * (starRingEnd ℂ) (Z (p.succAbove a)))
  simp only [inducedMetric, pullback, fsMetricAt, fsMetric, conjArr, ← sheetTangent_eq]
  rw [← h]
  simp only [fsHermitian, Fin.sum_univ_succAbove _ p, h0, hp, zero_add, mul_one, mul_zero,
    Complex.star_def, map_one, map_zero]

theorem sum_affine (Z : Fin (n + 2) → ℂ) (hp : Z p = 1) : ∑ k, ‖Z k‖ ^ 2 = 1 + ∑ a, ‖Z (p.succAbove a)‖ ^ 2 := by
  rw [Fin.sum_univ_succAbove _ p, hp, norm_one, one_pow]

variable {F}

theorem fsMeasure_eq {e : ℕ} (hom : F.IsHomogeneous e) : fsMeasure p d F = sheetMeasure p d F (lineRho p d F) := by
  refine sheetMeasure_congr p d F fun Z hZ hp => ?_
  have h1 : (Matrix.of fun k l => fsHermitian Z (sheetTangent p d F Z k) (sheetTangent p d F Z l)) =
      inducedMetric (fsMetricAt fun a => Z (p.succAbove a)) (fun a => eval Z (pderiv (p.succAbove a) F)) (d : ℕ) none := by
    ext k l
    rw [Matrix.of_apply, fsHermitian_tangent p d F Z hp]
  have h2 := Variety.fs_density (fun a => Z (p.succAbove a)) (fun a => eval Z (pderiv (p.succAbove a) F)) d hZ.2
  have hpos : 0 < ‖eval Z (pderiv (p.succAbove d) F)‖ ^ 2 := by
    have := norm_pos_iff.2 hZ.2
    positivity
  rw [h1, lineRho, eq_div_of_mul_eq hpos.ne' h2, gradSq, sum_affine p Z hp, Fin.sum_univ_succAbove _ p, add_comm (‖_‖ ^ 2)]
  congr 5
  have heul := congrArg (eval Z) hom.sum_X_mul_pderiv
  simp only [map_sum, map_mul, eval_X, nsmul_eq_mul, map_natCast] at heul
  rw [Fin.sum_univ_succAbove _ p, hp, one_mul, hZ.1, mul_zero] at heul
  rw [← norm_neg, neg_eq_of_add_eq_zero_left heul]

/-- The sum of `φ` over the points of a line on the hypersurface. -/
noncomputable def lineSum (F : MvPolynomial (Fin (n + 2)) ℂ) (φ : (Fin (n + 2) → ℂ) → ℝ≥0∞)
    (x : (Fin (n + 2) → ℂ) × (Fin (n + 2) → ℂ)) : ℝ≥0∞ :=
  ∑' t, {t | eval (linePoint x t) F = 0}.indicator (fun t => φ (linePoint x t)) t

theorem lineSum_fs {e : ℕ} (hF : Irreducible F) (hom : F.IsHomogeneous e) (he : e ≠ 0)
    (hd : pderiv (p.succAbove d) F ≠ 0) {φ : (Fin (n + 2) → ℂ) → ℝ≥0∞} (hφ : Measurable φ)
    (hinv : ∀ c : ℂ, c ≠ 0 → ∀ Z, φ (c • Z) = φ Z) :
    ∫⁻ x, lineSum F φ x ∂lineLaw (n + 2) = ∫⁻ Z, φ Z ∂fsMeasure p d F := by
  have h := line_average hF hom he p d hd hφ hinv
  unfold lineSum
  rw [h, fsMeasure_eq p d hom, lintegral_sheetMeasure p d F (measurable_lineRho p d F) hφ]
  rw [← lintegral_const_mul' _ _ ENNReal.ofReal_ne_top]
  refine lintegral_congr fun w => ?_
  rw [← ENNReal.tsum_mul_left]
  refine tsum_congr fun y => ?_
  by_cases hy : hpoint p d 1 y w ∈ regularSet p d F
  · rw [indicator_of_mem hy, indicator_of_mem hy]
    have hpos : 0 < ‖eval (hpoint p d 1 y w) (pderiv (p.succAbove d) F)‖ ^ 2 := by
      have := norm_pos_iff.2 hy.2
      positivity
    rw [lineRho, ENNReal.ofReal_mul (by positivity), ENNReal.ofReal_div_of_pos hpos, ENNReal.ofReal_pow (norm_nonneg _),
      ofReal_norm, mul_div_assoc]
    ring
  · rw [indicator_of_notMem hy, indicator_of_notMem hy, mul_zero]

/-- The weight is the ratio of the two densities. -/
theorem weight_lineRho (Z : Fin (n + 2) → ℂ) (hZ : Z ∈ regularSet p d F) (hp : Z p = 1)
    (hw : pointWeight (n + 2) F Z = Real.pi ^ n / n.factorial * ((∑ i, ‖Z i‖ ^ 2) ^ (n + 1) / gradSq F Z)) :
    pointWeight (n + 2) F Z * lineRho p d F Z = 1 / ‖eval Z (pderiv (p.succAbove d) F)‖ ^ 2 := by
  have h1 : 0 < gradSq F Z := by
    have := norm_pos_iff.2 hZ.2
    exact Finset.sum_pos' (fun i _ => sq_nonneg _) ⟨p.succAbove d, Finset.mem_univ _, by positivity⟩
  have h2 : 0 < ∑ i, ‖Z i‖ ^ 2 := by
    rw [sum_affine p Z hp]
    positivity
  have h3 : (0 : ℝ) < n.factorial := by exact_mod_cast n.factorial_pos
  have h4 : 0 < ‖eval Z (pderiv (p.succAbove d) F)‖ := norm_pos_iff.2 hZ.2
  rw [hw, lineRho]
  field_simp

end Cyjax
