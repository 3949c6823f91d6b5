import Verif.Lemmas.RandomLaw
import Mathlib.Probability.Distributions.Gaussian.Multivariate
import Mathlib.LinearAlgebra.UnitaryGroup

/-! # Uniform distribution on spheres (C96) -/

namespace Cyjax

open MeasureTheory ProbabilityTheory Cyjax.Random Cyjax.Spec Matrix
open scoped BigOperators

/-- Rotations do not change the law of the draws. -/
theorem normalRow_map {n : ℕ} (f : (Fin n → ℝ) →ₗ[ℝ] (Fin n → ℝ)) (hf : ∀ x, ∑ i, f x i ^ 2 = ∑ i, x i ^ 2) :
    (normalRow n).map f = normalRow n := by
  set e := (WithLp.linearEquiv 2 ℝ (Fin n → ℝ)) with he
  let F : EuclideanSpace ℝ (Fin n) →ₗᵢ[ℝ] EuclideanSpace ℝ (Fin n) :=
    { toLinearMap := e.symm.toLinearMap ∘ₗ f ∘ₗ e.toLinearMap
      norm_map' := by
        intro x
        rw [EuclideanSpace.norm_eq, EuclideanSpace.norm_eq]
        congr 1
        simp only [Real.norm_eq_abs, sq_abs]
        exact hf (e x) }
  have hF := stdGaussian_map (F.toLinearIsometryEquiv rfl)
  rw [← map_pi_eq_stdGaussian] at hF
  have hm : Measurable (WithLp.toLp 2 : (Fin n → ℝ) → EuclideanSpace ℝ (Fin n)) := by fun_prop
  have hm' : Measurable (WithLp.ofLp : EuclideanSpace ℝ (Fin n) → (Fin n → ℝ)) := by fun_prop
  have hfm : Measurable f := f.continuous_of_finiteDimensional.measurable
  have h2 := congrArg (Measure.map (WithLp.ofLp : EuclideanSpace ℝ (Fin n) → (Fin n → ℝ))) hF
  rw [Measure.map_map (F.toLinearIsometryEquiv rfl).continuous.measurable hm,
    Measure.map_map hm' ((F.toLinearIsometryEquiv rfl).continuous.measurable.comp hm), Measure.map_map hm' hm] at h2
  have hid : (WithLp.ofLp : EuclideanSpace ℝ (Fin n) → (Fin n → ℝ)) ∘ WithLp.toLp 2 = id := rfl
  rw [hid, Measure.map_id] at h2
  exact h2

private theorem realSphere_linear {n : ℕ} (f : (Fin n → ℝ) →ₗ[ℝ] (Fin n → ℝ))
    (hf : ∀ x, ∑ i, f x i ^ 2 = ∑ i, x i ^ 2) (x : Fin n → ℝ) : realSphere (f x) = f (realSphere x) := by
  have h1 : ∀ y : Fin n → ℝ, realSphere y = (Real.sqrt (∑ j, y j ^ 2))⁻¹ • y := by
    intro y
    funext i
    simp [realSphere, div_eq_inv_mul]
  rw [h1, h1, hf, map_smul]

private theorem measurable_realSphere (n : ℕ) : Measurable (realSphere (n := n)) := by
  rw [measurable_pi_iff]
  intro i
  unfold realSphere
  fun_prop

/-- **C96.** The law of a row of `real_sphere` does not change under orthogonal transformations. -/
theorem C96_real {n : ℕ} (O : Matrix (Fin n) (Fin n) ℝ) (hO : O ∈ Matrix.orthogonalGroup (Fin n) ℝ) :
    ((normalRow n).map realSphere).map (fun x => O *ᵥ x) = (normalRow n).map realSphere := by
  have hO' : Oᵀ * O = 1 := (Matrix.mem_orthogonalGroup_iff' (Fin n) ℝ).mp hO
  have hf : ∀ x, ∑ i, O.mulVecLin x i ^ 2 = ∑ i, x i ^ 2 := by
    intro x
    have h : (O *ᵥ x) ⬝ᵥ (O *ᵥ x) = x ⬝ᵥ x := by
      rw [Matrix.dotProduct_mulVec, Matrix.vecMul_mulVec, hO', Matrix.vecMul_one]
    simpa [dotProduct, pow_two] using h
  have hm : Measurable fun x : Fin n → ℝ => O *ᵥ x := O.mulVecLin.continuous_of_finiteDimensional.measurable
  rw [Measure.map_map hm (measurable_realSphere n)]
  conv_rhs => rw [← normalRow_map O.mulVecLin hf, Measure.map_map (measurable_realSphere n) (g := realSphere) (f := O.mulVecLin) hm]
  congr 1
  funext x
  exact (realSphere_linear O.mulVecLin hf x).symm

/-- The draws as complex numbers. -/
private noncomputable def toC {n : ℕ} (x : Fin (2 * n) → ℝ) : Fin n → ℂ :=
  fun i => (x ⟨i, by omega⟩ : ℂ) + Complex.I * (x ⟨n + i, by omega⟩ : ℂ)

private noncomputable def ofC {n : ℕ} (w : Fin n → ℂ) : Fin (2 * n) → ℝ :=
  fun j => if h : (j : ℕ) < n then (w ⟨j, h⟩).re else (w ⟨j - n, by omega⟩).im

private theorem toC_ofC {n : ℕ} (w : Fin n → ℂ) : toC (ofC w) = w := by
  funext i
  unfold toC ofC
  have h1 : (i : ℕ) < n := i.2
  simp only [h1, dif_pos, show ¬ n + (i : ℕ) < n by omega, dif_neg, not_false_eq_true, Nat.add_sub_cancel_left]
  apply Complex.ext <;> simp

private theorem sum_toC {n : ℕ} (x : Fin (2 * n) → ℝ) : ∑ i, ‖toC x i‖ ^ 2 = ∑ i, x i ^ 2 := by
  have hsum : ∀ f : Fin (2 * n) → ℝ, ∑ i, f i =
      ∑ i : Fin n, f ⟨i, by omega⟩ + ∑ i : Fin n, f ⟨n + i, by omega⟩ := by
    intro f
    rw [← Fin.sum_congr' f (by omega : n + n = 2 * n), Fin.sum_univ_add]
    rfl
  rw [hsum, ← Finset.sum_add_distrib]
  refine Finset.sum_congr rfl fun i _ => ?_
  rw [← Complex.normSq_eq_norm_sq, Complex.normSq_apply]
  simp [toC]
  ring

private noncomputable def realify {n : ℕ} (U : Matrix (Fin n) (Fin n) ℂ) : (Fin (2 * n) → ℝ) →ₗ[ℝ] (Fin (2 * n) → ℝ) where
  toFun x := ofC (U *ᵥ toC x)
  map_add' x y := by
    have h : toC (x + y) = toC x + toC y := by
      funext i; simp [toC]; ring
    rw [h, Matrix.mulVec_add]
    funext j
    unfold ofC
    by_cases hj : (j : ℕ) < n <;> simp [hj]
  map_smul' c x := by
    have h : toC (c • x) = (c : ℂ) • toC x := by
      funext i; simp [toC]; ring
    rw [h, Matrix.mulVec_smul]
    funext j
    unfold ofC
    by_cases hj : (j : ℕ) < n <;> simp [hj]

/-- **C96.** The law of a row of `complex_sphere` (and of the homogeneous coordinates of `uniform_projective`) does not
change under unitary transformations. -/
theorem C96_complex {n : ℕ} (U : Matrix (Fin n) (Fin n) ℂ) (hU : U ∈ Matrix.unitaryGroup (Fin n) ℂ) :
    ((normalRow (2 * n)).map complexSphere).map (fun z => U *ᵥ z) = (normalRow (2 * n)).map complexSphere := by
  have hU' : star U * U = 1 := (Matrix.mem_unitaryGroup_iff').mp hU
  have hnorm : ∀ w : Fin n → ℂ, ∑ i, ‖(U *ᵥ w) i‖ ^ 2 = ∑ i, ‖w i‖ ^ 2 := by
    intro w
    have h : star (U *ᵥ w) ⬝ᵥ (U *ᵥ w) = star w ⬝ᵥ w := by
      rw [Matrix.star_mulVec, ← Matrix.dotProduct_mulVec, Matrix.mulVec_mulVec, ← Matrix.star_eq_conjTranspose, hU',
        Matrix.one_mulVec]
    have h2 : ∀ v : Fin n → ℂ, star v ⬝ᵥ v = ((∑ i, ‖v i‖ ^ 2 : ℝ) : ℂ) := by
      intro v
      simp only [dotProduct, Pi.star_apply]
      push_cast
      refine Finset.sum_congr rfl fun i _ => ?_
      rw [← Complex.conj_mul']
      rfl
    rw [h2, h2] at h
    exact_mod_cast h
  have hf : ∀ x, ∑ i, realify U x i ^ 2 = ∑ i, x i ^ 2 := by
    intro x
    rw [← sum_toC, ← sum_toC x]
    change ∑ i, ‖toC (ofC (U *ᵥ toC x)) i‖ ^ 2 = _
    rw [toC_ofC, hnorm]
  have hcs : ∀ x : Fin (2 * n) → ℝ, complexSphere x = toC (realSphere x) := fun x => rfl
  have hm : Measurable fun z : Fin n → ℂ => U *ᵥ z := U.mulVecLin.continuous_of_finiteDimensional.measurable
  have hmc : Measurable (complexSphere (n := n)) := by
    have : Measurable (toC (n := n)) := by
      rw [measurable_pi_iff]
      intro i
      unfold toC
      fun_prop
    exact this.comp (measurable_realSphere _)
  have hmr : Measurable (realify U) := (realify U).continuous_of_finiteDimensional.measurable
  rw [Measure.map_map hm hmc]
  conv_rhs => rw [← normalRow_map (realify U) hf, Measure.map_map hmc hmr]
  congr 1
  funext x
  simp only [Function.comp, hcs]
  rw [realSphere_linear (realify U) hf]
  exact (toC_ofC _).symm

/-- **C96.** Almost surely the draws are not zero, so the law lives on the unit sphere. -/
theorem C96_support (n : ℕ) : ∀ᵐ x ∂((normalRow (n + 1)).map realSphere), ∑ i, x i ^ 2 = 1 := by
  have hset : MeasurableSet {x : Fin (n + 1) → ℝ | ∑ i, x i ^ 2 = 1} := by
    refine measurableSet_eq_fun ?_ measurable_const
    fun_prop
  rw [ae_map_iff (measurable_realSphere _).aemeasurable hset]
  have hne : ∀ᵐ x ∂(normalRow (n + 1)), x ≠ 0 := by
    rw [ae_iff]
    have : {x : Fin (n + 1) → ℝ | ¬ x ≠ 0} = Set.univ.pi fun _ => {0} := by
      ext x
      simp [funext_iff]
    rw [this]
    unfold normalRow
    rw [Measure.pi_pi]
    refine Finset.prod_eq_zero (Finset.mem_univ 0) ?_
    have := noAtoms_gaussianReal (μ := 0) (v := 1) one_ne_zero
    exact measure_singleton 0
  filter_upwards [hne] with x hx
  exact C86_real x hx

/-- A rotation by a quarter turn is orthogonal. -/
example : ((normalRow 2).map realSphere).map (fun x => !![0, -1; 1, 0] *ᵥ x) = (normalRow 2).map realSphere := by
  refine C96_real _ ((Matrix.mem_orthogonalGroup_iff' _ _).mpr ?_)
  ext i j
  fin_cases i <;> fin_cases j <;> simp [Matrix.mul_apply, Fin.sum_univ_two]

end Cyjax
