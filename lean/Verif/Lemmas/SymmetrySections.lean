import Verif.Lemmas.Symmetry
import Verif.Props.Balanced

/-! # Donaldson's T operator and the symmetries of a hypersurface (C155) -/

namespace Cyjax

open MeasureTheory MvPolynomial Cyjax.Spec Set Matrix
open scoped ENNReal ComplexConjugate ComplexOrder

variable {n N k : ℕ} {F : MvPolynomial (Fin (n + 2)) ℂ} {s : Fin N → MvPolynomial (Fin (n + 2)) ℂ}
  {U : Matrix (Fin (n + 2)) (Fin (n + 2)) ℂ} {R : Matrix (Fin N) (Fin N) ℂ}

theorem pull_apply (R h : Matrix (Fin N) (Fin N) ℂ) (c d : Fin N) :
    (R.transpose * h * R.transpose.conjTranspose) c d = ∑ a, ∑ b, R a c * h a b * conj (R b d) := by
  simp only [Matrix.mul_apply, Matrix.transpose_apply, Matrix.conjTranspose_apply, Finset.sum_mul]
  rw [Finset.sum_comm]
  rfl

theorem pull_posDef (hR : IsUnit R.det) {h : Matrix (Fin N) (Fin N) ℂ} (hh : h.PosDef) :
    (R.transpose * h * R.transpose.conjTranspose).PosDef := by
  refine hh.mul_mul_conjTranspose_same ?_
  refine Matrix.vecMul_injective_of_isUnit ?_
  rw [Matrix.isUnit_iff_isUnit_det, Matrix.det_transpose]
  exact hR

theorem psiAt_mulVec (hR : ActsBy F s U R) (h : Matrix (Fin N) (Fin N) ℂ) (Z : Fin (n + 2) → ℂ) (hZ : eval Z F = 0) :
    psiAt s h (U *ᵥ Z) = psiAt s (R.transpose * h * R.transpose.conjTranspose) Z := by
  simp only [psiAt, hR Z hZ, pull_apply, map_sum, map_mul, Finset.sum_mul, Finset.mul_sum]
  have e : ∀ f : Fin N → Fin N → Fin N → Fin N → ℂ, ∑ a, ∑ b, ∑ d, ∑ c, f a b d c = ∑ c, ∑ d, ∑ a, ∑ b, f a b d c := by
    intro f
    calc ∑ a, ∑ b, ∑ d, ∑ c, f a b d c = ∑ a, ∑ b, ∑ c, ∑ d, f a b d c :=
          Finset.sum_congr rfl fun a _ => Finset.sum_congr rfl fun b _ => Finset.sum_comm
      _ = ∑ a, ∑ c, ∑ b, ∑ d, f a b d c := Finset.sum_congr rfl fun a _ => Finset.sum_comm
      _ = ∑ c, ∑ a, ∑ b, ∑ d, f a b d c := Finset.sum_comm
      _ = ∑ c, ∑ a, ∑ d, ∑ b, f a b d c := Finset.sum_congr rfl fun a _ => Finset.sum_congr rfl fun b _ => Finset.sum_comm
      _ = _ := Finset.sum_congr rfl fun a _ => Finset.sum_comm
  rw [e]
  refine Finset.sum_congr rfl fun c _ => Finset.sum_congr rfl fun d _ => Finset.sum_congr rfl fun a _ =>
    Finset.sum_congr rfl fun b _ => ?_
  ring

theorem tFun_mulVec (hR : ActsBy F s U R) (h : Matrix (Fin N) (Fin N) ℂ) (a b : Fin N) (Z : Fin (n + 2) → ℂ)
    (hZ : eval Z F = 0) : tFun s h a b (U *ᵥ Z) =
      ∑ c, ∑ d, R a c * tFun s (R.transpose * h * R.transpose.conjTranspose) c d Z * conj (R b d) := by
  unfold tFun
  rw [psiAt_mulVec hR h Z hZ, hR Z hZ, hR Z hZ, map_sum, Finset.sum_mul_sum, Finset.sum_div]
  refine Finset.sum_congr rfl fun c _ => ?_
  rw [Finset.sum_div]
  refine Finset.sum_congr rfl fun d _ => ?_
  rw [map_mul]
  ring

/-- The T operator and a symmetry. -/
theorem tIntegral_pull (hs : ∀ a, (s a).IsHomogeneous k) {μ : Measure (Fin (n + 2) → ℂ)}
    (hinv : ∀ φ : (Fin (n + 2) → ℂ) → ℝ≥0∞, Measurable φ → (∀ c : ℂ, c ≠ 0 → ∀ Z, φ (c • Z) = φ Z) →
      ∫⁻ Z, φ (U *ᵥ Z) ∂μ = ∫⁻ Z, φ Z ∂μ)
    (hae : ∀ᵐ Z ∂μ, eval Z F = 0) (hR : ActsBy F s U R) (h : Matrix (Fin N) (Fin N) ℂ)
    (i1 : ∀ a b, Integrable (tFun s h a b) μ)
    (i2 : ∀ a b, Integrable (tFun s (R.transpose * h * R.transpose.conjTranspose) a b) μ) :
    tIntegral s h μ = R * tIntegral s (R.transpose * h * R.transpose.conjTranspose) μ * R.conjTranspose := by
  set h' := R.transpose * h * R.transpose.conjTranspose with hh'
  have hUm := (continuous_mulVec U).measurable
  ext a b
  have hcongr : (fun Z => tFun s h a b (U *ᵥ Z)) =ᵐ[μ] fun Z => ∑ c, ∑ d, R a c * tFun s h' c d Z * conj (R b d) := by
    filter_upwards [hae] with Z hZ
    exact tFun_mulVec hR h a b Z hZ
  have hi : ∀ c d, Integrable (fun Z => R a c * tFun s h' c d Z * conj (R b d)) μ := fun c d =>
    ((i2 c d).const_mul _).mul_const _
  have hi3 : Integrable (fun Z => tFun s h a b (U *ᵥ Z)) μ :=
    (integrable_congr hcongr).2 (integrable_finsetSum _ fun c _ => integrable_finsetSum _ fun d _ => hi c d)
  have hsm := (measurable_tFun s h a b).aestronglyMeasurable (μ := μ.map fun Z => U *ᵥ Z)
  have e1 : ∫ Z, tFun s h a b Z ∂μ = ∑ c, ∑ d, R a c * (∫ Z, tFun s h' c d Z ∂μ) * conj (R b d) := by
    rw [integral_invariant (μ' := μ.map fun Z => U *ᵥ Z) (fun φ hφ hφi => by rw [lintegral_map hφ hUm, hinv φ hφ hφi])
      (measurable_tFun s h a b) (tFun_smul s hs h a b) (i1 a b) ((integrable_map_measure hsm hUm.aemeasurable).2 hi3),
      integral_map hUm.aemeasurable hsm, integral_congr_ae hcongr,
      integral_finsetSum _ fun c _ => integrable_finsetSum _ fun d _ => hi c d]
    refine Finset.sum_congr rfl fun c _ => ?_
    rw [integral_finsetSum _ fun d _ => hi c d]
    refine Finset.sum_congr rfl fun d _ => ?_
    rw [integral_mul_const, integral_const_mul]
  rw [tIntegral_apply, e1, Matrix.mul_apply, Finset.mul_sum]
  simp only [Matrix.mul_apply, Matrix.conjTranspose_apply, Finset.sum_mul, tIntegral_apply]
  rw [Finset.sum_comm (γ := Fin N)]
  refine Finset.sum_congr rfl fun c _ => ?_
  rw [Finset.mul_sum]
  refine Finset.sum_congr rfl fun d _ => ?_
  rw [Complex.star_def]
  ring

/-- The step with exact integrals commutes with the symmetries. -/
theorem inv_transpose_pull (hR : IsUnit R.det) {T T' : Matrix (Fin N) (Fin N) ℂ} (hT : T = R * T' * R.conjTranspose) :
    T'⁻¹.transpose = R.transpose * T⁻¹.transpose * R.transpose.conjTranspose := by
  have hRc : IsUnit R.conjTranspose.det := by
    rw [Matrix.det_conjTranspose]
    exact hR.star
  have e : T'⁻¹ = R.conjTranspose * T⁻¹ * R := by
    rw [hT, Matrix.mul_inv_rev, Matrix.mul_inv_rev, Matrix.mul_nonsing_inv_cancel_left _ _ hRc,
      Matrix.nonsing_inv_mul_cancel_right _ _ hR]
  rw [e, Matrix.transpose_mul, Matrix.transpose_mul, Matrix.mul_assoc]
  rfl

end Cyjax
