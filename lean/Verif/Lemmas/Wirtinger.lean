import Verif.Spec.Wirtinger
import Mathlib.Analysis.Calculus.Deriv.Inv
import Mathlib.Analysis.Calculus.Deriv.Comp
import Mathlib.Analysis.Calculus.FDeriv.Mul
import Mathlib.Analysis.Calculus.FDeriv.Add
import Mathlib.Analysis.SpecialFunctions.Complex.LogDeriv
import Mathlib.Analysis.Complex.RealDeriv
import Mathlib.LinearAlgebra.Matrix.Adjugate
import Mathlib.Tactic.FieldSimp

/-! # Calculus of Wirtinger derivatives -/

namespace Cyjax.Spec

open scoped ComplexConjugate

variable {f g : ℂ → ℂ} {a b c d w : ℂ}

theorem HasWirtAt.congr_coeff (h : HasWirtAt f a b w) (ha : a = c) (hb : b = d) : HasWirtAt f c d w := by
  subst ha hb; exact h

theorem HasWirtAt.congr_fun (h : HasWirtAt f a b w) (hfg : g =ᶠ[nhds w] f) : HasWirtAt g a b w :=
  HasFDerivAt.congr_of_eventuallyEq h hfg

theorem hasWirtAt_const (k w : ℂ) : HasWirtAt (fun _ => k) 0 0 w := by
  unfold HasWirtAt
  refine (hasFDerivAt_const (𝕜 := ℝ) k w).congr_fderiv ?_
  ext
  simp

theorem HasWirtAt.add (hf : HasWirtAt f a b w) (hg : HasWirtAt g c d w) :
    HasWirtAt (fun t => f t + g t) (a + c) (b + d) w := by
  unfold HasWirtAt at *
  refine (HasFDerivAt.add hf hg).congr_fderiv ?_
  ext
  simp
  ring

theorem HasWirtAt.sub (hf : HasWirtAt f a b w) (hg : HasWirtAt g c d w) :
    HasWirtAt (fun t => f t - g t) (a - c) (b - d) w := by
  unfold HasWirtAt at *
  refine (HasFDerivAt.sub hf hg).congr_fderiv ?_
  ext
  simp
  ring

theorem HasWirtAt.mul (hf : HasWirtAt f a b w) (hg : HasWirtAt g c d w) :
    HasWirtAt (fun t => f t * g t) (a * g w + f w * c) (b * g w + f w * d) w := by
  unfold HasWirtAt at *
  refine (HasFDerivAt.mul hf hg).congr_fderiv ?_
  ext
  simp
  ring

theorem HasWirtAt.sum {ι : Type*} (s : Finset ι) {F : ι → ℂ → ℂ} {A B : ι → ℂ}
    (h : ∀ i ∈ s, HasWirtAt (F i) (A i) (B i) w) :
    HasWirtAt (fun t => ∑ i ∈ s, F i t) (∑ i ∈ s, A i) (∑ i ∈ s, B i) w := by
  classical
  induction s using Finset.induction_on with
  | empty => simpa using hasWirtAt_const 0 w
  | insert i s hi ih =>
    simp only [Finset.sum_insert hi]
    exact (h i (by simp)).add (ih fun j hj => h j (by simp [hj]))

/-- A holomorphic function has no antiholomorphic derivative. -/
theorem hasWirtAt_of_hasDerivAt (h : HasDerivAt f a w) : HasWirtAt f a 0 w := by
  unfold HasWirtAt
  refine (h.hasFDerivAt.restrictScalars ℝ).congr_fderiv ?_
  ext
  simp [mul_comm]

theorem HasWirtAt.conj (hf : HasWirtAt f a b w) : HasWirtAt (fun t => conj (f t)) (conj b) (conj a) w := by
  unfold HasWirtAt at *
  refine ((Complex.conjCLE : ℂ →L[ℝ] ℂ).hasFDerivAt.comp w hf).congr_fderiv ?_
  ext
  simp
  ring

/-- Chain rule with a holomorphic outer function. -/
theorem HasWirtAt.comp_deriv {k : ℂ → ℂ} {k' : ℂ} (hf : HasWirtAt f a b w) (hk : HasDerivAt k k' (f w)) :
    HasWirtAt (fun t => k (f t)) (k' * a) (k' * b) w := by
  unfold HasWirtAt at *
  refine ((hk.hasFDerivAt.restrictScalars ℝ).comp w hf).congr_fderiv ?_
  ext
  simp
  ring

theorem HasWirtAt.inv (hf : HasWirtAt f a b w) (h0 : f w ≠ 0) :
    HasWirtAt (fun t => (f t)⁻¹) (-a / f w ^ 2) (-b / f w ^ 2) w := by
  refine (hf.comp_deriv (hasDerivAt_inv h0)).congr_coeff ?_ ?_ <;> ring

theorem HasWirtAt.div (hf : HasWirtAt f a b w) (hg : HasWirtAt g c d w) (h0 : g w ≠ 0) :
    HasWirtAt (fun t => f t / g t) ((a * g w - f w * c) / g w ^ 2) ((b * g w - f w * d) / g w ^ 2) w := by
  refine ((hf.mul (hg.inv h0)).congr_coeff ?_ ?_) <;> field_simp <;> ring

theorem HasWirtAt.pow (hf : HasWirtAt f a b w) (k : ℕ) :
    HasWirtAt (fun t => f t ^ k) (k * f w ^ (k - 1) * a) (k * f w ^ (k - 1) * b) w :=
  hf.comp_deriv (hasDerivAt_pow k (f w))

theorem HasWirtAt.log (hf : HasWirtAt f a b w) (h0 : f w ∈ Complex.slitPlane) :
    HasWirtAt (fun t => Complex.log (f t)) (a / f w) (b / f w) w := by
  refine (hf.comp_deriv (Complex.hasDerivAt_log h0)).congr_coeff ?_ ?_ <;> ring

theorem HasWirtAt.const_mul (k : ℂ) (hf : HasWirtAt f a b w) : HasWirtAt (fun t => k * f t) (k * a) (k * b) w := by
  refine ((hasWirtAt_const k w).mul hf).congr_coeff ?_ ?_ <;> ring

theorem HasWirtAt.mul_const (k : ℂ) (hf : HasWirtAt f a b w) : HasWirtAt (fun t => f t * k) (a * k) (b * k) w := by
  refine (hf.mul (hasWirtAt_const k w)).congr_coeff ?_ ?_ <;> ring

theorem HasWirtAt.div_const (k : ℂ) (hf : HasWirtAt f a b w) : HasWirtAt (fun t => f t / k) (a / k) (b / k) w := by
  simpa only [div_eq_mul_inv] using hf.mul_const k⁻¹

theorem HasWirtAt.continuousAt (hf : HasWirtAt f a b w) : ContinuousAt f w := HasFDerivAt.continuousAt hf

theorem HasWirtAt.prod {ι : Type*} [DecidableEq ι] (s : Finset ι) {F : ι → ℂ → ℂ} {A B : ι → ℂ}
    (h : ∀ i ∈ s, HasWirtAt (F i) (A i) (B i) w) :
    HasWirtAt (fun t => ∏ i ∈ s, F i t) (∑ i ∈ s, (∏ j ∈ s.erase i, F j w) * A i)
      (∑ i ∈ s, (∏ j ∈ s.erase i, F j w) * B i) w := by
  induction s using Finset.induction_on with
  | empty => simpa using hasWirtAt_const 1 w
  | insert i s hi ih =>
    simp only [Finset.prod_insert hi]
    have key : ∀ A : ι → ℂ, A i * ∏ j ∈ s, F j w + F i w * ∑ x ∈ s, (∏ j ∈ s.erase x, F j w) * A x =
        ∑ x ∈ insert i s, (∏ j ∈ (insert i s).erase x, F j w) * A x := by
      intro A
      rw [Finset.sum_insert hi, Finset.erase_insert hi, Finset.mul_sum, mul_comm]
      congr 1
      refine Finset.sum_congr rfl fun x hx => ?_
      have hxi : x ≠ i := fun h => hi (h ▸ hx)
      rw [Finset.erase_insert_of_ne hxi.symm, Finset.prod_insert (by simp [hi])]
      ring
    exact ((h i (by simp)).mul (ih fun j hj => h j (by simp [hj]))).congr_coeff (key A) (key B)

/-- Jacobi's formula. -/
theorem HasWirtAt.det {m : ℕ} {M : Fin m → Fin m → ℂ → ℂ} {A B : Fin m → Fin m → ℂ}
    (h : ∀ i j, HasWirtAt (M i j) (A i j) (B i j) w) :
    HasWirtAt (fun t => (Matrix.of fun i j => M i j t).det)
      (∑ i, ∑ j, (Matrix.of fun i j => M i j w).adjugate j i * A i j)
      (∑ i, ∑ j, (Matrix.of fun i j => M i j w).adjugate j i * B i j) w := by
  have key : ∀ A : Fin m → Fin m → ℂ,
      ∑ σ : Equiv.Perm (Fin m), ((Equiv.Perm.sign σ : ℤ) : ℂ) *
        ∑ i, (∏ j ∈ Finset.univ.erase i, M (σ j) j w) * A (σ i) i =
      ∑ i, ∑ j, (Matrix.of fun i j => M i j w).adjugate j i * A i j := by
    intro A
    have h1 : ∀ j, ∑ i, (Matrix.of fun i j => M i j w).adjugate j i * A i j =
        ((Matrix.of fun i j => M i j w).updateCol j fun i => A i j).det := by
      intro j
      rw [← Matrix.cramer_apply, Matrix.cramer_eq_adjugate_mulVec]
      rfl
    rw [Finset.sum_comm]
    simp only [h1, Matrix.det_apply']
    rw [Finset.sum_comm]
    refine Finset.sum_congr rfl fun σ _ => ?_
    rw [Finset.mul_sum]
    refine Finset.sum_congr rfl fun i _ => ?_
    congr 1
    rw [← Finset.mul_prod_erase Finset.univ _ (Finset.mem_univ i), mul_comm]
    congr 1
    · simp
    · refine Finset.prod_congr rfl fun j hj => ?_
      rw [Matrix.updateCol_ne (Finset.ne_of_mem_erase hj)]
      rfl
  simp only [Matrix.det_apply', Matrix.of_apply]
  refine HasWirtAt.congr_coeff (HasWirtAt.sum _ fun σ _ => ((HasWirtAt.prod Finset.univ fun i _ => h (σ i) i).const_mul _)) ?_ ?_
  · exact key A
  · exact key B

theorem HasWirtAt.dz_eq {n : ℕ} {F : (Fin n → ℂ) → ℂ} {i : Fin n} {z : Fin n → ℂ}
    (h : HasWirtAt (fun t => F (Function.update z i t)) a b (z i)) : dz F i z = a := by
  unfold dz
  rw [HasFDerivAt.fderiv h]
  simp
  have := Complex.I_mul_I
  linear_combination (-(a - b) / 2) * this

theorem HasWirtAt.dzbar_eq {n : ℕ} {F : (Fin n → ℂ) → ℂ} {i : Fin n} {z : Fin n → ℂ}
    (h : HasWirtAt (fun t => F (Function.update z i t)) a b (z i)) : dzbar F i z = b := by
  unfold dzbar
  rw [HasFDerivAt.fderiv h]
  simp
  have := Complex.I_mul_I
  linear_combination ((a - b) / 2) * this

end Cyjax.Spec
