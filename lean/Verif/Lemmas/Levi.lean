import Verif.Spec.Wirtinger
import Verif.Lemmas.Wirtinger
import Mathlib.Analysis.Calculus.ContDiff.Basic
import Mathlib.Analysis.Calculus.FDeriv.Pi
import Mathlib.Analysis.Calculus.ContDiff.Operations
import Mathlib.Analysis.Complex.RealDeriv
import Mathlib.Algebra.BigOperators.Field
import Mathlib.Analysis.Calculus.FDeriv.Symmetric

/-! # Chain rule for mixed Wirtinger derivatives along holomorphic maps (for C108) -/

namespace Cyjax.Spec

open scoped ComplexConjugate

variable {k m : ℕ}

/-- Real-linear maps in terms of `w` and `conj w`. -/
theorem realLinear_eq (L : (Fin m → ℂ) →L[ℝ] ℂ) (w : Fin m → ℂ) :
    L w = ∑ a, ((L (Pi.single a 1) - Complex.I * L (Pi.single a Complex.I)) / 2 * w a +
      (L (Pi.single a 1) + Complex.I * L (Pi.single a Complex.I)) / 2 * conj (w a)) := by
  have h1 : w = ∑ a, ((w a).re • (Pi.single a 1 : Fin m → ℂ) + (w a).im • (Pi.single a Complex.I : Fin m → ℂ)) := by
    funext b
    rw [Finset.sum_apply, Finset.sum_eq_single b]
    · simp [Complex.re_add_im]
    · intro c _ hc
      simp [Pi.single_eq_of_ne hc.symm]
    · simp
  conv_lhs => rw [h1]
  rw [map_sum]
  refine Finset.sum_congr rfl fun a _ => ?_
  rw [map_add, map_smul, map_smul, Complex.real_smul, Complex.real_smul]
  have e1 : w a = (w a).re + (w a).im * Complex.I := (Complex.re_add_im _).symm
  have e2 : conj (w a) = (w a).re - (w a).im * Complex.I := by
    apply Complex.ext <;> simp
  have := Complex.I_mul_I
  rw [e2]
  generalize L (Pi.single a Complex.I) = y at *
  generalize L (Pi.single a 1) = x at *
  linear_combination (-(x - Complex.I * y) / 2) * e1 + (((w a).im : ℂ) * y) * this

theorem hasFDerivAt_line (z : Fin m → ℂ) (i : Fin m) :
    HasFDerivAt (fun t => Function.update z i t) (ContinuousLinearMap.pi (Pi.single i (ContinuousLinearMap.id ℝ ℂ))) (z i) :=
  hasFDerivAt_update z (z i)

theorem fderiv_line {f : (Fin m → ℂ) → ℂ} {z : Fin m → ℂ} (hf : DifferentiableAt ℝ f z) (i : Fin m) (c : ℂ) :
    fderiv ℝ (fun t => f (Function.update z i t)) (z i) c = fderiv ℝ f z (Pi.single i c) := by
  have h : HasFDerivAt f (fderiv ℝ f z) (Function.update z i (z i)) := by
    rw [Function.update_eq_self]; exact hf.hasFDerivAt
  have h2 := (h.comp (z i) (hasFDerivAt_line z i)).fderiv
  change fderiv ℝ (f ∘ fun t => Function.update z i t) (z i) c = _
  rw [h2, ContinuousLinearMap.comp_apply]
  congr 1
  funext j
  rcases eq_or_ne j i with rfl | hj
  · simp
  · simp [Pi.single_eq_of_ne hj]

theorem dz_fderiv {f : (Fin m → ℂ) → ℂ} {z : Fin m → ℂ} (hf : DifferentiableAt ℝ f z) (i : Fin m) :
    dz f i z = (fderiv ℝ f z (Pi.single i 1) - Complex.I * fderiv ℝ f z (Pi.single i Complex.I)) / 2 := by
  unfold dz
  rw [fderiv_line hf, fderiv_line hf]

theorem dzbar_fderiv {f : (Fin m → ℂ) → ℂ} {z : Fin m → ℂ} (hf : DifferentiableAt ℝ f z) (i : Fin m) :
    dzbar f i z = (fderiv ℝ f z (Pi.single i 1) + Complex.I * fderiv ℝ f z (Pi.single i Complex.I)) / 2 := by
  unfold dzbar
  rw [fderiv_line hf, fderiv_line hf]

theorem fderiv_eq_dz {f : (Fin m → ℂ) → ℂ} {z : Fin m → ℂ} (hf : DifferentiableAt ℝ f z) (w : Fin m → ℂ) :
    fderiv ℝ f z w = ∑ a, (dz f a z * w a + dzbar f a z * conj (w a)) := by
  rw [realLinear_eq]
  simp only [dz_fderiv hf, dzbar_fderiv hf]

/-- The holomorphic partial derivative of the components of a map. -/
noncomputable def dhol (φ : (Fin k → ℂ) → Fin m → ℂ) (r : Fin k) (x : Fin k → ℂ) (a : Fin m) : ℂ :=
  fderiv ℂ φ x (Pi.single r 1) a

/-- Chain rule along a holomorphic map. -/
theorem dz_comp {f : (Fin m → ℂ) → ℂ} {φ : (Fin k → ℂ) → Fin m → ℂ} {x : Fin k → ℂ} (hf : DifferentiableAt ℝ f (φ x))
    (hφ : DifferentiableAt ℂ φ x) (r : Fin k) :
    dz (fun y => f (φ y)) r x = ∑ a, dz f a (φ x) * dhol φ r x a ∧
    dzbar (fun y => f (φ y)) r x = ∑ a, dzbar f a (φ x) * conj (dhol φ r x a) := by
  have hc : HasFDerivAt (fun y => f (φ y)) ((fderiv ℝ f (φ x)).comp ((fderiv ℂ φ x).restrictScalars ℝ)) x :=
    hf.hasFDerivAt.comp x (hφ.hasFDerivAt.restrictScalars ℝ)
  have hI : (Pi.single r Complex.I : Fin k → ℂ) = Complex.I • Pi.single r 1 := by
    rw [← Pi.single_smul]; simp
  have e1 : fderiv ℝ (fun y => f (φ y)) x (Pi.single r 1) =
      ∑ a, (dz f a (φ x) * dhol φ r x a + dzbar f a (φ x) * conj (dhol φ r x a)) := by
    rw [hc.fderiv, ContinuousLinearMap.comp_apply, fderiv_eq_dz hf]
    rfl
  have e2 : fderiv ℝ (fun y => f (φ y)) x (Pi.single r Complex.I) =
      ∑ a, (dz f a (φ x) * (Complex.I * dhol φ r x a) + dzbar f a (φ x) * conj (Complex.I * dhol φ r x a)) := by
    rw [hc.fderiv, ContinuousLinearMap.comp_apply, fderiv_eq_dz hf]
    simp only [ContinuousLinearMap.coe_restrictScalars', hI, map_smul, Pi.smul_apply, smul_eq_mul]
    rfl
  have hII := Complex.I_mul_I
  constructor
  · rw [dz_fderiv hc.differentiableAt, e1, e2, Finset.mul_sum, ← Finset.sum_sub_distrib, Finset.sum_div]
    refine Finset.sum_congr rfl fun a _ => ?_
    rw [map_mul, Complex.conj_I]
    linear_combination (-(dz f a (φ x) * dhol φ r x a) / 2 + dzbar f a (φ x) * conj (dhol φ r x a) / 2) * hII
  · rw [dzbar_fderiv hc.differentiableAt, e1, e2, Finset.mul_sum, ← Finset.sum_add_distrib, Finset.sum_div]
    refine Finset.sum_congr rfl fun a _ => ?_
    rw [map_mul, Complex.conj_I]
    linear_combination ((dz f a (φ x) * dhol φ r x a) / 2 - dzbar f a (φ x) * conj (dhol φ r x a) / 2) * hII

/-- The derivative `∂_a f` of a twice differentiable function is differentiable. -/
theorem dz_differentiable {f : (Fin m → ℂ) → ℂ} {z : Fin m → ℂ} (hf : ContDiffAt ℝ 2 f z) (a : Fin m) :
    DifferentiableAt ℝ (fun w => dz f a w) z := by
  have hd : DifferentiableAt ℝ (fderiv ℝ f) z := (hf.fderiv_right (m := 1) (by norm_num)).differentiableAt (by norm_num)
  have hev : ∀ᶠ w in nhds z, DifferentiableAt ℝ f w := by
    filter_upwards [hf.eventually (by norm_num)] with w hw
    exact hw.differentiableAt (by norm_num)
  have h1 : ∀ c : Fin m → ℂ, DifferentiableAt ℝ (fun w => fderiv ℝ f w c) z := fun c => hd.clm_apply (differentiableAt_const c)
  have h2 : DifferentiableAt ℝ (fun w => (fderiv ℝ f w (Pi.single a 1) -
      Complex.I * fderiv ℝ f w (Pi.single a Complex.I)) / 2) z :=
    (((h1 _).sub ((h1 _).const_mul _)).mul_const (2 : ℂ)⁻¹).congr_of_eventuallyEq
      (Filter.Eventually.of_forall fun _ => div_eq_mul_inv _ _)
  refine h2.congr_of_eventuallyEq ?_
  filter_upwards [hev] with w hw
  exact dz_fderiv hw a

/-- Chain rule for the mixed second derivative (Levi form) along a holomorphic map. -/
theorem levi_comp {f : (Fin m → ℂ) → ℂ} {φ : (Fin k → ℂ) → Fin m → ℂ} {x : Fin k → ℂ} (hf : ContDiffAt ℝ 2 f (φ x))
    (hφ : ∀ᶠ y in nhds x, DifferentiableAt ℂ φ y)
    (hφ2 : ∀ r a, DifferentiableAt ℂ (fun y => dhol φ r y a) x) (r s : Fin k) :
    dzbar (fun v => dz (fun y => f (φ y)) r v) s x =
      ∑ a, ∑ b, dhol φ r x a * dzbar (fun v => dz f a v) b (φ x) * conj (dhol φ s x b) := by
  have hφx := hφ.self_of_nhds
  have hev : ∀ᶠ y in nhds x, DifferentiableAt ℝ f (φ y) := by
    refine hφx.continuousAt.eventually ?_
    filter_upwards [hf.eventually (by norm_num)] with w hw
    exact hw.differentiableAt (by norm_num)
  have h1 : (fun v => dz (fun y => f (φ y)) r v) =ᶠ[nhds x] fun v => ∑ a, dz f a (φ v) * dhol φ r v a := by
    filter_upwards [hev, hφ] with v hv hv2
    exact (dz_comp hv hv2 r).1
  have hg : ∀ a, DifferentiableAt ℝ (fun v => dz f a (φ v)) x := fun a =>
    (dz_differentiable hf a).comp x (hφx.restrictScalars ℝ)
  have hprod : ∀ a, DifferentiableAt ℝ (fun v => dz f a (φ v) * dhol φ r v a) x := fun a =>
    (hg a).mul ((hφ2 r a).restrictScalars ℝ)
  have hsum : DifferentiableAt ℝ (fun v => ∑ a, dz f a (φ v) * dhol φ r v a) x := by
    exact DifferentiableAt.fun_sum fun a _ => hprod a
  have hd : DifferentiableAt ℝ (fun v => dz (fun y => f (φ y)) r v) x := hsum.congr_of_eventuallyEq h1
  have e1 : dzbar (fun v => dz (fun y => f (φ y)) r v) s x = dzbar (fun v => ∑ a, dz f a (φ v) * dhol φ r v a) s x := by
    rw [dzbar_fderiv hd, dzbar_fderiv hsum, h1.fderiv_eq]
  rw [e1]
  have hI : (Pi.single s Complex.I : Fin k → ℂ) = Complex.I • Pi.single s 1 := by
    rw [← Pi.single_smul]; simp
  have key : ∀ c, fderiv ℝ (fun v => ∑ a, dz f a (φ v) * dhol φ r v a) x c =
      ∑ a, (dz f a (φ x) * fderiv ℂ (fun y => dhol φ r y a) x c + dhol φ r x a * fderiv ℝ (fun v => dz f a (φ v)) x c) := by
    intro c
    rw [fderiv_fun_sum fun a _ => hprod a, ContinuousLinearMap.sum_apply]
    refine Finset.sum_congr rfl fun a _ => ?_
    rw [fderiv_fun_mul (hg a) ((hφ2 r a).restrictScalars ℝ), (hφ2 r a).fderiv_restrictScalars ℝ]
    rfl
  rw [dzbar_fderiv hsum, key, key, hI]
  simp only [map_smul, smul_eq_mul]
  have hc : ∀ a, dzbar (fun v => dz f a (φ v)) s x = ∑ b, dzbar (fun v => dz f a v) b (φ x) * conj (dhol φ s x b) :=
    fun a => (dz_comp (dz_differentiable hf a) hφx s).2
  have hII := Complex.I_mul_I
  rw [Finset.mul_sum, ← Finset.sum_add_distrib, Finset.sum_div]
  refine Finset.sum_congr rfl fun a _ => ?_
  have h3 := hc a
  rw [dzbar_fderiv (hg a), hI] at h3
  simp only [mul_assoc, ← Finset.mul_sum]
  rw [← h3]
  linear_combination (dz f a (φ x) * fderiv ℂ (fun y => dhol φ r y a) x (Pi.single s 1) / 2) * hII

theorem fderiv2 {f : (Fin m → ℂ) → ℂ} {z : Fin m → ℂ} (hf : ContDiffAt ℝ 2 f z) (c : Fin m → ℂ) :
    HasFDerivAt (fun w => fderiv ℝ f w c) ((fderiv ℝ (fderiv ℝ f) z).flip c) z := by
  have hd : DifferentiableAt ℝ (fderiv ℝ f) z := (hf.fderiv_right (m := 1) (by norm_num)).differentiableAt (by norm_num)
  have h := hd.hasFDerivAt.clm_apply (hasFDerivAt_const c z)
  simpa using h

/-- The mixed Wirtinger derivatives commute on twice continuously differentiable functions. -/
theorem dz_dzbar_comm {f : (Fin m → ℂ) → ℂ} {z : Fin m → ℂ} (hf : ContDiffAt ℝ 2 f z) (i j : Fin m) :
    dz (fun w => dzbar f j w) i z = dzbar (fun w => dz f i w) j z := by
  have hev : ∀ᶠ w in nhds z, DifferentiableAt ℝ f w := by
    filter_upwards [hf.eventually (by norm_num)] with w hw
    exact hw.differentiableAt (by norm_num)
  have hsym : IsSymmSndFDerivAt ℝ f z := hf.isSymmSndFDerivAt (by simp)
  have h1 : HasFDerivAt (fun w => dzbar f j w) ((2 : ℂ)⁻¹ • ((fderiv ℝ (fderiv ℝ f) z).flip (Pi.single j 1) +
      Complex.I • (fderiv ℝ (fderiv ℝ f) z).flip (Pi.single j Complex.I))) z := by
    refine (((fderiv2 hf _).add ((fderiv2 hf _).const_mul Complex.I)).const_mul (2 : ℂ)⁻¹).congr_of_eventuallyEq ?_
    filter_upwards [hev] with w hw
    rw [dzbar_fderiv hw]
    simp only [Pi.add_apply]
    ring
  have h2 : HasFDerivAt (fun w => dz f i w) ((2 : ℂ)⁻¹ • ((fderiv ℝ (fderiv ℝ f) z).flip (Pi.single i 1) -
      Complex.I • (fderiv ℝ (fderiv ℝ f) z).flip (Pi.single i Complex.I))) z := by
    refine (((fderiv2 hf _).sub ((fderiv2 hf _).const_mul Complex.I)).const_mul (2 : ℂ)⁻¹).congr_of_eventuallyEq ?_
    filter_upwards [hev] with w hw
    rw [dz_fderiv hw]
    simp only [Pi.sub_apply]
    ring
  rw [dz_fderiv h1.differentiableAt, dzbar_fderiv h2.differentiableAt, h1.fderiv, h2.fderiv]
  simp only [ContinuousLinearMap.smul_apply, ContinuousLinearMap.add_apply, ContinuousLinearMap.sub_apply,
    ContinuousLinearMap.flip_apply, smul_eq_mul]
  rw [hsym.eq (Pi.single j 1) (Pi.single i 1), hsym.eq (Pi.single j 1) (Pi.single i Complex.I),
    hsym.eq (Pi.single j Complex.I) (Pi.single i 1), hsym.eq (Pi.single j Complex.I) (Pi.single i Complex.I)]
  ring

theorem line_congr {f g : (Fin m → ℂ) → ℂ} {z : Fin m → ℂ} (h : f =ᶠ[nhds z] g) (i : Fin m) :
    dz f i z = dz g i z ∧ dzbar f i z = dzbar g i z := by
  have hc : Filter.Tendsto (fun t => Function.update z i t) (nhds (z i)) (nhds z) := by
    have : ContinuousAt (fun t => Function.update z i t) (z i) := (continuous_const.update i continuous_id).continuousAt
    simpa using this.tendsto
  have h2 : (fun t => f (Function.update z i t)) =ᶠ[nhds (z i)] fun t => g (Function.update z i t) := hc.eventually h
  unfold dz dzbar
  rw [h2.fderiv_eq]
  exact ⟨rfl, rfl⟩

/-- The mixed second derivative depends only on the function near the point. -/
theorem levi_congr {f g : (Fin m → ℂ) → ℂ} {z : Fin m → ℂ} (h : f =ᶠ[nhds z] g) (i j : Fin m) :
    dzbar (fun v => dz f i v) j z = dzbar (fun v => dz g i v) j z := by
  refine (line_congr ?_ j).2
  filter_upwards [h.eventuallyEq_nhds] with v hv
  exact (line_congr hv i).1

end Cyjax.Spec
