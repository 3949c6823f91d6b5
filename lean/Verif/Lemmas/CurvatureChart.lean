import Verif.Lemmas.LocalCoordinates

/-! # Curvature in two charts (for C109) -/

namespace Cyjax.Spec

open scoped ComplexConjugate Topology

variable {k m : ℕ}

/-- The matrix of mixed second derivatives `∂_r ∂̄_s`. -/
noncomputable def levi (f : (Fin k → ℂ) → ℂ) (x : Fin k → ℂ) : Matrix (Fin k) (Fin k) ℂ :=
  Matrix.of fun r s => dzbar (fun v => dz f r v) s x

theorem dhol_differentiable {φ : (Fin k → ℂ) → Fin m → ℂ} {x : Fin k → ℂ} (h : ContDiffAt ℂ 2 φ x) (r : Fin k)
    (a : Fin m) : DifferentiableAt ℂ (fun y => dhol φ r y a) x := by
  have hd : DifferentiableAt ℂ (fderiv ℂ φ) x := (h.fderiv_right (m := 1) (by norm_num)).differentiableAt (by norm_num)
  have h1 : DifferentiableAt ℂ (fun y => fderiv ℂ φ y (Pi.single r 1)) x := hd.clm_apply (differentiableAt_const _)
  exact differentiableAt_pi.1 h1 a

theorem eventually_differentiable {φ : (Fin k → ℂ) → Fin m → ℂ} {x : Fin k → ℂ} (h : ContDiffAt ℂ 2 φ x) :
    ∀ᶠ y in 𝓝 x, DifferentiableAt ℂ φ y := by
  filter_upwards [h.eventually (by norm_num)] with y hy
  exact hy.differentiableAt (by norm_num)

theorem levi_comp_matrix {f : (Fin m → ℂ) → ℂ} {φ : (Fin k → ℂ) → Fin m → ℂ} {x : Fin k → ℂ}
    (hf : ContDiffAt ℝ 2 f (φ x)) (hφ : ContDiffAt ℂ 2 φ x) :
    levi (fun y => f (φ y)) x = (Matrix.of fun r a => dhol φ r x a) * levi f (φ x) *
      (Matrix.of fun r a => dhol φ r x a).conjTranspose := by
  ext r s
  rw [levi, Matrix.of_apply, levi_comp hf (eventually_differentiable hφ) (dhol_differentiable hφ) r s]
  simp only [levi, Matrix.mul_apply, Matrix.conjTranspose_apply, Matrix.of_apply, Finset.sum_mul]
  rw [Finset.sum_comm]
  rfl

theorem levi_add {f g : (Fin k → ℂ) → ℂ} {x : Fin k → ℂ} (hf : ContDiffAt ℝ 2 f x) (hg : ContDiffAt ℝ 2 g x) :
    levi (fun y => f y + g y) x = levi f x + levi g x := by
  have hev : ∀ {f : (Fin k → ℂ) → ℂ}, ContDiffAt ℝ 2 f x → ∀ᶠ w in nhds x, DifferentiableAt ℝ f w := by
    intro f hf
    filter_upwards [hf.eventually (by norm_num)] with w hw
    exact hw.differentiableAt (by norm_num)
  ext r s
  simp only [levi, Matrix.of_apply, Matrix.add_apply]
  have h1 : (fun v => dz (fun y => f y + g y) r v) =ᶠ[𝓝 x] fun v => dz f r v + dz g r v := by
    filter_upwards [hev hf, hev hg] with v hv hv'
    rw [dz_fderiv hv, dz_fderiv hv', dz_fderiv (f := fun y => f y + g y) (hv.add hv'), fderiv_fun_add hv hv']
    simp only [ContinuousLinearMap.add_apply]
    ring
  rw [(line_congr h1 s).2]
  have a1 := dz_differentiable hf r
  have a2 := dz_differentiable hg r
  rw [dzbar_fderiv a1, dzbar_fderiv a2, dzbar_fderiv (f := fun v => dz f r v + dz g r v) (a1.add a2), fderiv_fun_add a1 a2]
  simp only [ContinuousLinearMap.add_apply]
  ring

theorem dzbar_holomorphic {g : (Fin k → ℂ) → ℂ} {x : Fin k → ℂ} (h : DifferentiableAt ℂ g x) (s : Fin k) :
    dzbar g s x = 0 := by
  rw [dzbar_fderiv (h.restrictScalars ℝ), h.fderiv_restrictScalars ℝ]
  have hI : (Pi.single s Complex.I : Fin k → ℂ) = Complex.I • Pi.single s 1 := by
    rw [← Pi.single_smul]; simp
  simp only [ContinuousLinearMap.coe_restrictScalars', hI, map_smul, smul_eq_mul]
  linear_combination (fderiv ℂ g x (Pi.single s 1) / 2) * Complex.I_mul_I

/-- `log |u|²` of a holomorphic function is pluriharmonic. -/
theorem levi_logNorm {u : (Fin k → ℂ) → ℂ} {x : Fin k → ℂ} (hu : ContDiffAt ℂ 2 u x) (h0 : u x ≠ 0) (c : ℝ) :
    levi (fun y => ((c * Real.log (‖u y‖ ^ 2) : ℝ) : ℂ)) x = 0 := by
  have hev : ∀ᶠ v in 𝓝 x, DifferentiableAt ℂ u v ∧ u v ≠ 0 := by
    filter_upwards [hu.eventually (by norm_num), hu.continuousAt.eventually_ne h0] with y hy hy2
    exact ⟨hy.differentiableAt (by norm_num), hy2⟩
  ext r s
  simp only [levi, Matrix.of_apply, Matrix.zero_apply]
  have h1 : (fun v => dz (fun y => ((c * Real.log (‖u y‖ ^ 2) : ℝ) : ℂ)) r v) =ᶠ[𝓝 x]
      fun v => c * (fderiv ℂ u v (Pi.single r 1) / u v) := by
    filter_upwards [hev] with v hv
    have h2 : HasDerivAt (fun t => Function.update v r t) (Pi.single r (1 : ℂ)) (v r) := hasDerivAt_update v r (v r)
    have h3 : HasFDerivAt u (fderiv ℂ u v) (Function.update v r (v r)) := by
      rw [Function.update_eq_self]; exact hv.1.hasFDerivAt
    obtain ⟨b, hb⟩ := Donaldson.logNorm_wirt (h3.comp_hasDerivAt (v r) h2) (by simpa using hv.2)
    have h4 := (hasWirtAt_of_hasDerivAt (hasDerivAt_const (v r) (c : ℂ))).mul hb
    refine (HasWirtAt.dz_eq (F := fun y => ((c * Real.log (‖u y‖ ^ 2) : ℝ) : ℂ)) (h4.congr_fun ?_)).trans ?_
    · filter_upwards with t
      simp
    · simp
  rw [(line_congr h1 s).2]
  refine dzbar_holomorphic ?_ s
  have hd : DifferentiableAt ℂ (fderiv ℂ u) x := (hu.fderiv_right (m := 1) (by norm_num)).differentiableAt (by norm_num)
  have h2 : DifferentiableAt ℂ (fun y => fderiv ℂ u y (Pi.single r 1)) x := hd.clm_apply (differentiableAt_const _)
  simp only [div_eq_mul_inv]
  exact (differentiableAt_const _).mul (h2.mul ((hu.differentiableAt (by norm_num)).inv h0))

end Cyjax.Spec

namespace Cyjax.Differential

/-- A tangent vector in terms of the rows of the Jacobian. -/
theorem tangent_eq {K : Type*} [Field K] {n : ℕ} (G : Fin (n + 1) → K) (d : Fin (n + 1)) (hd : G d ≠ 0) (v : Fin (n + 1) → K)
    (hv : ∑ a, v a * G a = 0) (a : Fin (n + 1)) :
    v a = ∑ s, v (d.succAbove s) * jacobianEmbed G (d : ℕ) s a := by
  rcases Fin.eq_self_or_eq_succAbove d a with rfl | ⟨k, rfl⟩
  · rw [Fin.sum_univ_succAbove _ a] at hv
    simp only [C27_dependent_column]
    have h2 : ∑ s, v (a.succAbove s) * (-G (a.succAbove s) / G a) = -(∑ s, v (a.succAbove s) * G (a.succAbove s)) / G a := by
      rw [← Finset.sum_neg_distrib, Finset.sum_div]
      exact Finset.sum_congr rfl fun s _ => by ring
    rw [h2, eq_neg_of_add_eq_zero_right hv]
    field_simp
  · simp

end Cyjax.Differential

namespace Cyjax.Donaldson

open Cyjax.Spec Cyjax.Differential MvPolynomial
open scoped Topology

variable {n k : ℕ}

/-- A holomorphic map into the hypersurface: its derivative in terms of the rows of the Jacobian. -/
theorem dhol_tangent {P : MvPolynomial (Fin (n + 1)) ℂ} {d : Fin (n + 1)} {ψ : (Fin k → ℂ) → Fin (n + 1) → ℂ} {x : Fin k → ℂ}
    (hψ : DifferentiableAt ℂ ψ x) (h0 : ∀ᶠ y in 𝓝 x, eval (ψ y) P = 0) (hd : eval (ψ x) (pderiv d P) ≠ 0) :
    (Matrix.of fun r a => dhol ψ r x a) = (Matrix.of fun r s => dhol ψ r x (d.succAbove s)) *
      jacobianEmbed (fun i => eval (ψ x) (pderiv i P)) (d : ℕ) := by
  ext r a
  rw [Matrix.mul_apply, Matrix.of_apply]
  refine tangent_eq _ d hd (dhol ψ r x) ?_ a
  have h1 : HasFDerivAt (fun y => eval (ψ y) P) ((fderiv ℂ (fun z => eval z P) (ψ x)).comp (fderiv ℂ ψ x)) x :=
    (((eval_contDiff P 1).differentiable (by norm_num) (ψ x)).hasFDerivAt).comp x hψ.hasFDerivAt
  have h2 : HasFDerivAt (fun y => eval (ψ y) P) (0 : (Fin k → ℂ) →L[ℂ] ℂ) x :=
    (hasFDerivAt_const (0 : ℂ) x).congr_of_eventuallyEq h0
  have h3 := congrArg (fun L => L (Pi.single r 1)) (h1.unique h2)
  simp only [ContinuousLinearMap.comp_apply, ContinuousLinearMap.zero_apply] at h3
  have h4 : fderiv ℂ ψ x (Pi.single r 1) = ∑ a, dhol ψ r x a • (Pi.single a 1 : Fin (n + 1) → ℂ) := by
    funext b
    rw [Finset.sum_apply, Finset.sum_eq_single b]
    · simp [dhol]
    · intro c _ hc
      simp [Pi.single_eq_of_ne hc.symm]
    · simp
  rw [h4, map_sum] at h3
  simpa only [map_smul, smul_eq_mul, fderiv_eval] using h3

end Cyjax.Donaldson
