import Verif.Lemmas.Levi
import Mathlib.Analysis.Complex.AbsMax
import Mathlib.Analysis.Complex.Harmonic.Analytic

/-! # The maximum principle for functions with vanishing mixed derivatives (for C138) -/

namespace Cyjax.Spec

open Filter Topology InnerProductSpace
open scoped ComplexConjugate

variable {m : ℕ}

/-- In one variable the mixed derivative is the Laplace operator. -/
theorem laplacian_of_levi {g : ℂ → ℝ} {t : ℂ} (hg : ContDiffAt ℝ 2 g t)
    (h0 : dzbar (fun v : Fin 1 → ℂ => dz (fun y : Fin 1 → ℂ => ((g (y 0) : ℝ) : ℂ)) 0 v) 0 (fun _ => t) = 0) :
    Laplacian.laplacian g t = 0 := by
  have hupd : ∀ a b : ℂ, Function.update (fun _ : Fin 1 => a) 0 b = fun _ => b := by
    intro a b
    funext i
    fin_cases i
    rfl
  have hd : DifferentiableAt ℝ (fderiv ℝ g) t := (hg.fderiv_right (m := 1) (by norm_num)).differentiableAt (by norm_num)
  set B := fderiv ℝ (fderiv ℝ g) t with hB
  have h2 : ∀ c : ℂ, HasFDerivAt (fun s => fderiv ℝ g s c) (B.flip c) t := by
    intro c
    have h := hd.hasFDerivAt.clm_apply (hasFDerivAt_const c t)
    simpa using h
  have hev : ∀ᶠ s in 𝓝 t, dz (fun y : Fin 1 → ℂ => ((g (y 0) : ℝ) : ℂ)) 0 (fun _ => s) =
      (((fderiv ℝ g s 1 : ℝ) : ℂ) - Complex.I * ((fderiv ℝ g s Complex.I : ℝ) : ℂ)) / 2 := by
    filter_upwards [hg.eventually (by norm_num)] with s hs
    have h3 : HasFDerivAt (fun s => ((g s : ℝ) : ℂ)) (Complex.ofRealCLM.comp (fderiv ℝ g s)) s :=
      Complex.ofRealCLM.hasFDerivAt.comp s (hs.differentiableAt (by norm_num)).hasFDerivAt
    unfold dz
    simp only [hupd, h3.fderiv]
    rfl
  have h4 : HasFDerivAt (fun s => dz (fun y : Fin 1 → ℂ => ((g (y 0) : ℝ) : ℂ)) 0 (fun _ => s))
      ((2 : ℂ)⁻¹ • (Complex.ofRealCLM.comp (B.flip 1) - Complex.I • Complex.ofRealCLM.comp (B.flip Complex.I))) t := by
    refine (((Complex.ofRealCLM.hasFDerivAt.comp t (h2 1)).sub
      ((Complex.ofRealCLM.hasFDerivAt.comp t (h2 Complex.I)).const_mul Complex.I)).const_mul (2 : ℂ)⁻¹).congr_of_eventuallyEq ?_
    filter_upwards [hev] with s hs
    rw [hs, div_eq_inv_mul]
    rfl
  have h5 : dzbar (fun v : Fin 1 → ℂ => dz (fun y : Fin 1 → ℂ => ((g (y 0) : ℝ) : ℂ)) 0 v) 0 (fun _ => t) =
      ((2 : ℂ)⁻¹ * ((B 1 1 : ℝ) - Complex.I * (B 1 Complex.I : ℝ)) +
        Complex.I * ((2 : ℂ)⁻¹ * ((B Complex.I 1 : ℝ) - Complex.I * (B Complex.I Complex.I : ℝ)))) / 2 := by
    conv_lhs => unfold dzbar
    simp only [hupd, h4.fderiv]
    simp
  rw [h5] at h0
  have h6 := congrArg Complex.re h0
  have h7 : B 1 1 + B Complex.I Complex.I = 0 := by
    have e : ((2 : ℂ)⁻¹ * ((B 1 1 : ℝ) - Complex.I * (B 1 Complex.I : ℝ)) +
        Complex.I * ((2 : ℂ)⁻¹ * ((B Complex.I 1 : ℝ) - Complex.I * (B Complex.I Complex.I : ℝ)))) / 2 =
        (((B 1 1 + B Complex.I Complex.I) / 4 : ℝ) : ℂ) + (((B Complex.I 1 - B 1 Complex.I) / 4 : ℝ) : ℂ) * Complex.I := by
      push_cast
      linear_combination (-(B Complex.I Complex.I : ℂ) / 4) * Complex.I_mul_I
    rw [e, Complex.add_re, Complex.ofReal_re, Complex.re_ofReal_mul, Complex.I_re, mul_zero, add_zero, Complex.zero_re] at h6
    linarith
  rw [laplacian_eq_iteratedFDeriv_complexPlane]
  simp only [iteratedFDeriv_two_apply]
  simpa using h7

/-- The mixed derivatives along a complex line. -/
theorem levi_line {f : (Fin m → ℂ) → ℂ} (x w : Fin m → ℂ) (t : ℂ) (hf : ContDiffAt ℝ 2 f (x + t • w))
    (h0 : ∀ r s, dzbar (fun v => dz f r v) s (x + t • w) = 0) :
    dzbar (fun v : Fin 1 → ℂ => dz (fun y : Fin 1 → ℂ => f (x + y 0 • w)) 0 v) 0 (fun _ => t) = 0 := by
  have hφ : ∀ y : Fin 1 → ℂ, HasFDerivAt (fun y : Fin 1 → ℂ => x + y 0 • w)
      ((ContinuousLinearMap.proj (R := ℂ) (φ := fun _ : Fin 1 => ℂ) 0).smulRight w) y := fun y =>
    (((ContinuousLinearMap.proj (R := ℂ) (φ := fun _ : Fin 1 => ℂ) 0).smulRight w).hasFDerivAt).const_add x
  have hdh : ∀ r y a, dhol (fun y : Fin 1 → ℂ => x + y 0 • w) r y a = w a := by
    intro r y a
    rw [dhol, (hφ y).fderiv]
    fin_cases r
    simp
  rw [levi_comp (φ := fun y : Fin 1 → ℂ => x + y 0 • w) hf (Eventually.of_forall fun y => (hφ y).differentiableAt)
    (fun r a => by simp only [hdh]; exact differentiableAt_const _)]
  refine Finset.sum_eq_zero fun a _ => Finset.sum_eq_zero fun b _ => ?_
  rw [h0, mul_zero, zero_mul]

/-- A function with vanishing mixed derivatives near a local maximum is constant near it. -/
theorem levi_max {u : (Fin m → ℂ) → ℝ} {x : Fin m → ℂ}
    (hs : ∀ᶠ y in 𝓝 x, ContDiffAt ℝ 2 u y)
    (hl : ∀ᶠ y in 𝓝 x, ∀ r s, dzbar (fun v => dz (fun y => ((u y : ℝ) : ℂ)) r v) s y = 0)
    (hm : ∀ᶠ y in 𝓝 x, u y ≤ u x) : ∀ᶠ y in 𝓝 x, u y = u x := by
  obtain ⟨ρ, hρ, hball⟩ := Metric.eventually_nhds_iff.1 (hs.and (hl.and hm))
  refine Metric.eventually_nhds_iff.2 ⟨ρ, hρ, fun y hy => ?_⟩
  set w := y - x with hw
  rw [dist_eq_norm, ← hw] at hy
  obtain ⟨R, hR1, hR⟩ : ∃ R : ℝ, 1 < R ∧ R * ‖w‖ ≤ ρ := by
    rcases eq_or_ne ‖w‖ 0 with h | h
    · exact ⟨2, by norm_num, by rw [h, mul_zero]; exact hρ.le⟩
    · have hpos : 0 < ‖w‖ := lt_of_le_of_ne (norm_nonneg _) (Ne.symm h)
      exact ⟨ρ / ‖w‖, (one_lt_div hpos).2 hy, by rw [div_mul_cancel₀ _ h]⟩
  have hin : ∀ t ∈ Metric.ball (0 : ℂ) R, dist (x + t • w) x < ρ := by
    intro t ht
    rw [dist_eq_norm, add_sub_cancel_left, norm_smul]
    rw [mem_ball_zero_iff] at ht
    rcases eq_or_ne ‖w‖ 0 with h | h
    · rw [h, mul_zero]; exact hρ
    · have hpos : 0 < ‖w‖ := lt_of_le_of_ne (norm_nonneg _) (Ne.symm h)
      exact (mul_lt_mul_of_pos_right ht hpos).trans_le hR
  set g : ℂ → ℝ := fun t => u (x + t • w) with hg
  have hgs : ∀ t ∈ Metric.ball (0 : ℂ) R, ContDiffAt ℝ 2 g t := by
    intro t ht
    refine ContDiffAt.comp (g := u) (f := fun t : ℂ => x + t • w) t (hball (hin t ht)).1 ?_
    have : ContDiff ℝ 2 fun t : ℂ => x + t • w := by
      refine contDiff_const.add ?_
      exact (contDiff_pi.2 fun i => contDiff_id.mul contDiff_const)
    exact this.contDiffAt
  have hlap : ∀ t ∈ Metric.ball (0 : ℂ) R, Laplacian.laplacian g t = 0 := by
    intro t ht
    refine laplacian_of_levi (hgs t ht) ?_
    refine levi_line (f := fun y => ((u y : ℝ) : ℂ)) x w t ?_ (hball (hin t ht)).2.1
    exact Complex.ofRealCLM.contDiff.contDiffAt.comp _ (hball (hin t ht)).1
  have hharm : HarmonicOnNhd g (Metric.ball 0 R) := by
    intro t ht
    refine ⟨hgs t ht, ?_⟩
    filter_upwards [Metric.isOpen_ball.mem_nhds ht] with s hs
    exact hlap s hs
  obtain ⟨f, hf, hfg⟩ := hharm.exists_analyticOnNhd_ball_re_eq
  have h0 : (0 : ℂ) ∈ Metric.ball (0 : ℂ) R := Metric.mem_ball_self (by linarith)
  have hmax : IsMaxOn (norm ∘ fun t => Complex.exp (f t)) (Metric.ball 0 R) 0 := by
    intro t ht
    simp only [Set.mem_ofPred_eq, Function.comp_apply, Complex.norm_exp]
    rw [Real.exp_le_exp]
    have e1 := hfg ht
    have e2 := hfg h0
    simp only at e1 e2
    rw [e1, e2]
    have := (hball (hin t ht)).2.2
    simpa [hg] using this
  have hconst := Complex.norm_eqOn_of_isPreconnected_of_isMaxOn (convex_ball (0 : ℂ) R).isPreconnected Metric.isOpen_ball
    (fun t ht => ((hf t ht).differentiableAt.cexp).differentiableWithinAt) h0 hmax
  have h1 : (1 : ℂ) ∈ Metric.ball (0 : ℂ) R := by simpa using hR1
  have h2 := hconst h1
  simp only [Function.comp_apply, Function.const_apply, Complex.norm_exp, Real.exp_eq_exp] at h2
  have e1 := hfg h1
  have e2 := hfg h0
  simp only at e1 e2
  rw [e1, e2] at h2
  simpa [hg, hw] using h2

end Cyjax.Spec
