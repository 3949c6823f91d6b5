import Verif.Lemmas.BalancedExists

/-! # Existence, uniqueness and attraction of the balanced matrix for an abstract family (C139) -/

namespace Cyjax.Spec

open Matrix Filter Topology MeasureTheory
open scoped ComplexOrder

variable {N : ℕ} {X : Type*} [MeasurableSpace X] {ν : Measure X} [IsProbabilityMeasure ν]
  {B : X → Matrix (Fin N) (Fin N) ℂ} (hB : TraceFamily ν B) (hN : N ≠ 0)

/-- The family with a multiple of the identity added. -/
noncomputable def perturb (B : X → Matrix (Fin N) (Fin N) ℂ) (ε : ℝ) (x : X) : Matrix (Fin N) (Fin N) ℂ :=
  (((1 + ε * N)⁻¹ : ℝ) : ℂ) • (B x + (ε : ℂ) • 1)

omit [MeasurableSpace X] in
theorem qf_perturb (ε : ℝ) (x : X) (u : Fin N → ℂ) : qf (perturb B ε x) u = (1 + ε * N)⁻¹ * (qf (B x) u + ε * qf 1 u) := by
  rw [perturb, qf_smul, qf_add, qf_smul]

omit [MeasurableSpace X] in
theorem den_perturb (ε : ℝ) (H : Matrix (Fin N) (Fin N) ℂ) (x : X) :
    den (perturb B ε) H x = (1 + ε * N)⁻¹ * (den B H x + ε * H.trace.re) := by
  rw [den, perturb, Matrix.smul_mul, trace_smul, smul_eq_mul, Complex.re_ofReal_mul, Matrix.add_mul, trace_add, Complex.add_re,
    Matrix.smul_mul, Matrix.one_mul, trace_smul, smul_eq_mul, Complex.re_ofReal_mul, den]

include hB

omit [IsProbabilityMeasure ν] in
theorem family_perturb {ε : ℝ} (hε : 0 < ε) : TraceFamily ν (perturb B ε) := by
  have h1 : 0 < 1 + ε * N := by positivity
  have hpsd : ∀ x, (perturb B ε x).PosSemidef := fun x =>
    ((hB.psd x).add (PosSemidef.one.smul (show (0 : ℂ) ≤ (ε : ℂ) by exact_mod_cast hε.le))).smul (by
      exact_mod_cast (inv_pos.2 h1).le)
  refine ⟨fun a b => ?_, hpsd, fun x => ?_, fun u hu => ae_of_all _ fun x => ?_⟩
  · simp only [perturb, Matrix.smul_apply, Matrix.add_apply, smul_eq_mul]
    exact ((hB.meas a b).add_const _).const_mul _
  · rw [perturb, trace_smul, trace_add, trace_smul, hB.trace, trace_one, Fintype.card_fin, smul_eq_mul, smul_eq_mul]
    have h2 : ((1 + ε * N : ℝ) : ℂ) ≠ 0 := by exact_mod_cast h1.ne'
    rw [Complex.ofReal_inv]
    push_cast at h2 ⊢
    exact inv_mul_cancel₀ h2
  · rw [qf_perturb]
    have := (hB.psd x).re_dotProduct_nonneg u
    have h3 := qf_one_pos u hu
    have h4 : 0 ≤ qf (B x) u := this
    positivity

include hN

/-- There is a fixed point. -/
theorem exists_fixed : ∃ L : Matrix (Fin N) (Fin N) ℂ, L.PosDef ∧ tMap ν B L * L = 1 := by
  have hNp : (0 : ℝ) < N := by positivity
  set ε : ℕ → ℝ := fun j => 1 / ((j : ℝ) + 1) with hε
  have hε0 : ∀ j, 0 < ε j := fun j => by positivity
  have hεt : Tendsto ε atTop (𝓝 0) := tendsto_one_div_add_atTop_nhds_zero_nat
  have hfam := fun j => family_perturb hB (hε0 j)
  have hex : ∀ j, ∃ L : Matrix (Fin N) (Fin N) ℂ, L.PosDef ∧ L.trace.re = 1 ∧ tMap ν (perturb B (ε j)) L * L = 1 := by
    intro j
    obtain ⟨L, hL, hfix⟩ := exists_fixed_bounded (hfam j) hN (ε := (1 + ε j * N)⁻¹ * ε j)
      (by have := hε0 j; positivity) fun x u => by
        rw [qf_perturb]
        have h1 : 0 ≤ qf (B x) u := (hB.psd x).re_dotProduct_nonneg u
        have h2 : 0 ≤ (1 + ε j * N)⁻¹ := by have := hε0 j; positivity
        nlinarith [mul_nonneg h2 h1]
    have ht : 0 < L.trace.re := by
      have : NeZero N := ⟨hN⟩
      rw [trace_eq_sum_qf]
      exact Finset.sum_pos (fun i _ => (pd_iff hL.isHermitian).1 hL _ fun h0 => by
        have := congrFun h0 i
        simp at this) Finset.univ_nonempty
    refine ⟨((L.trace.re⁻¹ : ℝ) : ℂ) • L, hL.smul (by exact_mod_cast inv_pos.2 ht), ?_, ?_⟩
    · rw [trace_smul, smul_eq_mul, Complex.re_ofReal_mul, inv_mul_cancel₀ ht.ne']
    · rw [tMap_smul (inv_pos.2 ht).ne', inv_inv, smul_mul_smul_comm, hfix, ← Complex.ofReal_mul, mul_inv_cancel₀ ht.ne',
        Complex.ofReal_one, one_smul]
  choose G hG htr hfix using hex
  -- the smallest eigenvalue
  have hbot : ∀ j, ∃ (l : ℝ) (u : Fin N → ℂ), u ≠ 0 ∧ (∀ w, l * qf 1 w ≤ qf (G j) w) ∧ G j *ᵥ u = (l : ℂ) • u := by
    intro j
    obtain ⟨M, u, hu, h1, h2⟩ := exists_top hN (hG j).isHermitian.neg (PosDef.one (n := Fin N) (R := ℂ))
    refine ⟨-M, u, hu, fun w => ?_, ?_⟩
    · have h3 := h1 w
      have h4 : qf (-G j) w = - qf (G j) w := by simp [qf, neg_mulVec]
      linarith
    · rw [one_mulVec, neg_mulVec] at h2
      rw [← neg_neg (G j *ᵥ u), h2, Complex.ofReal_neg, neg_smul]
  choose l u hu hl hlu using hbot
  have hl0 : ∀ j, 0 < l j := by
    intro j
    have h1 := (pd_iff (hG j).isHermitian).1 (hG j) (u j) (hu j)
    rw [qf, hlu, dotProduct_smul, smul_eq_mul, Complex.re_ofReal_mul] at h1
    have h2 := qf_one_pos (u j) (hu j)
    rw [qf, one_mulVec] at h2
    exact pos_of_mul_pos_left h1 h2.le
  have hl1 : ∀ j, l j ≤ 1 := by
    intro j
    have h1 : N * l j ≤ (G j).trace.re := by
      rw [trace_eq_sum_qf]
      calc (N : ℝ) * l j = ∑ _i : Fin N, l j := by simp
        _ ≤ _ := Finset.sum_le_sum fun i _ => by
          have := hl j (Pi.single i 1)
          rwa [qf_one_single, mul_one] at this
    rw [htr] at h1
    have : (1 : ℝ) ≤ N := by exact_mod_cast Nat.one_le_iff_ne_zero.2 hN
    nlinarith [hl0 j]
  -- a convergent subsequence
  obtain ⟨L, ⟨hLp, -⟩, φ, hφ, hlim⟩ := (isCompact_psd 1).tendsto_subseq (x := G) fun j => ⟨(hG j).posSemidef, (htr j).le⟩
  obtain ⟨l₀, hl₀, ψ, hψ, hlimψ⟩ := (isCompact_Icc (a := (0 : ℝ)) (b := 1)).tendsto_subseq (x := l ∘ φ)
    fun j => ⟨(hl0 _).le, hl1 _⟩
  set χ := φ ∘ ψ with hχ
  have hχt : Tendsto χ atTop atTop := hφ.tendsto_atTop.comp hψ.tendsto_atTop
  have hGl : Tendsto (fun j => G (χ j)) atTop (𝓝 L) := hlim.comp hψ.tendsto_atTop
  have hll : Tendsto (fun j => l (χ j)) atTop (𝓝 l₀) := hlimψ
  have hεl : Tendsto (fun j => ε (χ j)) atTop (𝓝 0) := hεt.comp hχt
  have hLtr : L.trace.re = 1 := by
    have h1 := ((Complex.continuous_re.comp (Continuous.matrix_trace continuous_id)).tendsto L).comp hGl
    exact tendsto_nhds_unique h1 (tendsto_const_nhds.congr fun j => (htr _).symm)
  have hLne : L ≠ 0 := by
    rintro rfl
    simp at hLtr
  have hent : ∀ a b, Tendsto (fun j => G (χ j) a b) atTop (𝓝 (L a b)) := fun a b =>
    (tendsto_pi_nhds.1 ((tendsto_pi_nhds.1 hGl) a)) b
  have hfac : Tendsto (fun j => (1 + ε (χ j) * N)⁻¹) atTop (𝓝 1) := by
    have := (tendsto_const_nhds (x := (1 : ℝ))).add (hεl.mul_const (N : ℝ))
    rw [zero_mul, add_zero] at this
    simpa using this.inv₀ one_ne_zero
  have hden : ∀ x, Tendsto (fun j => den (perturb B (ε (χ j))) (G (χ j)) x) atTop (𝓝 (den B L x)) := by
    intro x
    simp only [den_perturb, htr, mul_one]
    have h1 : Tendsto (fun j => den B (G (χ j)) x) atTop (𝓝 (den B L x)) := by
      simp only [den_eq]
      exact (Complex.continuous_re.tendsto _).comp (tendsto_finsetSum _ fun c _ => tendsto_finsetSum _ fun d _ =>
        (hent d c).const_mul _)
    have := hfac.mul (h1.add hεl)
    rwa [add_zero, one_mul] at this
  have hl₀p : 0 < l₀ := by
    refine lt_of_le_of_ne hl₀.1 fun h0 => ?_
    rw [← h0] at hll
    -- the integrals that are one
    set f : ℕ → X → ℝ := fun j x => l (χ j) * (qf (perturb B (ε (χ j)) x) (u (χ j)) / qf 1 (u (χ j))) /
      den (perturb B (ε (χ j))) (G (χ j)) x with hf
    have hone : ∀ j, N * ∫ x, f j x ∂ν = 1 := by
      intro j
      have h1 := qf_tMap (hfam (χ j)) (hl0 (χ j)) (hG (χ j)).isHermitian (hl (χ j)) (u (χ j))
      have h2 : tMap ν (perturb B (ε (χ j))) (G (χ j)) *ᵥ (u (χ j)) = (((l (χ j))⁻¹ : ℝ) : ℂ) • u (χ j) := by
        have h3 : tMap ν (perturb B (ε (χ j))) (G (χ j)) *ᵥ (G (χ j) *ᵥ u (χ j)) = u (χ j) := by
          rw [mulVec_mulVec, hfix, one_mulVec]
        rw [hlu, mulVec_smul] at h3
        have h4 : (l (χ j) : ℂ) ≠ 0 := by exact_mod_cast (hl0 _).ne'
        rw [Complex.ofReal_inv]
        exact (eq_inv_smul_iff₀ h4).2 h3
      have h5 : qf (tMap ν (perturb B (ε (χ j))) (G (χ j))) (u (χ j)) = (l (χ j))⁻¹ * qf 1 (u (χ j)) := by
        rw [qf, h2, dotProduct_smul, smul_eq_mul, Complex.re_ofReal_mul, qf, one_mulVec]
      have h6 := qf_one_pos (u (χ j)) (hu _)
      have h7 : ∫ x, f j x ∂ν = l (χ j) / qf 1 (u (χ j)) *
          ∫ x, qf (perturb B (ε (χ j)) x) (u (χ j)) / den (perturb B (ε (χ j))) (G (χ j)) x ∂ν := by
        rw [← integral_const_mul]
        refine integral_congr_ae (ae_of_all _ fun x => ?_)
        simp only [hf]
        ring
      rw [h7]
      rw [h5] at h1
      have h8 := (hl0 (χ j)).ne'
      rw [mul_left_comm, ← h1]
      field_simp
    have hbd : ∀ j x, 0 ≤ f j x ∧ f j x ≤ l (χ j) * N / den (perturb B (ε (χ j))) (G (χ j)) x ∧ f j x ≤ N := by
      intro j x
      have d1 := den_ge (hfam (χ j)) (hG (χ j)).isHermitian (hl (χ j)) x
      have d0 := (hl0 (χ j)).trans_le d1
      have h6 := qf_one_pos (u (χ j)) (hu _)
      have q0 : 0 ≤ qf (perturb B (ε (χ j)) x) (u (χ j)) := ((hfam (χ j)).psd x).re_dotProduct_nonneg _
      have q1 : qf (perturb B (ε (χ j)) x) (u (χ j)) / qf 1 (u (χ j)) ≤ N := by
        rw [div_le_iff₀ h6]
        exact qf_le_one ((hfam (χ j)).psd x) (by rw [(hfam (χ j)).trace, Complex.one_re]) _
      have b1 : f j x ≤ l (χ j) * N / den (perturb B (ε (χ j))) (G (χ j)) x :=
        div_le_div_of_nonneg_right (mul_le_mul_of_nonneg_left q1 (hl0 _).le) d0.le
      refine ⟨div_nonneg (mul_nonneg (hl0 _).le (div_nonneg q0 h6.le)) d0.le, b1, b1.trans ?_⟩
      rw [div_le_iff₀ d0, mul_comm]
      exact mul_le_mul_of_nonneg_left d1 hNp.le
    have hmeas : ∀ j, Measurable (f j) := fun j => by
      have h1 := measurable_den (hfam (χ j)) (vecMulVec (u (χ j)) (star (u (χ j))))
      have h2 : den (perturb B (ε (χ j))) (vecMulVec (u (χ j)) (star (u (χ j)))) =
          fun x => qf (perturb B (ε (χ j)) x) (u (χ j)) := funext fun x => den_vec _ _
      rw [h2] at h1
      exact ((h1.div_const _).const_mul _).div (measurable_den (hfam (χ j)) _)
    have hzero : Tendsto (fun j => ∫ x, f j x ∂ν) atTop (𝓝 (∫ _x, (0 : ℝ) ∂ν)) := by
      refine tendsto_integral_of_dominated_convergence (fun _ => (N : ℝ)) (fun j => (hmeas j).aestronglyMeasurable)
        (integrable_const _) (fun j => ae_of_all _ fun x => ?_) ?_
      · rw [Real.norm_eq_abs, abs_of_nonneg (hbd j x).1]
        exact (hbd j x).2.2
      · filter_upwards [den_pos hB hLp hLne] with x hx
        have h1 := (hll.mul_const (N : ℝ)).div (hden x) hx.ne'
        rw [zero_mul, zero_div] at h1
        exact squeeze_zero (fun j => (hbd j x).1) (fun j => (hbd j x).2.1) h1
    rw [integral_zero] at hzero
    have h1 := hzero.const_mul (N : ℝ)
    rw [mul_zero] at h1
    have h2 : (0 : ℝ) = 1 := tendsto_nhds_unique h1 (tendsto_const_nhds.congr fun j => (hone j).symm)
    exact zero_ne_one h2
  -- the limit
  obtain ⟨J, hJ⟩ := eventually_atTop.1 (hll.eventually (lt_mem_nhds (half_lt_self hl₀p)))
  have hm : 0 < l₀ / 2 := half_pos hl₀p
  have hlo : ∀ j u, l₀ / 2 * qf 1 u ≤ qf (G (χ (j + J))) u := fun j u =>
    (mul_le_mul_of_nonneg_right (hJ (j + J) (Nat.le_add_left _ _)).le (by rw [qf_one]; positivity)).trans (hl _ u)
  have hshift : Tendsto (fun j => G (χ (j + J))) atTop (𝓝 L) := hGl.comp (tendsto_add_atTop_nat J)
  have hLlo : ∀ u, l₀ / 2 * qf 1 u ≤ qf L u := fun u =>
    ge_of_tendsto' (((continuous_qf_left u).tendsto L).comp hshift) fun j => hlo j u
  refine ⟨L, posDef_of_le hLp.isHermitian hm hLlo, ?_⟩
  have hT : Tendsto (fun j => tMap ν (perturb B (ε (χ (j + J)))) (G (χ (j + J)))) atTop (𝓝 (tMap ν B L)) := by
    refine tendsto_tMap (fun j => hfam (χ (j + J))) hB (fun x a b => ?_) (fun j => (hG _).isHermitian) hm hlo hshift
      hLp.isHermitian hLlo
    simp only [perturb, Matrix.smul_apply, Matrix.add_apply, smul_eq_mul]
    have h1 : Tendsto (fun j => (((1 + ε (χ (j + J)) * N)⁻¹ : ℝ) : ℂ)) atTop (𝓝 ((1 : ℝ) : ℂ)) :=
      (Complex.continuous_ofReal.tendsto _).comp (hfac.comp (tendsto_add_atTop_nat J))
    have h2 : Tendsto (fun j => ((ε (χ (j + J)) : ℝ) : ℂ)) atTop (𝓝 ((0 : ℝ) : ℂ)) :=
      (Complex.continuous_ofReal.tendsto _).comp (hεl.comp (tendsto_add_atTop_nat J))
    have h3 := h1.mul ((tendsto_const_nhds (x := B x a b)).add (h2.mul_const ((1 : Matrix (Fin N) (Fin N) ℂ) a b)))
    rw [Complex.ofReal_one, Complex.ofReal_zero, zero_mul, add_zero, one_mul] at h3
    exact h3
  have hprod : Tendsto (fun j => tMap ν (perturb B (ε (χ (j + J)))) (G (χ (j + J))) * G (χ (j + J))) atTop
      (𝓝 (tMap ν B L * L)) := hT.mul hshift
  exact tendsto_nhds_unique hprod (tendsto_const_nhds.congr fun j => (hfix _).symm)

/-- Two fixed points are proportional. -/
theorem fixed_unique {H K : Matrix (Fin N) (Fin N) ℂ} (hH : H.PosDef) (hK : K.PosDef) (hHf : tMap ν B H * H = 1)
    (hKf : tMap ν B K * K = 1) : ∃ c : ℝ, 0 < c ∧ H = (c : ℂ) • K := by
  obtain ⟨M, u, hu, hM, hMu⟩ := exists_top hN hH.isHermitian hK
  have hM0 : 0 < M := by
    have h1 := ((pd_iff hH.isHermitian).1 hH u hu).trans_le (hM u)
    exact pos_of_mul_pos_left h1 ((pd_iff hK.isHermitian).1 hK u hu).le
  refine ⟨M, hM0, ?_⟩
  have hMK : ((M : ℂ) • K).PosDef := hK.smul (by exact_mod_cast hM0)
  obtain ⟨m, hm, hlo⟩ := exists_lower hN hH
  obtain ⟨m', hm', hlo'⟩ := exists_lower hN hMK
  set w := K *ᵥ u with hw
  have hw0 : w ≠ 0 := by
    intro h0
    have := (pd_iff hK.isHermitian).1 hK u hu
    rw [qf, ← hw, h0, dotProduct_zero, Complex.zero_re] at this
    exact lt_irrefl _ this
  have e1 : tMap ν B H *ᵥ w = ((M⁻¹ : ℝ) : ℂ) • u := by
    have h3 : tMap ν B H *ᵥ (H *ᵥ u) = u := by rw [mulVec_mulVec, hHf, one_mulVec]
    rw [hMu, mulVec_smul] at h3
    have h4 : (M : ℂ) ≠ 0 := by exact_mod_cast hM0.ne'
    rw [Complex.ofReal_inv]
    exact (eq_inv_smul_iff₀ h4).2 h3
  have e2 : tMap ν B ((M : ℂ) • K) *ᵥ w = ((M⁻¹ : ℝ) : ℂ) • u := by
    rw [tMap_smul hM0.ne', smul_mulVec, hw, mulVec_mulVec, hKf, one_mulVec]
  have e3 : qf (tMap ν B H) w = qf (tMap ν B ((M : ℂ) • K)) w := by rw [qf, qf, e1, e2]
  rw [qf_tMap hB hm hH.isHermitian hlo, qf_tMap hB hm' hMK.isHermitian hlo'] at e3
  have hN' : (N : ℝ) ≠ 0 := by exact_mod_cast hN
  have e4 := mul_left_cancel₀ hN' e3
  have i1 : Integrable (fun x => qf (B x) w / den B H x) ν := by
    have := integrable_den hB hm hH.isHermitian hlo (vecMulVec w (star w))
    simpa only [den_vec] using this
  have i2 : Integrable (fun x => qf (B x) w / den B ((M : ℂ) • K) x) ν := by
    have := integrable_den hB hm' hMK.isHermitian hlo' (vecMulVec w (star w))
    simpa only [den_vec] using this
  have hle : ∀ x, den B H x ≤ den B ((M : ℂ) • K) x := den_mono hB hH.isHermitian hMK.isHermitian fun v => by
    rw [qf_smul]
    exact hM v
  have hdp : ∀ x, 0 < den B H x := fun x => hm.trans_le (den_ge hB hH.isHermitian hlo x)
  have hae : ∀ᵐ x ∂ν, qf (B x) w / den B H x - qf (B x) w / den B ((M : ℂ) • K) x = 0 := by
    have hnn : 0 ≤ᵐ[ν] fun x => qf (B x) w / den B H x - qf (B x) w / den B ((M : ℂ) • K) x := ae_of_all _ fun x =>
      sub_nonneg.2 (div_le_div_of_nonneg_left ((hB.psd x).re_dotProduct_nonneg w) (hdp x) (hle x))
    refine (integral_eq_zero_iff_of_nonneg_ae hnn (i1.sub i2)).1 ?_
    rw [integral_sub i1 i2, e4, sub_self]
  by_contra hne
  have hpsd : ((M : ℂ) • K - H).PosSemidef := (psd_iff (hMK.isHermitian.sub hH.isHermitian)).2 fun v => by
    rw [qf_sub, qf_smul]
    linarith [hM v]
  have hcontr : ∀ᵐ _x ∂ν, False := by
    filter_upwards [hae, den_pos hB hpsd (sub_ne_zero.2 (Ne.symm hne)), hB.pos w hw0] with x h1 h2 h3
    have h4 : den B H x = den B ((M : ℂ) • K) x := by
      have h5 := hdp x
      have h6 := h5.trans_le (hle x)
      rw [sub_eq_zero, div_eq_div_iff h5.ne' h6.ne'] at h1
      exact (mul_left_cancel₀ h3.ne' h1).symm
    have h7 : den B ((M : ℂ) • K - H) x = den B ((M : ℂ) • K) x - den B H x := by
      simp [den, Matrix.mul_sub, trace_sub]
    rw [h7, h4, sub_self] at h2
    exact lt_irrefl _ h2
  obtain ⟨x, hx⟩ := hcontr.exists
  exact hx

omit hN in
/-- A step keeps bounds by multiples of a fixed point. -/
theorem step_bounds (hN : N ≠ 0) {H K : Matrix (Fin N) (Fin N) ℂ} (hH : H.PosDef) (hK : K.PosDef) (hKf : tMap ν B K * K = 1)
    {c : ℝ} (hc : 0 < c) :
    ((∀ u, qf H u ≤ c * qf K u) → ∀ u, qf (tStep ν B H) u ≤ c * qf K u) ∧
    ((∀ u, c * qf K u ≤ qf H u) → ∀ u, c * qf K u ≤ qf (tStep ν B H) u) := by
  obtain ⟨m, hm, hlo⟩ := exists_lower hN hH
  have hcK : ((c : ℂ) • K).PosDef := hK.smul (by exact_mod_cast hc)
  obtain ⟨m', hm', hlo'⟩ := exists_lower hN hcK
  have hT := tMap_posDef hB hm hH.isHermitian hlo hN
  have hT' := tMap_posDef hB hm' hcK.isHermitian hlo' hN
  have e : (tMap ν B ((c : ℂ) • K))⁻¹ = (c : ℂ) • K := by
    refine inv_eq_right_inv ?_
    rw [tMap_smul hc.ne', smul_mul_smul_comm, hKf, ← Complex.ofReal_mul, inv_mul_cancel₀ hc.ne', Complex.ofReal_one, one_smul]
  refine ⟨fun h u => ?_, fun h u => ?_⟩
  · have h1 := inv_anti hT' hT (tMap_anti hB hm hH.isHermitian hlo hcK.isHermitian fun v => by rw [qf_smul]; exact h v) u
    rwa [e, qf_smul] at h1
  · have h1 := inv_anti hT hT' (tMap_anti hB hm' hcK.isHermitian hlo' hH.isHermitian fun v => by rw [qf_smul]; exact h v) u
    rwa [e, qf_smul] at h1

/-- Every orbit converges to a fixed point. -/
theorem orbit_converges {H : Matrix (Fin N) (Fin N) ℂ} (hH : H.PosDef) :
    ∃ L : Matrix (Fin N) (Fin N) ℂ, L.PosDef ∧ tMap ν B L * L = 1 ∧ Tendsto (fun k => (tStep ν B)^[k] H) atTop (𝓝 L) := by
  obtain ⟨K, hK, hKf⟩ := exists_fixed hB hN
  set O : ℕ → Matrix (Fin N) (Fin N) ℂ := fun k => (tStep ν B)^[k] H with hO
  have hstep : ∀ k, O (k + 1) = tStep ν B (O k) := fun k => Function.iterate_succ_apply' _ _ _
  have hpd : ∀ k, (O k).PosDef := by
    intro k
    induction k with
    | zero => exact hH
    | succ k ih => rw [hstep]; exact tStep_posDef hB hN ih
  -- bounds by any fixed point are kept
  have hkeep : ∀ {L : Matrix (Fin N) (Fin N) ℂ}, L.PosDef → tMap ν B L * L = 1 → ∀ {c : ℝ}, 0 < c → ∀ j,
      ((∀ u, qf (O j) u ≤ c * qf L u) → ∀ k, j ≤ k → ∀ u, qf (O k) u ≤ c * qf L u) ∧
      ((∀ u, c * qf L u ≤ qf (O j) u) → ∀ k, j ≤ k → ∀ u, c * qf L u ≤ qf (O k) u) := by
    intro L hL hLf c hc j
    refine ⟨fun h k hk => ?_, fun h k hk => ?_⟩
    · induction k, hk using Nat.le_induction with
      | base => exact h
      | succ k hk ih => rw [hstep]; exact (step_bounds hB hN (hpd k) hL hLf hc).1 ih
    · induction k, hk using Nat.le_induction with
      | base => exact h
      | succ k hk ih => rw [hstep]; exact (step_bounds hB hN (hpd k) hL hLf hc).2 ih
  obtain ⟨mH, hmH, hloH⟩ := exists_lower hN hH
  obtain ⟨MH, hMH, hhiH⟩ := exists_upper hN hH.isHermitian
  obtain ⟨mK, hmK, hloK⟩ := exists_lower hN hK
  obtain ⟨MK, hMK, hhiK⟩ := exists_upper hN hK.isHermitian
  have hlo : ∀ k u, mH / MK * mK * qf 1 u ≤ qf (O k) u := by
    intro k u
    have h1 : ∀ u, mH / MK * qf K u ≤ qf (O 0) u := fun u => by
      refine le_trans ?_ (hloH u)
      rw [div_mul_eq_mul_div, div_le_iff₀ hMK]
      nlinarith [hhiK u]
    refine le_trans ?_ (((hkeep hK hKf (by positivity) 0).2 h1) k (Nat.zero_le k) u)
    rw [mul_assoc]
    exact mul_le_mul_of_nonneg_left (hloK u) (by positivity)
  have hhi : ∀ k, (O k).trace.re ≤ N * (MH / mK * MK) := by
    intro k
    refine trace_le _ fun u => ?_
    have h1 : ∀ u, qf (O 0) u ≤ MH / mK * qf K u := fun u => by
      refine (hhiH u).trans ?_
      rw [div_mul_eq_mul_div, le_div_iff₀ hmK]
      nlinarith [hloK u]
    refine (((hkeep hK hKf (by positivity) 0).1 h1) k (Nat.zero_le k) u).trans ?_
    rw [mul_assoc]
    exact mul_le_mul_of_nonneg_left (hhiK u) (by positivity)
  obtain ⟨φ, L, hφ, hL, hlim, hLf⟩ := limit_fixed hB hN O hpd hstep (by positivity) hlo hhi
  refine ⟨L, hL, hLf, ?_⟩
  obtain ⟨m, hm, hLlo⟩ := exists_lower hN hL
  have hNp : (0 : ℝ) < N := by positivity
  -- close to the limit point once, close for ever
  have hclose : ∀ δ : ℝ, 0 < δ → δ < 1 → ∃ j, ∀ k, j ≤ k → (∀ u, qf (O k) u ≤ (1 + δ) * qf L u) ∧
      ∀ u, (1 - δ) * qf L u ≤ qf (O k) u := by
    intro δ hδ hδ1
    have hent : ∀ a b, Tendsto (fun k => O (φ k) a b) atTop (𝓝 (L a b)) := fun a b =>
      (tendsto_pi_nhds.1 ((tendsto_pi_nhds.1 hlim) a)) b
    have hev : ∀ᶠ k in atTop, ∀ a b, ‖O (φ k) a b - L a b‖ ≤ δ * m / N := by
      rw [eventually_all]
      intro a
      rw [eventually_all]
      intro b
      have h1 := (tendsto_iff_norm_sub_tendsto_zero.1 (hent a b)).eventually (gt_mem_nhds (show 0 < δ * m / N by positivity))
      exact h1.mono fun k hk => hk.le
    obtain ⟨k₀, hk₀⟩ := hev.exists
    have hq : ∀ u, |qf (O (φ k₀)) u - qf L u| ≤ δ * qf L u := by
      intro u
      rw [← qf_sub]
      refine (qf_le_entries (δ * m / N) (fun a b => hk₀ a b) u).trans ?_
      rw [mul_div_cancel₀ _ hNp.ne', mul_assoc]
      exact mul_le_mul_of_nonneg_left (hLlo u) hδ.le
    have hu := (hkeep hL hLf (show 0 < 1 + δ by linarith) (φ k₀)).1 fun u => by
      have := (abs_le.1 (hq u)).2
      linarith
    have hd := (hkeep hL hLf (show 0 < 1 - δ by linarith) (φ k₀)).2 fun u => by
      have := (abs_le.1 (hq u)).1
      linarith
    exact ⟨φ k₀, fun k hk => ⟨hu k hk, hd k hk⟩⟩
  refine tendsto_pi_nhds.2 fun a => tendsto_pi_nhds.2 fun b => ?_
  rw [Metric.tendsto_atTop]
  intro e he
  have htL : 0 ≤ L.trace.re := by
    rw [trace_eq_sum_qf]
    exact Finset.sum_nonneg fun i _ => hL.posSemidef.re_dotProduct_nonneg _
  set δ := min (1 / 2) (e / (4 * (L.trace.re + 1))) with hδ
  have hδ0 : 0 < δ := lt_min (by norm_num) (by positivity)
  obtain ⟨j, hj⟩ := hclose δ hδ0 ((min_le_left _ _).trans_lt (by norm_num))
  refine ⟨j, fun k hk => ?_⟩
  obtain ⟨h1, h2⟩ := hj k hk
  have hherm : (O k - ((1 - δ : ℝ) : ℂ) • L).IsHermitian := by
    refine (hpd k).isHermitian.sub ?_
    rw [IsHermitian, conjTranspose_smul, hL.isHermitian.eq, Complex.star_def, Complex.conj_ofReal]
  have hP : (O k - ((1 - δ : ℝ) : ℂ) • L).PosSemidef := (psd_iff hherm).2 fun u => by
    rw [qf_sub, qf_smul]
    linarith [h2 u]
  have htP : (O k - ((1 - δ : ℝ) : ℂ) • L).trace.re ≤ 2 * δ * L.trace.re := by
    rw [trace_eq_sum_qf, trace_eq_sum_qf, Finset.mul_sum]
    refine Finset.sum_le_sum fun i _ => ?_
    rw [qf_sub, qf_smul]
    linarith [h1 (Pi.single i 1)]
  have hb := (entry_le hP a b).trans htP
  have hbL := entry_le hL.posSemidef a b
  have hdist : dist (O k a b) (L a b) ≤ 3 * δ * L.trace.re := by
    rw [dist_eq_norm]
    have e1 : O k a b - L a b = (O k - ((1 - δ : ℝ) : ℂ) • L) a b - (δ : ℂ) * L a b := by
      rw [Matrix.sub_apply, Matrix.smul_apply, smul_eq_mul]
      push_cast
      ring
    rw [e1]
    refine (norm_sub_le _ _).trans ?_
    rw [norm_mul, Complex.norm_real, Real.norm_eq_abs, abs_of_pos hδ0]
    nlinarith [mul_le_mul_of_nonneg_left hbL hδ0.le]
  refine hdist.trans_lt ?_
  have h3 : δ ≤ e / (4 * (L.trace.re + 1)) := min_le_right _ _
  rw [le_div_iff₀ (by positivity)] at h3
  nlinarith

end Cyjax.Spec
