import Verif.Lemmas.Balanced
import Mathlib.MeasureTheory.Integral.Bochner.Set

/-! # Existence, uniqueness and attraction of fixed points of the T operator (C139) -/

namespace Cyjax.Spec

open Matrix Filter Topology MeasureTheory
open scoped ComplexOrder

variable {N : ℕ} {X : Type*} [MeasurableSpace X] {ν : Measure X}

instance : FirstCountableTopology (Matrix (Fin N) (Fin N) ℂ) :=
  inferInstanceAs (FirstCountableTopology (Fin N → Fin N → ℂ))

/-- One step: the inverse of the T operator. -/
noncomputable def tStep (ν : Measure X) (B : X → Matrix (Fin N) (Fin N) ℂ) (H : Matrix (Fin N) (Fin N) ℂ) :
    Matrix (Fin N) (Fin N) ℂ := (tMap ν B H)⁻¹

variable [IsProbabilityMeasure ν]

/-- Dominated convergence for the T operator. -/
theorem tendsto_tMap {B : ℕ → X → Matrix (Fin N) (Fin N) ℂ} {B₀ : X → Matrix (Fin N) (Fin N) ℂ} (hB : ∀ k, TraceFamily ν (B k))
    (hB₀ : TraceFamily ν B₀) (hlim : ∀ x a b, Tendsto (fun k => B k x a b) atTop (𝓝 (B₀ x a b)))
    {H : ℕ → Matrix (Fin N) (Fin N) ℂ} {L : Matrix (Fin N) (Fin N) ℂ} (hH : ∀ k, (H k).IsHermitian) {m : ℝ} (hm : 0 < m)
    (hlo : ∀ k u, m * qf 1 u ≤ qf (H k) u) (hL : Tendsto H atTop (𝓝 L)) (hLh : L.IsHermitian)
    (hLlo : ∀ u, m * qf 1 u ≤ qf L u) :
    Tendsto (fun k => tMap ν (B k) (H k)) atTop (𝓝 (tMap ν B₀ L)) := by
  have hent : ∀ a b, Tendsto (fun k => H k a b) atTop (𝓝 (L a b)) := fun a b =>
    (tendsto_pi_nhds.1 ((tendsto_pi_nhds.1 hL) a)) b
  refine tendsto_pi_nhds.2 fun a => tendsto_pi_nhds.2 fun b => ?_
  refine (tendsto_integral_of_dominated_convergence (fun _ => 1 / m) (fun k => ?_) (integrable_const _) (fun k => ?_) ?_).const_mul _
  · exact (integrable_entry (hB k) hm (hH k) (hlo k) a b).aestronglyMeasurable
  · refine ae_of_all _ fun x => ?_
    have h1 := den_ge (hB k) (hH k) (hlo k) x
    rw [norm_div, Complex.norm_real, Real.norm_eq_abs, abs_of_pos (hm.trans_le h1)]
    exact div_le_div₀ zero_le_one (norm_entry (hB k) x a b) hm h1
  · refine ae_of_all _ fun x => ?_
    refine (hlim x a b).div ?_ (by exact_mod_cast (hm.trans_le (den_ge hB₀ hLh hLlo x)).ne')
    refine (Complex.continuous_ofReal.tendsto _).comp ?_
    simp only [den_eq]
    refine (Complex.continuous_re.tendsto _).comp (tendsto_finsetSum _ fun c _ => tendsto_finsetSum _ fun d _ => ?_)
    exact (hlim x c d).mul (hent d c)

variable {B : X → Matrix (Fin N) (Fin N) ℂ} (hB : TraceFamily ν B) (hN : N ≠ 0) {H K : Matrix (Fin N) (Fin N) ℂ}

include hB hN

theorem tStep_posDef (hH : H.PosDef) : (tStep ν B H).PosDef := by
  obtain ⟨m, hm, hlo⟩ := exists_lower hN hH
  exact (tMap_posDef hB hm hH.isHermitian hlo hN).inv

theorem tStep_det (hH : H.PosDef) : H.det.re ≤ (tStep ν B H).det.re ∧
    (H.det.re = (tStep ν B H).det.re → tMap ν B H * H = 1) := by
  obtain ⟨m, hm, hlo⟩ := exists_lower hN hH
  have hT := tMap_posDef hB hm hH.isHermitian hlo hN
  obtain ⟨h1, h2⟩ := det_mul_le_one hT hH (trace_self hB hm hH.isHermitian hlo)
  have h3 := det_inv_re hT
  refine ⟨?_, fun h => h2 ?_⟩
  · rw [← h3] at h1
    exact le_of_mul_le_mul_left h1 (det_re_pos hT)
  · rw [h]
    exact h3

/-- A bounded orbit has a limit point, and it is a fixed point. -/
theorem limit_fixed (H : ℕ → Matrix (Fin N) (Fin N) ℂ) (hpd : ∀ k, (H k).PosDef) (hstep : ∀ k, H (k + 1) = tStep ν B (H k))
    {m M : ℝ} (hm : 0 < m) (hlo : ∀ k u, m * qf 1 u ≤ qf (H k) u) (hhi : ∀ k, (H k).trace.re ≤ M) :
    ∃ (φ : ℕ → ℕ) (L : Matrix (Fin N) (Fin N) ℂ), StrictMono φ ∧ L.PosDef ∧ Tendsto (H ∘ φ) atTop (𝓝 L) ∧
      tMap ν B L * L = 1 := by
  obtain ⟨L, ⟨hLp, -⟩, φ, hφ, hlim⟩ := (isCompact_psd M).tendsto_subseq (x := H) fun k => ⟨(hpd k).posSemidef, hhi k⟩
  have hLh := hLp.isHermitian
  have hLlo : ∀ u, m * qf 1 u ≤ qf L u := fun u =>
    ge_of_tendsto' (((continuous_qf_left u).tendsto L).comp hlim) fun k => hlo (φ k) u
  have hL : L.PosDef := posDef_of_le hLh hm hLlo
  refine ⟨φ, L, hφ, hL, hlim, (tStep_det hB hN hL).2 ?_⟩
  have hmono : Monotone fun k => (H k).det.re := monotone_nat_of_le_succ fun k => by
    rw [hstep]
    exact (tStep_det hB hN (hpd k)).1
  have hcd : Continuous fun A : Matrix (Fin N) (Fin N) ℂ => A.det.re :=
    Complex.continuous_re.comp (Continuous.matrix_det continuous_id)
  have hd : Tendsto (fun k => (H k).det.re) atTop (𝓝 L.det.re) :=
    (tendsto_iff_tendsto_subseq_of_monotone hmono hφ.tendsto_atTop).2 ((hcd.tendsto L).comp hlim)
  have hT : Tendsto (fun k => tMap ν B (H (φ k))) atTop (𝓝 (tMap ν B L)) :=
    tendsto_tMap (fun _ => hB) hB (fun _ _ _ => tendsto_const_nhds) (fun k => (hpd (φ k)).isHermitian) hm (fun k => hlo (φ k))
      hlim hLh hLlo
  have hdT := (hcd.tendsto _).comp hT
  have hd' : Tendsto (fun k => (H (φ k + 1)).det.re) atTop (𝓝 L.det.re) :=
    hd.comp ((tendsto_add_atTop_nat 1).comp hφ.tendsto_atTop)
  have hprod := hdT.mul hd'
  have hone : ∀ k, (tMap ν B (H (φ k))).det.re * (H (φ k + 1)).det.re = 1 := by
    intro k
    rw [hstep]
    exact det_inv_re (tMap_posDef hB hm (hpd (φ k)).isHermitian (hlo (φ k)) hN)
  have h1 : (tMap ν B L).det.re * L.det.re = 1 :=
    tendsto_nhds_unique hprod (tendsto_const_nhds.congr fun k => (hone k).symm)
  have hTL := tMap_posDef hB hm hLh hLlo hN
  have h2 := det_inv_re hTL
  exact mul_left_cancel₀ (det_re_pos hTL).ne' (h1.trans h2.symm)

omit hB hN [IsProbabilityMeasure ν] in
theorem exists_upper (hN : N ≠ 0) (hH : H.IsHermitian) : ∃ M : ℝ, 0 < M ∧ ∀ u, qf H u ≤ M * qf 1 u := by
  obtain ⟨M, -, -, h, -⟩ := exists_top hN hH (PosDef.one (n := Fin N) (R := ℂ))
  refine ⟨max M 1, lt_max_of_lt_right one_pos, fun u => (h u).trans (mul_le_mul_of_nonneg_right (le_max_left _ _) ?_)⟩
  rw [qf_one]
  positivity

theorem log_integrable (hH : H.PosDef) : Integrable (fun x => Real.log (den B H x)) ν := by
  obtain ⟨m, hm, hlo⟩ := exists_lower hN hH
  obtain ⟨M, hM, hhi⟩ := exists_upper hN hH.isHermitian
  refine (integrable_const (max |Real.log m| |Real.log M|)).mono'
    (Real.measurable_log.comp (measurable_den hB H)).aestronglyMeasurable (ae_of_all _ fun x => ?_)
  have h1 := den_ge hB hH.isHermitian hlo x
  have h2 := den_le hB hH.isHermitian hhi x
  exact abs_le_max_abs_abs (Real.log_le_log hm h1) (Real.log_le_log (hm.trans_le h1) h2)

/-- The mean of the logarithm of the denominator decreases. -/
theorem log_mono (hH : H.PosDef) : ∫ x, Real.log (den B (tStep ν B H) x) ∂ν ≤ ∫ x, Real.log (den B H x) ∂ν := by
  obtain ⟨m, hm, hlo⟩ := exists_lower hN hH
  have hS := tStep_posDef hB hN hH
  obtain ⟨m', hm', hlo'⟩ := exists_lower hN hS
  have hT := tMap_posDef hB hm hH.isHermitian hlo hN
  have h1 := trace_tMap hB hm hH.isHermitian hlo (tStep ν B H)
  rw [tStep, mul_nonsing_inv _ (isUnit_iff_ne_zero.2 hT.det_pos.ne'), trace_one, Fintype.card_fin, Complex.natCast_re] at h1
  have hN' : (N : ℝ) ≠ 0 := by exact_mod_cast hN
  have h2 : ∫ x, den B (tStep ν B H) x / den B H x ∂ν = 1 := by
    have := h1.symm
    rw [mul_eq_left₀ hN'] at this
    exact this
  rw [← sub_nonpos, ← integral_sub (log_integrable hB hN hS) (log_integrable hB hN hH)]
  have h3 : ∫ x, (Real.log (den B (tStep ν B H) x) - Real.log (den B H x)) ∂ν ≤
      ∫ x, (den B (tStep ν B H) x / den B H x - 1) ∂ν := by
    refine integral_mono ((log_integrable hB hN hS).sub (log_integrable hB hN hH))
      ((integrable_den hB hm hH.isHermitian hlo _).sub (integrable_const 1)) fun x => ?_
    have p1 := hm.trans_le (den_ge hB hH.isHermitian hlo x)
    have p2 := hm'.trans_le (den_ge hB hS.isHermitian hlo' x)
    show Real.log _ - Real.log _ ≤ _
    rw [← Real.log_div p2.ne' p1.ne']
    exact Real.log_le_sub_one_of_pos (div_pos p2 p1)
  refine h3.trans (le_of_eq ?_)
  rw [integral_sub (integrable_den hB hm hH.isHermitian hlo _) (integrable_const 1), h2]
  simp

/-- If all matrices of the family are bounded below, there is a fixed point. -/
theorem exists_fixed_bounded {ε : ℝ} (hε : 0 < ε) (hlow : ∀ x u, ε * qf 1 u ≤ qf (B x) u) :
    ∃ L : Matrix (Fin N) (Fin N) ℂ, L.PosDef ∧ tMap ν B L * L = 1 := by
  have hNp : (0 : ℝ) < N := by positivity
  -- the condition number after a step
  have hcond : ∀ H : Matrix (Fin N) (Fin N) ℂ, H.PosDef → ∃ a : ℝ, 0 < a ∧ (∀ u, a * qf 1 u ≤ qf (tStep ν B H) u) ∧
      ∀ u, qf (tStep ν B H) u ≤ N / ε * a * qf 1 u := by
    intro H hH
    obtain ⟨m, hm, hlo⟩ := exists_lower hN hH
    have hT := tMap_posDef hB hm hH.isHermitian hlo hN
    have hi := integrable_den hB hm hH.isHermitian hlo 1
    simp only [den_one hB] at hi
    set c := N * ∫ x, 1 / den B H x ∂ν with hc
    have hq : ∀ u, Integrable (fun x => qf (B x) u / den B H x) ν := fun u => by
      have := integrable_den hB hm hH.isHermitian hlo (vecMulVec u (star u))
      simpa only [den_vec] using this
    have hdp : ∀ x, 0 < den B H x := fun x => hm.trans_le (den_ge hB hH.isHermitian hlo x)
    have hup : ∀ u, qf (tMap ν B H) u ≤ N * c * qf 1 u := by
      intro u
      rw [qf_tMap hB hm hH.isHermitian hlo, hc, mul_assoc, mul_assoc]
      refine mul_le_mul_of_nonneg_left ?_ hNp.le
      have : (N : ℝ) * ((∫ x, 1 / den B H x ∂ν) * qf 1 u) = ∫ x, (N * qf 1 u) * (1 / den B H x) ∂ν := by
        rw [integral_const_mul]
        ring
      rw [this]
      refine integral_mono (hq u) (hi.const_mul _) fun x => ?_
      show qf (B x) u / den B H x ≤ (N * qf 1 u) * (1 / den B H x)
      rw [mul_one_div]
      exact div_le_div_of_nonneg_right (qf_le_one (hB.psd x) (by rw [hB.trace, Complex.one_re]) u) (hdp x).le
    have hdn : ∀ u, ε * c * qf 1 u ≤ qf (tMap ν B H) u := by
      intro u
      rw [qf_tMap hB hm hH.isHermitian hlo, hc]
      have : ε * (N * ∫ x, 1 / den B H x ∂ν) * qf 1 u = N * ∫ x, (ε * qf 1 u) * (1 / den B H x) ∂ν := by
        rw [integral_const_mul]
        ring
      rw [this]
      refine mul_le_mul_of_nonneg_left ?_ hNp.le
      refine integral_mono (hi.const_mul _) (hq u) fun x => ?_
      show (ε * qf 1 u) * (1 / den B H x) ≤ qf (B x) u / den B H x
      rw [mul_one_div]
      exact div_le_div_of_nonneg_right (hlow x u) (hdp x).le
    have hc0 : 0 < c := by
      have : NeZero N := ⟨hN⟩
      have h1 := (pd_iff hT.isHermitian).1 hT (Pi.single 0 1) (fun h0 => by have := congrFun h0 0; simp at this)
      have h2 := h1.trans_le (hup (Pi.single 0 1))
      rw [qf_one_single, mul_one] at h2
      exact pos_of_mul_pos_right h2 hNp.le
    refine ⟨(N * c)⁻¹, by positivity, fun u => ?_, fun u => ?_⟩
    · rw [← qf_inv_smul_one (by positivity)]
      exact inv_anti hT (posDef_smul_one (by positivity)) (fun u => by rw [qf_smul]; exact hup u) u
    · have h1 := inv_anti (posDef_smul_one (c := ε * c) (by positivity)) hT (fun u => by rw [qf_smul]; exact hdn u) u
      rw [qf_inv_smul_one (by positivity)] at h1
      refine h1.trans (le_of_eq ?_)
      field_simp
  -- the orbit of the identity
  set O : ℕ → Matrix (Fin N) (Fin N) ℂ := fun k => (tStep ν B)^[k + 1] 1 with hO
  have hstep : ∀ k, O (k + 1) = tStep ν B (O k) := fun k => Function.iterate_succ_apply' _ _ _
  have hO' : ∀ k, ∃ H, H.PosDef ∧ O k = tStep ν B H := by
    intro k
    induction k with
    | zero => exact ⟨1, PosDef.one, rfl⟩
    | succ k ih =>
      obtain ⟨H, hH, e⟩ := ih
      exact ⟨O k, e ▸ tStep_posDef hB hN hH, hstep k⟩
  have hpd : ∀ k, (O k).PosDef := fun k => by
    obtain ⟨H, hH, e⟩ := hO' k
    exact e ▸ tStep_posDef hB hN hH
  have hab : ∀ k, ∃ a : ℝ, 0 < a ∧ (∀ u, a * qf 1 u ≤ qf (O k) u) ∧ ∀ u, qf (O k) u ≤ N / ε * a * qf 1 u := fun k => by
    obtain ⟨H, hH, e⟩ := hO' k
    exact e ▸ hcond H hH
  choose a ha0 ha1 ha2 using hab
  set ℓ := ∫ x, Real.log (den B (O 0) x) ∂ν with hℓ
  have hlog : ∀ k, ∫ x, Real.log (den B (O k) x) ∂ν ≤ ℓ := by
    intro k
    induction k with
    | zero => exact le_rfl
    | succ k ih =>
      rw [hstep]
      exact (log_mono hB hN (hpd k)).trans ih
  have haU : ∀ k, a k ≤ Real.exp ℓ := by
    intro k
    have h1 : Real.log (a k) ≤ ∫ x, Real.log (den B (O k) x) ∂ν := by
      have h2 : ∫ _x, Real.log (a k) ∂ν = Real.log (a k) := by simp
      rw [← h2]
      refine integral_mono (integrable_const _) (log_integrable hB hN (hpd k)) fun x => ?_
      exact Real.log_le_log (ha0 k) (den_ge hB (hpd k).isHermitian (ha1 k) x)
    exact (Real.log_le_iff_le_exp (ha0 k)).1 (h1.trans (hlog k))
  set κ := N / ε with hκ
  have hκ0 : 0 < κ := by positivity
  have htr : ∀ k, (O k).trace.re ≤ N * (κ * a k) := fun k => trace_le _ (ha2 k)
  have hdet : ∀ k, (O 0).det.re ≤ (O k).det.re := by
    intro k
    induction k with
    | zero => exact le_rfl
    | succ k ih =>
      rw [hstep]
      exact ih.trans (tStep_det hB hN (hpd k)).1
  set d₀ := (O 0).det.re with hd₀
  have hd₀p : 0 < d₀ := det_re_pos (hpd 0)
  set δ := min (1 / κ) (d₀ / (2 * κ)) with hδ
  have hδ0 : 0 < δ := lt_min (by positivity) (by positivity)
  have haL : ∀ k, δ ≤ a k := by
    intro k
    by_contra hcon
    push Not at hcon
    have h1 : κ * a k < 1 := by
      have := hcon.trans_le (min_le_left _ _)
      rw [lt_div_iff₀ hκ0] at this
      linarith
    have h2 : κ * a k < d₀ / 2 := by
      have := hcon.trans_le (min_le_right _ _)
      rw [lt_div_iff₀ (by positivity)] at this
      linarith
    have h3 := (hdet k).trans (det_le_trace hN (hpd k))
    have h4 : (O k).trace.re / N ≤ κ * a k := by
      rw [div_le_iff₀ hNp]
      linarith [htr k]
    have h0 : 0 ≤ (O k).trace.re / N := div_nonneg (by
      rw [trace_eq_sum_qf]
      exact Finset.sum_nonneg fun i _ => (hpd k).posSemidef.re_dotProduct_nonneg _) hNp.le
    have h5 : ((O k).trace.re / N) ^ N ≤ κ * a k :=
      (pow_le_of_le_one h0 (h4.trans h1.le) hN).trans h4
    linarith
  obtain ⟨φ, L, -, hL, -, hfix⟩ := limit_fixed hB hN O hpd hstep (m := δ) (M := N * (κ * Real.exp ℓ)) hδ0
    (fun k u => (mul_le_mul_of_nonneg_right (haL k) (by rw [qf_one]; positivity)).trans (ha1 k u))
    fun k => (htr k).trans (by have := haU k; gcongr)
  exact ⟨L, hL, hfix⟩

end Cyjax.Spec
