import Verif.Lemmas.BalancedSections

/-! # Monte Carlo steps on a converging sequence of matrices (C140) -/

namespace Cyjax

open MeasureTheory MvPolynomial Cyjax.Spec Set Filter Topology
open scoped ENNReal ComplexConjugate ComplexOrder

section Sandwich

variable {N : ℕ} {H K : Matrix (Fin N) (Fin N) ℂ}

theorem entries_of_sandwich (hH : H.IsHermitian) (hK : K.PosSemidef) {δ : ℝ} (hδ : 0 ≤ δ) (h1 : ∀ u, qf H u ≤ (1 + δ) * qf K u)
    (h2 : ∀ u, (1 - δ) * qf K u ≤ qf H u) (a b : Fin N) : ‖H a b - K a b‖ ≤ 3 * δ * K.trace.re := by
  have hherm : (H - ((1 - δ : ℝ) : ℂ) • K).IsHermitian := by
    refine hH.sub ?_
    rw [Matrix.IsHermitian, Matrix.conjTranspose_smul, hK.isHermitian.eq, Complex.star_def, Complex.conj_ofReal]
  have hP : (H - ((1 - δ : ℝ) : ℂ) • K).PosSemidef := (psd_iff hherm).2 fun u => by
    rw [qf_sub, qf_smul]
    linarith [h2 u]
  have htP : (H - ((1 - δ : ℝ) : ℂ) • K).trace.re ≤ 2 * δ * K.trace.re := by
    rw [trace_eq_sum_qf, trace_eq_sum_qf, Finset.mul_sum]
    refine Finset.sum_le_sum fun i _ => ?_
    rw [qf_sub, qf_smul]
    linarith [h1 (Pi.single i 1)]
  have hb := (entry_le hP a b).trans htP
  have hbL := entry_le hK a b
  have e1 : H a b - K a b = (H - ((1 - δ : ℝ) : ℂ) • K) a b - (δ : ℂ) * K a b := by
    rw [Matrix.sub_apply, Matrix.smul_apply, smul_eq_mul]
    push_cast
    ring
  rw [e1]
  refine (norm_sub_le _ _).trans ?_
  rw [norm_mul, Complex.norm_real, Real.norm_eq_abs, abs_of_nonneg hδ]
  nlinarith [mul_le_mul_of_nonneg_left hbL hδ]

/-- A sequence that converges to a positive definite matrix lies between multiples of the limit. -/
theorem sandwich_of_tendsto (hN : N ≠ 0) (hK : K.PosDef) {G : ℕ → Matrix (Fin N) (Fin N) ℂ} (hG : Tendsto G atTop (𝓝 K)) :
    ∃ δ : ℕ → ℝ, Tendsto δ atTop (𝓝 0) ∧ (∀ j, 0 ≤ δ j) ∧ ∀ j u, qf (G j) u ≤ (1 + δ j) * qf K u ∧ (1 - δ j) * qf K u ≤ qf (G j) u := by
  obtain ⟨m, hm, hlo⟩ := exists_lower hN hK
  have hNp : (0 : ℝ) < N := by positivity
  have hent : ∀ a b, Tendsto (fun k => G k a b) atTop (𝓝 (K a b)) := fun a b =>
    (tendsto_pi_nhds.1 ((tendsto_pi_nhds.1 hG) a)) b
  refine ⟨fun j => N * (∑ a, ∑ b, ‖G j a b - K a b‖) / m, ?_, fun j => by positivity, fun j u => ?_⟩
  · have h1 : Tendsto (fun j => ∑ a, ∑ b, ‖G j a b - K a b‖) atTop (𝓝 (∑ _a : Fin N, ∑ _b : Fin N, (0 : ℝ))) :=
      tendsto_finsetSum _ fun a _ => tendsto_finsetSum _ fun b _ => tendsto_iff_norm_sub_tendsto_zero.1 (hent a b)
    simp only [Finset.sum_const_zero] at h1
    have := (h1.const_mul (N : ℝ)).div_const m
    rwa [mul_zero, zero_div] at this
  · set S := ∑ a, ∑ b, ‖G j a b - K a b‖ with hS
    have hle : ∀ a b, ‖(G j - K) a b‖ ≤ S := fun a b =>
      (Finset.single_le_sum (f := fun b => ‖G j a b - K a b‖) (fun _ _ => norm_nonneg _) (Finset.mem_univ b)).trans
        (Finset.single_le_sum (f := fun a => ∑ b, ‖G j a b - K a b‖) (fun _ _ => by positivity) (Finset.mem_univ a))
    have h1 := qf_le_entries S hle u
    rw [qf_sub] at h1
    have hS0 : 0 ≤ S := by positivity
    have h2 : N * S * qf 1 u ≤ N * S / m * qf K u := by
      rw [div_mul_eq_mul_div, le_div_iff₀ hm]
      nlinarith [mul_le_mul_of_nonneg_left (hlo u) (mul_nonneg hNp.le hS0)]
    have h3 := abs_le.1 (h1.trans h2)
    constructor <;> linarith [h3.1, h3.2]

end Sandwich

section Operator

variable {n N : ℕ} (s : Fin N → MvPolynomial (Fin (n + 2)) ℂ) (w : (Fin (n + 2) → ℂ) → ℝ) (vol : ℝ)
  (pts : List (Fin (n + 2) → ℂ))

theorem psiAt_smulH (h : Matrix (Fin N) (Fin N) ℂ) (c : ℂ) (Z : Fin (n + 2) → ℂ) : psiAt s (c • h) Z = c * psiAt s h Z := by
  unfold psiAt
  rw [Finset.mul_sum]
  refine Finset.sum_congr rfl fun a _ => ?_
  rw [Finset.mul_sum]
  refine Finset.sum_congr rfl fun b _ => ?_
  rw [Matrix.smul_apply, smul_eq_mul]
  ring

theorem tOperator_smul (h : Matrix (Fin N) (Fin N) ℂ) (c : ℂ) :
    tOperator s (c • h) vol w pts = c⁻¹ • tOperator s h vol w pts := by
  ext a b
  rw [Matrix.smul_apply, smul_eq_mul, tOperator, tOperator, Matrix.of_apply, Matrix.of_apply]
  have e : ∀ Z, eval Z (s a) * conj (eval Z (s b)) * (w Z : ℂ) / ∑ c', ∑ d, eval Z (s c') * (c • h) c' d * conj (eval Z (s d)) =
      c⁻¹ * (eval Z (s a) * conj (eval Z (s b)) * (w Z : ℂ) / ∑ c', ∑ d, eval Z (s c') * h c' d * conj (eval Z (s d))) := by
    intro Z
    have := psiAt_smulH s h c Z
    unfold psiAt at this
    rw [this, div_mul_eq_div_div_swap, div_eq_mul_inv _ c]
    ring
  rw [List.map_congr_left fun Z _ => e Z, List.sum_map_mul_left]
  ring

theorem psiAt_re (h : Matrix (Fin N) (Fin N) ℂ) (Z : Fin (n + 2) → ℂ) : (psiAt s h Z) = star (conjVec s Z) ⬝ᵥ h.mulVec (conjVec s Z) := by
  simp only [psiAt, dotProduct, Matrix.mulVec, Pi.star_apply, Finset.mul_sum, conjVec]
  refine Finset.sum_congr rfl fun c _ => Finset.sum_congr rfl fun d _ => ?_
  simp [mul_assoc]

theorem psiAt_real {h : Matrix (Fin N) (Fin N) ℂ} (hh : h.IsHermitian) (Z : Fin (n + 2) → ℂ) :
    psiAt s h Z = (qf h (conjVec s Z) : ℂ) := by
  rw [psiAt_re]
  have h1 := hh.im_star_dotProduct_mulVec_self (conjVec s Z)
  exact Complex.ext rfl (by simpa using h1)

theorem tOperator_hermitian {h : Matrix (Fin N) (Fin N) ℂ} (hh : h.IsHermitian) : (tOperator s h vol w pts).IsHermitian := by
  ext a b
  rw [Matrix.conjTranspose_apply, tOperator, Matrix.of_apply, Matrix.of_apply]
  have e : ∀ l : List (Fin (n + 2) → ℂ), star (l.map fun Z => eval Z (s b) * conj (eval Z (s a)) * (w Z : ℂ) /
      ∑ c, ∑ d, eval Z (s c) * h c d * conj (eval Z (s d))).sum = (l.map fun Z => eval Z (s a) * conj (eval Z (s b)) * (w Z : ℂ) /
      ∑ c, ∑ d, eval Z (s c) * h c d * conj (eval Z (s d))).sum := by
    intro l
    induction l with
    | nil => simp
    | cons Z l ih =>
      have h1 := psiAt_real s hh Z
      unfold psiAt at h1
      rw [List.map_cons, List.sum_cons, List.map_cons, List.sum_cons, star_add, ih, h1]
      simp only [Complex.star_def, map_div₀, map_mul, Complex.conj_conj, Complex.conj_ofReal]
      ring
  rw [star_mul', star_div₀ (_ : ℂ), star_div₀ (_ : ℂ), e]
  simp

theorem qf_tOperator {h : Matrix (Fin N) (Fin N) ℂ} (hh : h.IsHermitian) (u : Fin N → ℂ) :
    qf (tOperator s h vol w pts).transpose u = N / vol * ((pts.map fun Z => w Z * Complex.normSq (∑ a, eval Z (s a) * u a) /
      qf h (conjVec s Z)).sum / pts.length) := by
  have e : ∀ l : List (Fin (n + 2) → ℂ), ∑ a, ∑ b, conj (u a) * ((l.map fun Z => eval Z (s b) * conj (eval Z (s a)) * (w Z : ℂ) /
      ∑ c, ∑ d, eval Z (s c) * h c d * conj (eval Z (s d))).sum * u b) = (((l.map fun Z => w Z * Complex.normSq (∑ a, eval Z (s a) * u a) /
      qf h (conjVec s Z)).sum : ℝ) : ℂ) := by
    intro l
    induction l with
    | nil => simp
    | cons Z l ih =>
      have h1 := psiAt_real s hh Z
      unfold psiAt at h1
      simp only [List.map_cons, List.sum_cons, add_mul, mul_add, Finset.sum_add_distrib, Complex.ofReal_add]
      rw [ih, h1]
      congr 1
      rw [Complex.ofReal_div, Complex.ofReal_mul, Complex.normSq_eq_conj_mul_self, map_sum, Finset.sum_mul_sum, Finset.mul_sum,
        Finset.sum_div]
      refine Finset.sum_congr rfl fun a _ => ?_
      rw [Finset.mul_sum, Finset.sum_div]
      refine Finset.sum_congr rfl fun b _ => ?_
      rw [map_mul]
      ring
  have e2 : star u ⬝ᵥ (tOperator s h vol w pts).transpose.mulVec u = (N : ℂ) / vol * ((∑ a, ∑ b, conj (u a) *
      ((pts.map fun Z => eval Z (s b) * conj (eval Z (s a)) * (w Z : ℂ) /
      ∑ c, ∑ d, eval Z (s c) * h c d * conj (eval Z (s d))).sum * u b)) / pts.length) := by
    simp only [dotProduct, Matrix.mulVec, Pi.star_apply, Matrix.transpose_apply, tOperator, Matrix.of_apply, Finset.mul_sum,
      Finset.sum_div, Complex.star_def]
    refine Finset.sum_congr rfl fun a _ => Finset.sum_congr rfl fun b _ => ?_
    ring
  rw [qf, e2, e]
  have e3 : (N : ℂ) / vol * ((((pts.map fun Z => w Z * Complex.normSq (∑ a, eval Z (s a) * u a) /
      qf h (conjVec s Z)).sum : ℝ) : ℂ) / pts.length) = ((N / vol * ((pts.map fun Z => w Z * Complex.normSq (∑ a, eval Z (s a) * u a) /
      qf h (conjVec s Z)).sum / pts.length) : ℝ) : ℂ) := by
    push_cast
    ring
  rw [e3, Complex.ofReal_re]

variable {vol} (hvol : 0 < vol) (hw : ∀ Z ∈ pts, 0 < w Z) (hs : ∀ Z ∈ pts, ∃ a, eval Z (s a) ≠ 0)

theorem qf_conjVec_pos {h : Matrix (Fin N) (Fin N) ℂ} (hh : h.PosDef) (Z : Fin (n + 2) → ℂ) (hZ : ∃ a, eval Z (s a) ≠ 0) :
    0 < qf h (conjVec s Z) := by
  have := psiAt_pos s h hh Z hZ
  rw [psiAt_real s hh.isHermitian] at this
  exact_mod_cast this

include hvol hw hs

theorem tOperator_anti {h h' : Matrix (Fin N) (Fin N) ℂ} (hh : h.PosDef) (hh' : h'.PosDef) (hle : ∀ u, qf h u ≤ qf h' u)
    (u : Fin N → ℂ) : qf (tOperator s h' vol w pts).transpose u ≤ qf (tOperator s h vol w pts).transpose u := by
  rw [qf_tOperator s w vol pts hh.isHermitian, qf_tOperator s w vol pts hh'.isHermitian]
  refine mul_le_mul_of_nonneg_left (div_le_div_of_nonneg_right (List.sum_le_sum fun Z hZ => ?_) (Nat.cast_nonneg _)) (by positivity)
  exact div_le_div_of_nonneg_left (mul_nonneg (hw Z hZ).le (Complex.normSq_nonneg _)) (qf_conjVec_pos s hh Z (hs Z hZ)) (hle _)

theorem tOperator_psd {h : Matrix (Fin N) (Fin N) ℂ} (hh : h.PosDef) : (tOperator s h vol w pts).transpose.PosSemidef := by
  refine (psd_iff (tOperator_hermitian s w vol pts hh.isHermitian).transpose).2 fun u => ?_
  rw [qf_tOperator s w vol pts hh.isHermitian]
  refine mul_nonneg (by positivity) (div_nonneg (List.sum_nonneg fun x hx => ?_) (Nat.cast_nonneg _))
  obtain ⟨Z, hZ, rfl⟩ := List.mem_map.1 hx
  exact div_nonneg (mul_nonneg (hw Z hZ).le (Complex.normSq_nonneg _)) (qf_conjVec_pos s hh Z (hs Z hZ)).le

/-- A step on a matrix between multiples of another one. -/
theorem step_sandwich {h h' : Matrix (Fin N) (Fin N) ℂ} (hh : h.PosDef) (hh' : h'.PosDef) {δ : ℝ} (hδ : 0 ≤ δ) (hδ1 : δ < 1)
    (h1 : ∀ u, qf h' u ≤ (1 + δ) * qf h u) (h2 : ∀ u, (1 - δ) * qf h u ≤ qf h' u)
    (hdet : (tOperator s h vol w pts).det ≠ 0) (a b : Fin N) :
    ‖(tOperator s h' vol w pts)⁻¹.transpose a b - (tOperator s h vol w pts)⁻¹.transpose a b‖ ≤
      3 * δ * (tOperator s h vol w pts)⁻¹.transpose.trace.re := by
  rw [Matrix.transpose_nonsing_inv, Matrix.transpose_nonsing_inv]
  set T := (tOperator s h vol w pts).transpose with hT
  set T' := (tOperator s h' vol w pts).transpose with hT'
  have hTpd : T.PosDef := by
    refine (tOperator_psd s w pts hvol hw hs hh).posDef_iff_isUnit.2 ?_
    rw [Matrix.isUnit_iff_isUnit_det, Matrix.det_transpose]
    exact isUnit_iff_ne_zero.2 hdet
  have hscale : ∀ {c : ℝ}, 0 < c → (tOperator s ((c : ℂ) • h) vol w pts).transpose = ((c⁻¹ : ℝ) : ℂ) • T := by
    intro c hc
    rw [tOperator_smul, Matrix.transpose_smul, Complex.ofReal_inv]
  have hp : (0 : ℝ) < 1 + δ := by linarith
  have hm : (0 : ℝ) < 1 - δ := by linarith
  have hcp : (((1 + δ : ℝ) : ℂ) • h).PosDef := hh.smul (by exact_mod_cast hp)
  have hcm : (((1 - δ : ℝ) : ℂ) • h).PosDef := hh.smul (by exact_mod_cast hm)
  have b1 : ∀ u, qf ((((1 + δ)⁻¹ : ℝ) : ℂ) • T) u ≤ qf T' u := fun u => by
    have := tOperator_anti s w pts hvol hw hs hh' hcp (fun u => by rw [qf_smul]; exact h1 u) u
    rwa [hscale hp] at this
  have b2 : ∀ u, qf T' u ≤ qf ((((1 - δ)⁻¹ : ℝ) : ℂ) • T) u := fun u => by
    have := tOperator_anti s w pts hvol hw hs hcm hh' (fun u => by rw [qf_smul]; exact h2 u) u
    rwa [hscale hm] at this
  have hT'h : T'.IsHermitian := (tOperator_hermitian s w vol pts hh'.isHermitian).transpose
  have hT'pd : T'.PosDef := (pd_iff hT'h).2 fun u hu => by
    refine lt_of_lt_of_le ?_ (b1 u)
    rw [qf_smul]
    exact mul_pos (inv_pos.2 hp) ((pd_iff hTpd.isHermitian).1 hTpd u hu)
  have hinv : ∀ {c : ℝ}, 0 < c → ((((c⁻¹ : ℝ) : ℂ) • T)⁻¹ = (c : ℂ) • T⁻¹) ∧ ((((c⁻¹ : ℝ) : ℂ) • T).PosDef) := by
    intro c hc
    refine ⟨Matrix.inv_eq_left_inv ?_, hTpd.smul (by exact_mod_cast inv_pos.2 hc)⟩
    rw [smul_mul_smul_comm, Matrix.nonsing_inv_mul _ (isUnit_iff_ne_zero.2 hTpd.det_pos.ne'), ← Complex.ofReal_mul,
      mul_inv_cancel₀ hc.ne', Complex.ofReal_one, one_smul]
  refine entries_of_sandwich hT'pd.inv.isHermitian hTpd.inv.posSemidef hδ (fun u => ?_) (fun u => ?_) a b
  · have := inv_anti (hinv hp).2 hT'pd b1 u
    rwa [(hinv hp).1, qf_smul] at this
  · have := inv_anti hT'pd (hinv hm).2 b2 u
    rwa [(hinv hm).1, qf_smul] at this

end Operator

/-- Steps with growing sets of points, on a sequence that converges to a positive definite matrix. -/
theorem step_tendsto {n N : ℕ} (hN : N ≠ 0) (s : Fin N → MvPolynomial (Fin (n + 2)) ℂ) (w : (Fin (n + 2) → ℂ) → ℝ)
    {vol : ℕ → ℝ} (hvol : ∀ᶠ b in atTop, 0 < vol b) {pts : ℕ → List (Fin (n + 2) → ℂ)} (hw : ∀ b, ∀ Z ∈ pts b, 0 < w Z)
    (hs : ∀ b, ∀ Z ∈ pts b, ∃ a, eval Z (s a) ≠ 0) {h K : Matrix (Fin N) (Fin N) ℂ} (hh : h.PosDef) (hK : K.PosDef)
    (hlim : Tendsto (fun b => (tOperator s h (vol b) w (pts b))⁻¹.transpose) atTop (𝓝 K))
    {G : ℕ → Matrix (Fin N) (Fin N) ℂ} (hGh : ∀ b, (G b).IsHermitian) {c : ℝ} (hc : 0 < c)
    (hG : Tendsto G atTop (𝓝 ((c : ℂ) • h))) :
    Tendsto (fun b => (tOperator s (G b) (vol b) w (pts b))⁻¹.transpose) atTop (𝓝 ((c : ℂ) • K)) := by
  have hcc : (c : ℂ) ≠ 0 := by exact_mod_cast hc.ne'
  have hch : ((c : ℂ) • h).PosDef := hh.smul (by exact_mod_cast hc)
  have hdet0 : ∀ᶠ b in atTop, (tOperator s h (vol b) w (pts b)).det ≠ 0 := by
    have h1 := ((Continuous.matrix_det continuous_id).tendsto K).comp hlim
    filter_upwards [h1.eventually_ne hK.det_pos.ne'] with b hb h0
    have : ¬ IsUnit (tOperator s h (vol b) w (pts b)).det := fun hu => hu.ne_zero h0
    have h2 := Matrix.nonsing_inv_apply_not_isUnit _ this
    have h3 : ((fun b => (tOperator s h (vol b) w (pts b))⁻¹.transpose) b).det = 0 := by
      simp only [h2, Matrix.transpose_zero]
      have : Nonempty (Fin N) := ⟨⟨0, Nat.pos_of_ne_zero hN⟩⟩
      exact Matrix.det_zero
    exact hb h3
  have hlim' : Tendsto (fun b => (tOperator s ((c : ℂ) • h) (vol b) w (pts b))⁻¹.transpose) atTop (𝓝 ((c : ℂ) • K)) := by
    refine (hlim.const_smul (c : ℂ)).congr' ?_
    filter_upwards [hdet0] with b hb
    rw [tOperator_smul]
    let := invertibleOfNonzero (inv_ne_zero hcc)
    rw [Matrix.inv_smul _ _ (isUnit_iff_ne_zero.2 hb), Matrix.transpose_smul, invOf_eq_inv, inv_inv]
  obtain ⟨δ, hδ, hδ0, hsand⟩ := sandwich_of_tendsto hN hch hG
  refine tendsto_pi_nhds.2 fun a => tendsto_pi_nhds.2 fun e => ?_
  have hent : Tendsto (fun b => (tOperator s ((c : ℂ) • h) (vol b) w (pts b))⁻¹.transpose a e) atTop (𝓝 (((c : ℂ) • K) a e)) :=
    tendsto_pi_nhds.1 (tendsto_pi_nhds.1 hlim' a) e
  have htr : Tendsto (fun b => 3 * δ b * (tOperator s ((c : ℂ) • h) (vol b) w (pts b))⁻¹.transpose.trace.re) atTop (𝓝 0) := by
    have h1 := ((Complex.continuous_re.comp (Continuous.matrix_trace continuous_id)).tendsto ((c : ℂ) • K)).comp hlim'
    have h2 := (hδ.const_mul 3).mul h1
    rwa [mul_zero, zero_mul] at h2
  have hdiff : Tendsto (fun b => (tOperator s (G b) (vol b) w (pts b))⁻¹.transpose a e -
      (tOperator s ((c : ℂ) • h) (vol b) w (pts b))⁻¹.transpose a e) atTop (𝓝 0) := by
    rw [tendsto_zero_iff_norm_tendsto_zero]
    refine squeeze_zero' (Eventually.of_forall fun _ => norm_nonneg _) ?_ htr
    filter_upwards [hvol, hdet0, hδ.eventually (gt_mem_nhds zero_lt_one)] with b h1 h2 h3
    have hGpd : (G b).PosDef := (pd_iff (hGh b)).2 fun u hu =>
      (mul_pos (sub_pos.2 h3) ((pd_iff hch.isHermitian).1 hch u hu)).trans_le (hsand b u).2
    refine step_sandwich s w (pts b) h1 (hw b) (hs b) hch hGpd (hδ0 b) h3 (fun u => (hsand b u).1) (fun u => (hsand b u).2) ?_ a e
    rw [tOperator_smul, Matrix.det_smul]
    exact mul_ne_zero (pow_ne_zero _ (inv_ne_zero hcc)) h2
  have := hdiff.add hent
  rw [zero_add] at this
  exact this.congr fun b => by ring

end Cyjax
