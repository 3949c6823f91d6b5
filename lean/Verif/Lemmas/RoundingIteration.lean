import Verif.Spec.RoundingIteration
import Verif.Lemmas.RoundingUniform
import Verif.Props.RoundingStep

/-! # Rounding errors of Donaldson's algorithm in units of the accuracy of the arithmetic (for C169) -/

namespace Cyjax.Donaldson

open Cyjax.Fl Cyjax.Spec
open scoped ComplexOrder ComplexConjugate Topology

variable {N : ℕ}

/-! ## The inverse -/

theorem mulVec_le {X : Matrix (Fin N) (Fin N) ℂ} {L : ℝ} (h : ∀ a, ∑ b, ‖X a b‖ ≤ L) (v : Fin N → ℂ) (a : Fin N) :
    ‖Matrix.mulVec X v a‖ ≤ L * ‖v‖ := by
  calc ‖Matrix.mulVec X v a‖ ≤ ∑ b, ‖X a b * v b‖ := by
        rw [Matrix.mulVec, dotProduct]
        exact norm_sum_le _ _
    _ ≤ ∑ b, ‖X a b‖ * ‖v‖ := Finset.sum_le_sum fun b _ => by
        rw [norm_mul]
        exact mul_le_mul_of_nonneg_left (norm_le_pi_norm v b) (norm_nonneg _)
    _ = (∑ b, ‖X a b‖) * ‖v‖ := by rw [Finset.sum_mul]
    _ ≤ _ := mul_le_mul_of_nonneg_right (h a) (norm_nonneg _)

theorem mulVec_norm_le {X : Matrix (Fin N) (Fin N) ℂ} {L : ℝ} (h0 : 0 ≤ L) (h : ∀ a, ∑ b, ‖X a b‖ ≤ L) (v : Fin N → ℂ) :
    ‖Matrix.mulVec X v‖ ≤ L * ‖v‖ :=
  (pi_norm_le_iff_of_nonneg (by positivity)).2 (mulVec_le h v)

variable {T T' : Matrix (Fin N) (Fin N) ℂ} {L φ : ℝ}

/-- Small errors keep a matrix invertible. -/
theorem isUnit_near (hT : IsUnit T) (hL : 0 ≤ L) (hφ : 0 ≤ φ) (hinv : ∀ a, ∑ b, ‖T⁻¹ a b‖ ≤ L)
    (hF : ∀ a, ∑ b, ‖T' a b - T a b‖ ≤ φ) (hLφ : L * φ < 1) : IsUnit T' := by
  rw [← Matrix.mulVec_injective_iff_isUnit]
  refine (injective_iff_map_eq_zero (Matrix.mulVecLin T')).2 fun v hv => ?_
  rw [Matrix.mulVecLin_apply] at hv
  have hTi : T⁻¹ * T = 1 := Matrix.nonsing_inv_mul T ((Matrix.isUnit_iff_isUnit_det T).1 hT)
  have e : v = -Matrix.mulVec T⁻¹ (Matrix.mulVec (T' - T) v) := by
    rw [Matrix.sub_mulVec, hv, zero_sub, Matrix.mulVec_neg, neg_neg, Matrix.mulVec_mulVec, hTi, Matrix.one_mulVec]
  have h1 : ‖v‖ ≤ L * (φ * ‖v‖) := by
    conv_lhs => rw [e, norm_neg]
    exact (mulVec_norm_le hL hinv _).trans (mul_le_mul_of_nonneg_left (mulVec_norm_le hφ (fun a => by simpa using hF a) v) hL)
  have h2 : ‖v‖ ≤ 0 := by nlinarith [norm_nonneg v]
  exact norm_le_zero_iff.1 h2

/-- The result of a stable inverse. -/
theorem invStable_near {inv : Matrix (Fin N) (Fin N) ℂ → Matrix (Fin N) (Fin N) ℂ} {ρ b : ℝ} (hi : InvStable inv ρ) (hρ : 0 ≤ ρ)
    (hT : IsUnit T) (hL : 0 ≤ L) (hφ : 0 ≤ φ) (hinv : ∀ a, ∑ b, ‖T⁻¹ a b‖ ≤ L)
    (hF : ∀ a, ∑ b, ‖T' a b - T a b‖ ≤ φ) (hb : ∀ i j, ‖T' i j‖ ≤ b) (hLφ : L * (φ + N * (ρ * b)) ≤ 1 / 2) (i j : Fin N) :
    ‖inv T' i j - T⁻¹ i j‖ ≤ 2 * L ^ 2 * (φ + N * (ρ * b)) := by
  have hb0 : 0 ≤ b := (norm_nonneg _).trans (hb i j)
  have hρb : 0 ≤ N * (ρ * b) := by positivity
  have hLφ' : L * φ < 1 := by nlinarith [mul_nonneg hL hρb]
  obtain ⟨E, hE, hx⟩ := hi T' b (isUnit_near hT hL hφ hinv hF hLφ') hb j
  obtain ⟨x, hxd⟩ : ∃ x : Fin N → ℂ, x = fun k => inv T' k j := ⟨_, rfl⟩
  obtain ⟨y, hyd⟩ : ∃ y : Fin N → ℂ, y = Pi.single j 1 := ⟨_, rfl⟩
  have hTi : T⁻¹ * T = 1 := Matrix.nonsing_inv_mul T ((Matrix.isUnit_iff_isUnit_det T).1 hT)
  have hsys : Matrix.mulVec (T' + E) x = y := by
    funext i
    rw [hxd, hyd, Pi.single_apply, ← hx i]
    rfl
  have hrow : ∀ a, ∑ b, ‖(T' - T + E) a b‖ ≤ φ + N * (ρ * b) := by
    intro a
    calc _ ≤ ∑ c, (‖T' a c - T a c‖ + ρ * b) := Finset.sum_le_sum fun c _ => by
            rw [Matrix.add_apply, Matrix.sub_apply]
            exact (norm_add_le _ _).trans (add_le_add_right (hE a c) _)
      _ = ∑ c, ‖T' a c - T a c‖ + N * (ρ * b) := by
            rw [Finset.sum_add_distrib, Finset.sum_const, Finset.card_univ, Fintype.card_fin, nsmul_eq_mul]
      _ ≤ _ := add_le_add_left (hF a) _
  have e : x = Matrix.mulVec T⁻¹ (y - Matrix.mulVec (T' - T + E) x) := by
    have : T' - T + E = (T' + E) - T := by abel
    rw [this, Matrix.sub_mulVec, hsys, sub_sub_cancel, Matrix.mulVec_mulVec, hTi, Matrix.one_mulVec]
  have hψ : 0 ≤ φ + N * (ρ * b) := by positivity
  have hFx := mulVec_norm_le hψ hrow x
  have hy : ‖y‖ ≤ 1 := by
    rw [hyd]
    refine (pi_norm_le_iff_of_nonneg zero_le_one).2 fun k => ?_
    rw [Pi.single_apply]
    split <;> simp
  have h1 : ‖x‖ ≤ L * (1 + (φ + N * (ρ * b)) * ‖x‖) := by
    conv_lhs => rw [e]
    exact (mulVec_norm_le hL hinv _).trans (mul_le_mul_of_nonneg_left ((norm_sub_le _ _).trans (add_le_add hy hFx)) hL)
  have h2 : ‖x‖ ≤ 2 * L := by nlinarith [norm_nonneg x, mul_le_mul_of_nonneg_right hLφ (norm_nonneg x)]
  have e2 : inv T' i j - T⁻¹ i j = -Matrix.mulVec T⁻¹ (Matrix.mulVec (T' - T + E) x) i := by
    have h3 := congrFun e i
    rw [Matrix.mulVec_sub, Pi.sub_apply, hyd, Matrix.mulVec_single_one] at h3
    have h4 : x i = inv T' i j := by rw [hxd]
    rw [← h4, h3]
    simp
  rw [e2, norm_neg]
  calc _ ≤ L * ‖Matrix.mulVec (T' - T + E) x‖ := mulVec_le hinv _ i
    _ ≤ L * ((φ + N * (ρ * b)) * (2 * L)) := mul_le_mul_of_nonneg_left (hFx.trans (mul_le_mul_of_nonneg_left h2 hψ)) hL
    _ = _ := by ring

/-! ## Entries of matrices that agree up to a factor -/

theorem entries_of_within {H K : Matrix (Fin N) (Fin N) ℂ} (hH : H.PosDef) (hK : K.PosDef) {c : ℝ} (hc : 1 ≤ c)
    (h1 : ∀ u, qf H u ≤ c * qf K u) (h2 : ∀ u, qf K u ≤ c * qf H u) (a b : Fin N) :
    ‖H a b - K a b‖ ≤ 3 * (c - 1) * K.trace.re := by
  have hKn : ∀ u, 0 ≤ qf K u := (psd_iff hK.isHermitian).1 hK.posSemidef
  have hHn : ∀ u, 0 ≤ qf H u := (psd_iff hH.isHermitian).1 hH.posSemidef
  have hs : (((c - 1 : ℝ) : ℂ) • K).IsHermitian := smul_isHermitian _ hK.isHermitian
  have hD : (H - K + ((c - 1 : ℝ) : ℂ) • K).PosSemidef := by
    refine (psd_iff ((hH.isHermitian.sub hK.isHermitian).add hs)).2 fun u => ?_
    rw [qf_add, qf_sub, qf_smul]
    have := h2 u
    have h3 : qf H u ≤ c * qf K u := h1 u
    nlinarith [hKn u, hHn u]
  have ht : (H - K + ((c - 1 : ℝ) : ℂ) • K).trace.re ≤ 2 * (c - 1) * K.trace.re := by
    rw [trace_eq_sum_qf, trace_eq_sum_qf, Finset.mul_sum]
    refine Finset.sum_le_sum fun i _ => ?_
    rw [qf_add, qf_sub, qf_smul]
    linarith [h1 (Pi.single i 1)]
  have hE := (entry_le hD a b).trans ht
  have hK' := entry_le hK.posSemidef a b
  have e : H a b - K a b = (H - K + ((c - 1 : ℝ) : ℂ) • K) a b - ((c - 1 : ℝ) : ℂ) * K a b := by
    simp only [Matrix.add_apply, Matrix.sub_apply, Matrix.smul_apply, smul_eq_mul]
    ring
  rw [e]
  refine (norm_sub_le _ _).trans ?_
  rw [norm_mul, Complex.norm_real, Real.norm_of_nonneg (by linarith : (0 : ℝ) ≤ c - 1)]
  have := mul_le_mul_of_nonneg_left hK' (by linarith : (0 : ℝ) ≤ c - 1)
  linarith

/-! ## One step -/

/-- Growth of the errors of the matrix `T` of a step. -/
noncomputable def stepGrowth (d B : ℕ) (κ τ : ℝ) : ℝ :=
  (1 + τ) ^ (d + B + 7) * ((1 + τ) ^ 2 * (1 + τ)) / (2 - (1 + κ * ((1 + τ) ^ (2 * d + 4) * (1 + τ) ^ 2 - 1))) / (2 - (1 + τ))

theorem gr_stepDen (d : ℕ) (κ : ℝ) : Gr fun τ => 1 + κ * ((1 + τ) ^ (2 * d + 4) * (1 + τ) ^ 2 - 1) :=
  ((Gr.id_add.pow _).mul (Gr.id_add.pow _)).affine κ

theorem gr_step (d B : ℕ) (κ : ℝ) : Gr (stepGrowth d B κ) :=
  (((Gr.id_add.pow _).mul ((Gr.id_add.pow _).mul Gr.id_add)).div_two_sub (gr_stepDen d κ)).div_two_sub Gr.id_add

theorem stepGrowth_le {d B a b t : ℕ} {κ τ : ℝ} (hκ : 0 ≤ κ) (h0 : 0 ≤ τ) (h1 : τ < 1) (hab : a + b ≤ 2 * d) (ht : t ≤ d)
    (h2 : 1 + κ * ((1 + τ) ^ (2 * d + 4) * (1 + τ) ^ 2 - 1) < 2) :
    1 + κ * ((1 + τ) ^ (a + b + 4) * (1 + τ) ^ 2 - 1) < 2 ∧
    (1 + τ) ^ (t + B + 7) * ((1 + τ) ^ 2 * (1 + τ)) / ((2 - (1 + κ * ((1 + τ) ^ (a + b + 4) * (1 + τ) ^ 2 - 1))) * (1 - τ)) ≤
      stepGrowth d B κ τ := by
  have hp : (1 : ℝ) ≤ 1 + τ := by linarith
  have hQ : 1 + κ * ((1 + τ) ^ (a + b + 4) * (1 + τ) ^ 2 - 1) ≤ 1 + κ * ((1 + τ) ^ (2 * d + 4) * (1 + τ) ^ 2 - 1) := by
    refine add_le_add_right (mul_le_mul_of_nonneg_left (sub_le_sub_right ?_ _) hκ) _
    exact mul_le_mul_of_nonneg_right (pow_le_pow_right₀ hp (by omega)) (by positivity)
  refine ⟨hQ.trans_lt h2, ?_⟩
  have e : (2 : ℝ) - (1 + τ) = 1 - τ := by ring
  rw [stepGrowth, div_div, e]
  have hd : 0 < 1 - τ := by linarith
  refine div_le_div₀ (by positivity) ?_ (mul_pos (by linarith) hd) (mul_le_mul_of_nonneg_right (by linarith) hd.le)
  exact mul_le_mul_of_nonneg_right (pow_le_pow_right₀ hp (by omega)) (by positivity)

variable {B M : ℕ} {mon : Fin B → Fin M → Fin N → ℂ} {w : Fin B → Fin M → ℝ} {vol : ℝ}

/-- The exact step from two matrices that agree up to the factor `c ≤ 2`. -/
theorem step_within (hmon : ∀ i k, mon i k ≠ 0) (hw : ∀ i k, 0 ≤ w i k)
    (hspan : ∀ c : Fin N → ℂ, (∀ i k, 0 < w i k → ∑ a, c a * mon i k a = 0) → c = 0) (hvol : 0 < vol)
    {h g S G e : Matrix (Fin N) (Fin N) ℂ} (hh : h.PosDef) (hg2 : (g + g.conjTranspose).PosDef) (hgp : (symmetrise g).PosDef) {c : ℝ}
    (hc1 : 1 ≤ c) (hc2 : c ≤ 2) (w1 : ∀ u, qf (symmetrise g) u ≤ c * qf h u) (w2 : ∀ u, qf h u ≤ c * qf (symmetrise g) u)
    (hS : S = stepT h vol mon w) (hG : G = stepT g vol mon w) (heS : e = S⁻¹.transpose) :
    G.PosDef ∧ G.trace.re ≤ 2 * S.trace.re ∧ (∀ a, ∑ b, ‖G⁻¹ a b‖ ≤ N * (2 * e.trace.re)) ∧
      ∀ a b, ‖G⁻¹.transpose a b - e a b‖ ≤ 3 * (c - 1) * e.trace.re := by
  have hadd : (h + h.conjTranspose).PosDef := by rw [hh.isHermitian.eq]; exact hh.add hh
  have hSp : S.PosDef := hS ▸ C74_invertible h hadd vol hvol mon hmon w hw hspan
  have hep : e.PosDef := heS ▸ hSp.inv.transpose
  have hGp : G.PosDef := hG ▸ C74_invertible g hg2 vol hvol mon hmon w hw hspan
  have hGs : stepT (symmetrise g) vol mon w = G := by rw [stepT_symmetrise, hG]
  have hc0 : 0 < c := by linarith
  have hqG : ∀ u, qf G u ≤ c * qf S u := by
    intro u
    have := qf_stepT_le hh hgp hvol hvol hc0 one_pos (σ := 1) hmon hw (w' := w) w2 (fun i k => (one_mul _).ge) (one_mul _).ge u
    rw [hGs, ← hS, mul_one, mul_one] at this
    exact this
  have hSn : ∀ u, 0 ≤ qf S u := (psd_iff hSp.isHermitian).1 hSp.posSemidef
  have hGt : G.trace.re ≤ 2 * S.trace.re := by
    rw [trace_eq_sum_qf, trace_eq_sum_qf, Finset.mul_sum]
    exact Finset.sum_le_sum fun i _ => (hqG _).trans (mul_le_mul_of_nonneg_right hc2 (hSn _))
  have hGi : G⁻¹.transpose.PosDef := hGp.inv.transpose
  have q1 : ∀ u, qf G⁻¹.transpose u ≤ c * qf e u := by
    intro u
    have := qf_step_le hgp hh hvol hvol hc0 one_pos one_pos hmon hw (w' := w) w1 (fun i k => (one_mul _).ge) (one_mul _).ge
      (by rw [hGs]; exact hGp) (by rw [← hS]; exact hSp) u
    rw [hGs, ← hS, mul_one, mul_one, ← heS] at this
    exact this
  have q2 : ∀ u, qf e u ≤ c * qf G⁻¹.transpose u := by
    intro u
    have := qf_step_le hh hgp hvol hvol hc0 one_pos one_pos hmon hw (w' := w) w2 (fun i k => (one_mul _).ge) (one_mul _).ge
      (by rw [← hS]; exact hSp) (by rw [hGs]; exact hGp) u
    rw [hGs, ← hS, mul_one, mul_one, ← heS] at this
    exact this
  have hen : ∀ u, 0 ≤ qf e u := (psd_iff hep.isHermitian).1 hep.posSemidef
  have hGit : G⁻¹.transpose.trace.re ≤ 2 * e.trace.re := by
    rw [trace_eq_sum_qf, trace_eq_sum_qf, Finset.mul_sum]
    exact Finset.sum_le_sum fun i _ => (q1 _).trans (mul_le_mul_of_nonneg_right hc2 (hen _))
  have hrowL : ∀ a, ∑ b, ‖G⁻¹ a b‖ ≤ N * (2 * e.trace.re) := by
    intro a
    calc _ ≤ ∑ _b : Fin N, 2 * e.trace.re := Finset.sum_le_sum fun b _ => (entry_le hGi.posSemidef b a).trans hGit
      _ = _ := by rw [Finset.sum_const, Finset.card_univ, Fintype.card_fin, nsmul_eq_mul]
  exact ⟨hGp, hGt, hrowL, fun a b => entries_of_within hGi hep hc1 q1 q2 a b⟩

/-- The inverse that is computed from a given matrix. -/
theorem computed_near {A : Arith} {D : DivAbs} {τ : ℝ} (hA : A.Accurate τ) (hD : D.Accurate τ)
    {inv : Matrix (Fin N) (Fin N) ℂ → Matrix (Fin N) (Fin N) ℂ} (hi : InvStable inv τ) {ta tb : RTree (Fin N)} (hta : ta.Covers) (htb : tb.Covers)
    (hB : B ≠ 0) {t : RTree (Fin M)} (ht : t.Covers) {d : ℕ} (hda : ta.depth ≤ d) (hdb : tb.depth ≤ d) (hdt : t.depth ≤ d)
    {g : Matrix (Fin N) (Fin N) ℂ} (hg2 : (g + g.conjTranspose).PosDef) {vol' : ℝ} (hvol : 0 < vol) (hmon : ∀ i k, mon i k ≠ 0)
    (hw : ∀ i k, 0 ≤ w i k) {mon' : Fin B → Fin M → Fin N → ℂ} {w' : Fin B → Fin M → ℝ} (hmon' : ∀ i k a, RelErr τ (mon' i k a) (mon i k a))
    (hw' : ∀ i k, RelErr τ (w' i k) (w i k)) (hvol' : RelErr τ vol' vol) {m μ κ : ℝ} (hm : 0 < m) (hgμ : ∀ a b, ‖g a b‖ ≤ μ)
    (hglo2 : (symmetrise g - (m : ℂ) • (1 : Matrix (Fin N) (Fin N) ℂ)).PosSemidef) (hκ : κ = N * μ / m) (hκ0 : 0 ≤ κ) (hτ1 : τ < 1)
    (e2 : 1 + κ * ((1 + τ) ^ (2 * d + 4) * (1 + τ) ^ 2 - 1) < 2) {C₁ : ℝ} (hC₁ : 0 ≤ C₁) (e1 : stepGrowth d B κ τ - 1 ≤ C₁ * τ)
    {G : Matrix (Fin N) (Fin N) ℂ} (hG : G = stepT g vol mon w) (hGp : G.PosDef) {s L C₂ : ℝ} (hs0 : 0 ≤ s) (hGt : G.trace.re ≤ s) (hL0 : 0 ≤ L)
    (hrowL : ∀ a, ∑ b, ‖G⁻¹ a b‖ ≤ L) (hC₂ : C₂ = N * (s * C₁) + N * (s + s * C₁)) (hτ5 : L * (C₂ * τ) ≤ 1 / 2) (a b : Fin N) :
    ‖inv (stepTF A D ta tb t g vol' mon' w') b a - G⁻¹ b a‖ ≤ 2 * L ^ 2 * (C₂ * τ) := by
  have h0 := hA.nonneg
  obtain ⟨e3, e4⟩ := stepGrowth_le (B := B) hκ0 h0 hτ1 (show ta.depth + tb.depth ≤ 2 * d by omega) hdt e2
  have hent := C165_matrix A D hA hD ta tb hta htb hB t ht g hg2 vol vol' hvol mon mon' hmon w w' hw h0 h0 h0 hτ1 hκ0
    (fun i k => by rw [hκ]; exact C165_condition hm hgμ hglo2 (mon i k)) hmon' hw' hvol' rfl e3 rfl
  rw [← hG] at hent
  have hdg : ∀ a, 0 ≤ (G a a).re ∧ (G a a).re ≤ s := fun a =>
    ⟨(Complex.le_def.1 (hGp.posSemidef.diag_nonneg (i := a))).1,
      (Complex.re_le_norm _).trans ((entry_le hGp.posSemidef a a).trans hGt)⟩
  have hent2 : ∀ a b, ‖stepTF A D ta tb t g vol' mon' w' a b - G a b‖ ≤ s * (C₁ * τ) := by
    intro a b
    refine (hent a b).trans ?_
    have hsq : √((G a a).re * (G b b).re) ≤ s :=
      Real.sqrt_le_iff.2 ⟨hs0, by rw [sq]; exact mul_le_mul (hdg a).2 (hdg b).2 (hdg b).1 hs0⟩
    have hP := sub_le_sub_right e4 1
    have hP2 := hP.trans e1
    calc _ ≤ C₁ * τ * √((G a a).re * (G b b).re) := mul_le_mul_of_nonneg_right hP2 (Real.sqrt_nonneg _)
      _ ≤ C₁ * τ * s := mul_le_mul_of_nonneg_left hsq (by positivity)
      _ = _ := by ring
  have hrow : ∀ a, ∑ b, ‖stepTF A D ta tb t g vol' mon' w' a b - G a b‖ ≤ N * (s * (C₁ * τ)) := by
    intro a
    calc _ ≤ ∑ _b : Fin N, s * (C₁ * τ) := Finset.sum_le_sum fun b _ => hent2 a b
      _ = _ := by rw [Finset.sum_const, Finset.card_univ, Fintype.card_fin, nsmul_eq_mul]
  have hbd : ∀ a b, ‖stepTF A D ta tb t g vol' mon' w' a b‖ ≤ s + s * C₁ := by
    intro a b
    have h1 := (entry_le hGp.posSemidef a b).trans hGt
    have h2 := norm_add_le (stepTF A D ta tb t g vol' mon' w' a b - G a b) (G a b)
    rw [sub_add_cancel] at h2
    have h3 := hent2 a b
    have h4 : s * (C₁ * τ) ≤ s * C₁ := mul_le_mul_of_nonneg_left (by nlinarith) hs0
    linarith
  have hsum : N * (s * (C₁ * τ)) + N * (τ * (s + s * C₁)) = C₂ * τ := by
    rw [hC₂]
    ring
  have hfin := invStable_near hi h0 hGp.isUnit hL0 (by positivity) hrowL hrow hbd (by rw [hsum]; exact hτ5) b a
  rw [hsum] at hfin
  exact hfin

/-- One step of the algorithm: errors of the matrix of at most `C₀ τ` lead to errors of at most `C τ`. -/
theorem step_linear (hmon : ∀ i k, mon i k ≠ 0) (hw : ∀ i k, 0 ≤ w i k)
    (hspan : ∀ c : Fin N → ℂ, (∀ i k, 0 < w i k → ∑ a, c a * mon i k a = 0) → c = 0) (hvol : 0 < vol) (hB : B ≠ 0)
    {h e : Matrix (Fin N) (Fin N) ℂ} (hh : h.PosDef) (he : donaldsonStep .complex h vol mon w = .ok e) (d : ℕ) {C₀ : ℝ} (hC₀ : 0 ≤ C₀) :
    ∃ C τ₀ : ℝ, 0 ≤ C ∧ 0 < τ₀ ∧ ∀ (τ : ℝ) (A : Arith) (D : DivAbs) (inv : Matrix (Fin N) (Fin N) ℂ → Matrix (Fin N) (Fin N) ℂ),
      τ ≤ τ₀ → A.Accurate τ → D.Accurate τ → InvStable inv τ →
      ∀ (ta tb : RTree (Fin N)) (t : RTree (Fin M)), ta.Covers → tb.Covers → t.Covers → ta.depth ≤ d → tb.depth ≤ d → t.depth ≤ d →
      ∀ (mon' : Fin B → Fin M → Fin N → ℂ) (w' : Fin B → Fin M → ℝ) (vol' : ℝ), (∀ i k a, RelErr τ (mon' i k a) (mon i k a)) →
        (∀ i k, RelErr τ (w' i k) (w i k)) → RelErr τ vol' vol →
      ∀ g : Matrix (Fin N) (Fin N) ℂ, (∀ a b, ‖g a b - h a b‖ ≤ C₀ * τ) →
        ∀ a b, ‖donaldsonStepF A D inv ta tb t g vol' mon' w' a b - e a b‖ ≤ C * τ := by
  rcases Nat.eq_zero_or_pos N with rfl | hN
  · exact ⟨0, 1, le_rfl, one_pos, fun τ A D inv _ _ _ _ ta tb t _ _ _ _ _ _ mon' w' vol' _ _ _ g _ a => a.elim0⟩
  have hN' : (0 : ℝ) < N := by exact_mod_cast hN
  obtain ⟨m, hm, hlo⟩ := exists_lower hN.ne' hh
  obtain ⟨S, hS⟩ : ∃ S, S = stepT h vol mon w := ⟨_, rfl⟩
  have hadd : (h + h.conjTranspose).PosDef := by rw [hh.isHermitian.eq]; exact hh.add hh
  have hSp : S.PosDef := hS ▸ C74_invertible h hadd vol hvol mon hmon w hw hspan
  have heS : e = S⁻¹.transpose := by
    have : donaldsonStep .complex h vol mon w = .ok (stepT h vol mon w)⁻¹.transpose := rfl
    rw [this] at he
    rw [hS]
    exact (Except.ok.inj he).symm
  have hep : e.PosDef := heS ▸ hSp.inv.transpose
  obtain ⟨μ, hμ⟩ : ∃ μ, μ = h.trace.re + 1 := ⟨_, rfl⟩
  obtain ⟨s, hs⟩ : ∃ s, s = 2 * S.trace.re := ⟨_, rfl⟩
  obtain ⟨L, hLd⟩ : ∃ L, L = N * (2 * e.trace.re) := ⟨_, rfl⟩
  have ht0 : ∀ {X : Matrix (Fin N) (Fin N) ℂ}, X.PosDef → 0 ≤ X.trace.re := fun {X} hX => by
    rw [trace_eq_sum_qf]
    exact Finset.sum_nonneg fun i _ => (psd_iff hX.isHermitian).1 hX.posSemidef _
  have hs0 : 0 ≤ s := by rw [hs]; linarith [ht0 hSp]
  have he0 := ht0 hep
  have hL0 : 0 ≤ L := by rw [hLd]; positivity
  have hμ0 : 0 < μ := by rw [hμ]; linarith [ht0 hh]
  obtain ⟨κ, hκ⟩ : ∃ κ, κ = N * μ / (m / 2) := ⟨_, rfl⟩
  have hκ0 : 0 ≤ κ := by rw [hκ]; positivity
  obtain ⟨C₁, hC₁, hl⟩ := (gr_step d B κ).linear
  obtain ⟨r, hr, hrτ⟩ := Metric.eventually_nhds_iff.1 (hl.and (gr_stepDen d κ).lt_two)
  -- the constant of the errors of the rows and of the inverse
  obtain ⟨C₂, hC₂⟩ : ∃ x, x = N * (s * C₁) + N * (s + s * C₁) := ⟨_, rfl⟩
  have hC₂0 : 0 ≤ C₂ := by rw [hC₂]; positivity
  obtain ⟨τ₀, hτ₀⟩ : ∃ x, x = min (min (r / 2) (1 / 2)) (min (min (1 / (C₀ + 1)) (m / (2 * N * (C₀ + 1)))) (1 / (2 * (L * C₂ + 1)))) := ⟨_, rfl⟩
  refine ⟨2 * L ^ 2 * C₂ + 3 * (2 * (N * C₀ / m)) * e.trace.re, τ₀, by positivity, by rw [hτ₀]; positivity, ?_⟩
  intro τ A D inv hτ hA hD hi ta tb t hta htb ht hda hdb hdt mon' w' vol' hmon' hw' hvol' g hg
  have h0 := hA.nonneg
  have hτr : dist τ 0 < r := by
    rw [Real.dist_0_eq_abs, abs_of_nonneg h0]
    have : τ ≤ r / 2 := hτ.trans (by rw [hτ₀]; exact (min_le_left _ _).trans (min_le_left _ _))
    linarith
  have hτ2 : τ ≤ 1 / 2 := hτ.trans (by rw [hτ₀]; exact (min_le_left _ _).trans (min_le_right _ _))
  have hτ3 : (C₀ + 1) * τ ≤ 1 := by
    have : τ ≤ 1 / (C₀ + 1) := hτ.trans (by rw [hτ₀]; exact (min_le_right _ _).trans ((min_le_left _ _).trans (min_le_left _ _)))
    rw [le_div_iff₀ (by linarith)] at this
    linarith
  have hτ4 : N * (C₀ * τ) / m ≤ 1 / 2 := by
    have : τ ≤ m / (2 * N * (C₀ + 1)) := hτ.trans (by rw [hτ₀]; exact (min_le_right _ _).trans ((min_le_left _ _).trans (min_le_right _ _)))
    rw [le_div_iff₀ (by positivity)] at this
    rw [div_le_iff₀ hm]
    nlinarith [mul_nonneg hN'.le h0]
  have hτ5 : L * (C₂ * τ) ≤ 1 / 2 := by
    have : τ ≤ 1 / (2 * (L * C₂ + 1)) := hτ.trans (by rw [hτ₀]; exact (min_le_right _ _).trans (min_le_right _ _))
    rw [le_div_iff₀ (by positivity)] at this
    nlinarith
  obtain ⟨e1, e2⟩ := hrτ hτr
  -- the given matrix
  have hgN : N * (C₀ * τ) < m := by
    rw [div_le_iff₀ hm] at hτ4
    linarith
  have hlo' : (h - (m : ℂ) • (1 : Matrix (Fin N) (Fin N) ℂ)).PosSemidef := by
    rw [sub_psd_iff (smul_isHermitian m Matrix.isHermitian_one) hh.isHermitian]
    simpa only [qf_smul] using hlo
  obtain ⟨hgp, hgw⟩ := C164_entries hm hgN hlo' hg
  obtain ⟨c, hc⟩ : ∃ c, c = (1 - N * (C₀ * τ) / m)⁻¹ := ⟨_, rfl⟩
  rw [← hc] at hgw
  have hq0 : 0 ≤ N * (C₀ * τ) / m := by positivity
  have hc1 : 1 ≤ c := by
    rw [hc]
    exact (one_le_inv₀ (by linarith)).2 (by linarith)
  have hcl : c - 1 ≤ 2 * (N * (C₀ * τ) / m) := by
    have : c * (1 - N * (C₀ * τ) / m) = 1 := by rw [hc]; exact inv_mul_cancel₀ (by linarith)
    nlinarith
  have hc2 : c ≤ 2 := by linarith
  obtain ⟨w1, w2⟩ := (within_iff hgp.isHermitian hh.isHermitian).1 hgw
  have hone : ∀ u : Fin N → ℂ, 0 ≤ qf 1 u := fun u => by rw [qf_one]; positivity
  have hglo : ∀ u, m / 2 * qf 1 u ≤ qf (symmetrise g) u := by
    intro u
    have h1 := (hlo u).trans (w2 u)
    have h2 : 0 ≤ qf (symmetrise g) u := (psd_iff hgp.isHermitian).1 hgp.posSemidef u
    nlinarith
  have hgμ : ∀ a b, ‖g a b‖ ≤ μ := by
    intro a b
    have h1 := entry_le hh.posSemidef a b
    have h2 : ‖g a b‖ ≤ ‖g a b - h a b‖ + ‖h a b‖ := by
      have := norm_add_le (g a b - h a b) (h a b)
      rwa [sub_add_cancel] at this
    rw [hμ]
    linarith [hg a b]
  have hg2 : (g + g.conjTranspose).PosDef := by
    have e3 : g + g.conjTranspose = (2 : ℂ) • symmetrise g := by
      ext a b
      simp only [symmetrise, Matrix.add_apply, Matrix.conjTranspose_apply, Matrix.smul_apply, Matrix.of_apply, smul_eq_mul, Complex.star_def]
      ring
    rw [e3]
    exact hgp.smul two_pos
  have hglo2 : (symmetrise g - ((m / 2 : ℝ) : ℂ) • (1 : Matrix (Fin N) (Fin N) ℂ)).PosSemidef := by
    rw [sub_psd_iff (smul_isHermitian _ Matrix.isHermitian_one) hgp.isHermitian]
    simpa only [qf_smul] using hglo
  -- the exact step from this matrix
  obtain ⟨G, hG⟩ : ∃ G, G = stepT g vol mon w := ⟨_, rfl⟩
  obtain ⟨hGp, hGt, hrowL, hexact⟩ := step_within hmon hw hspan hvol hh hg2 hgp hc1 hc2 w1 w2 hS hG heS
  rw [← hs] at hGt
  rw [← hLd] at hrowL
  have hfin := computed_near hA hD hi hta htb hB ht hda hdb hdt hg2 hvol hmon hw hmon' hw' hvol' (half_pos hm) hgμ hglo2 hκ hκ0 (by linarith) e2
    hC₁ (e1 h0) hG hGp hs0 hGt hL0 hrowL hC₂ hτ5
  intro a b
  have e5 : donaldsonStepF A D inv ta tb t g vol' mon' w' a b = inv (stepTF A D ta tb t g vol' mon' w') b a := rfl
  rw [e5]
  have e6 : inv (stepTF A D ta tb t g vol' mon' w') b a - e a b =
      (inv (stepTF A D ta tb t g vol' mon' w') b a - G⁻¹ b a) + (G⁻¹.transpose a b - e a b) := by
    rw [Matrix.transpose_apply]
    ring
  rw [e6]
  refine (norm_add_le _ _).trans ((add_le_add (hfin a b) (hexact a b)).trans ?_)
  have h7 : 3 * (c - 1) * e.trace.re ≤ 3 * (2 * (N * (C₀ * τ) / m)) * e.trace.re :=
    mul_le_mul_of_nonneg_right (by linarith) he0
  have h8 : 3 * (2 * (N * (C₀ * τ) / m)) * e.trace.re = 3 * (2 * (N * C₀ / m)) * e.trace.re * τ := by ring
  linarith

end Cyjax.Donaldson
