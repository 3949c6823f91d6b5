import Verif.Spec.StepErrors
import Verif.Lemmas.DonaldsonStep
import Verif.Lemmas.HermitianForms
import Mathlib.Analysis.SpecialFunctions.Complex.Log

/-! # Errors in Donaldson's step (for C164) -/

namespace Cyjax.Spec

open Matrix Cyjax.Donaldson
open scoped ComplexOrder ComplexConjugate

variable {N B M : ℕ} {H K L : Matrix (Fin N) (Fin N) ℂ}

theorem smul_isHermitian (c : ℝ) (hH : H.IsHermitian) : ((c : ℂ) • H).IsHermitian := by
  rw [IsHermitian, conjTranspose_smul, hH.eq, Complex.star_def, Complex.conj_ofReal]

theorem sub_psd_iff (hH : H.IsHermitian) (hK : K.IsHermitian) : (K - H).PosSemidef ↔ ∀ u, qf H u ≤ qf K u := by
  rw [psd_iff (hK.sub hH)]
  simp only [qf_sub, sub_nonneg]

theorem within_iff {c : ℝ} (hH : H.IsHermitian) (hK : K.IsHermitian) :
    WithinFactor c H K ↔ (∀ u, qf H u ≤ c * qf K u) ∧ ∀ u, qf K u ≤ c * qf H u := by
  rw [WithinFactor, sub_psd_iff hH (smul_isHermitian c hK), sub_psd_iff hK (smul_isHermitian c hH)]
  simp only [qf_smul]

theorem qf_transpose (A : Matrix (Fin N) (Fin N) ℂ) (u : Fin N → ℂ) : qf A.transpose u = qf A (star u) := by
  rw [qf_eq_sum, qf_eq_sum, Finset.sum_comm]
  congr 1
  refine Finset.sum_congr rfl fun i _ => Finset.sum_congr rfl fun j _ => ?_
  simp only [transpose_apply, Pi.star_apply, star_star]
  ring

theorem stepDen_qf (h : Matrix (Fin N) (Fin N) ℂ) (s : Fin N → ℂ) : stepDen h s = qf h (star s) := by
  rw [stepDen, qf_eq_sum]
  congr 1
  refine Finset.sum_congr rfl fun a _ => Finset.sum_congr rfl fun b _ => ?_
  simp only [Pi.star_apply, Complex.star_def, Complex.conj_conj]
  ring

theorem qf_stepT (h : Matrix (Fin N) (Fin N) ℂ) (vol : ℝ) (mon : Fin B → Fin M → Fin N → ℂ) (w : Fin B → Fin M → ℝ)
    (x : Fin N → ℂ) : qf (stepT h vol mon w) x = (N : ℝ) / (vol * (B * M)) * ∑ i, ∑ k,
      ‖∑ a, conj (x a) * mon i k a‖ ^ 2 * (w i k / stepDen (symmetrise h) (mon i k)) := by
  rw [qf, stepT_form, Complex.ofReal_re]

theorem qf_stepT_le (hH : H.PosDef) (hK : K.PosDef) {vol vol' c ρ σ : ℝ} (hvol : 0 < vol) (hvol' : 0 < vol')
    (hc : 0 < c) (hρ : 0 < ρ)
    {mon : Fin B → Fin M → Fin N → ℂ} (hmon : ∀ i k, mon i k ≠ 0) {w w' : Fin B → Fin M → ℝ} (hw : ∀ i k, 0 ≤ w i k)
    (hHK : ∀ u, qf H u ≤ c * qf K u) (hww : ∀ i k, w' i k ≤ ρ * w i k) (hv : vol ≤ σ * vol') (x : Fin N → ℂ) :
    qf (stepT K vol' mon w') x ≤ c * ρ * σ * qf (stepT H vol mon w) x := by
  rw [qf_stepT, qf_stepT, symmetrise_of_isHermitian hH.isHermitian, symmetrise_of_isHermitian hK.isHermitian]
  set S := ∑ i, ∑ k, ‖∑ a, conj (x a) * mon i k a‖ ^ 2 * (w i k / stepDen H (mon i k)) with hS
  have hS0 : 0 ≤ S := Finset.sum_nonneg fun i _ => Finset.sum_nonneg fun k _ =>
    mul_nonneg (by positivity) (div_nonneg (hw i k) (stepDen_pos hH (hmon i k)).le)
  have h1 : ∑ i, ∑ k, ‖∑ a, conj (x a) * mon i k a‖ ^ 2 * (w' i k / stepDen K (mon i k)) ≤ c * ρ * S := by
    rw [hS, Finset.mul_sum]
    refine Finset.sum_le_sum fun i _ => ?_
    rw [Finset.mul_sum]
    refine Finset.sum_le_sum fun k _ => ?_
    have hdH := stepDen_pos hH (hmon i k)
    have hdK := stepDen_pos hK (hmon i k)
    have hd : stepDen H (mon i k) ≤ c * stepDen K (mon i k) := by
      rw [stepDen_qf, stepDen_qf]
      exact hHK _
    have h2 : w' i k / stepDen K (mon i k) ≤ c * ρ * (w i k / stepDen H (mon i k)) := by
      rw [← mul_div_assoc, div_le_div_iff₀ hdK hdH]
      calc w' i k * stepDen H (mon i k) ≤ ρ * w i k * stepDen H (mon i k) := mul_le_mul_of_nonneg_right (hww i k) hdH.le
        _ ≤ ρ * w i k * (c * stepDen K (mon i k)) := mul_le_mul_of_nonneg_left hd (mul_nonneg hρ.le (hw i k))
        _ = _ := by ring
    calc _ ≤ ‖∑ a, conj (x a) * mon i k a‖ ^ 2 * (c * ρ * (w i k / stepDen H (mon i k))) :=
          mul_le_mul_of_nonneg_left h2 (by positivity)
      _ = _ := by ring
  have h3 : (N : ℝ) / (vol' * (B * M)) ≤ σ * ((N : ℝ) / (vol * (B * M))) := by
    rw [mul_comm vol', mul_comm vol, ← div_div _ ((B : ℝ) * M) vol', ← div_div _ ((B : ℝ) * M) vol, ← mul_div_assoc,
      div_le_div_iff₀ hvol' hvol]
    have : 0 ≤ (N : ℝ) / (B * M) := by positivity
    calc (N : ℝ) / (B * M) * vol ≤ (N : ℝ) / (B * M) * (σ * vol') := mul_le_mul_of_nonneg_left hv this
      _ = _ := by ring
  calc _ ≤ (N : ℝ) / (vol' * (B * M)) * (c * ρ * S) := mul_le_mul_of_nonneg_left h1 (by positivity)
    _ ≤ σ * ((N : ℝ) / (vol * (B * M))) * (c * ρ * S) := mul_le_mul_of_nonneg_right h3 (by positivity)
    _ = _ := by ring

/-- Inverses of matrices that are ordered up to a factor. -/
theorem inv_le_smul {A T : Matrix (Fin N) (Fin N) ℂ} (hA : A.PosDef) (hT : T.PosDef) {t : ℝ} (ht : 0 < t)
    (h : ∀ u, qf A u ≤ t * qf T u) (u : Fin N → ℂ) : qf T⁻¹ u ≤ t * qf A⁻¹ u := by
  have htT : ((t : ℂ) • T).PosDef := hT.smul (by exact_mod_cast ht)
  have h1 := inv_anti hA htT (fun v => by rw [qf_smul]; exact h v) u
  have e : ((t : ℂ) • T)⁻¹ = ((t⁻¹ : ℝ) : ℂ) • T⁻¹ := by
    refine inv_eq_right_inv ?_
    rw [smul_mul_smul_comm, mul_nonsing_inv _ (isUnit_iff_ne_zero.2 hT.det_pos.ne'), ← Complex.ofReal_mul,
      mul_inv_cancel₀ ht.ne', Complex.ofReal_one, one_smul]
  rw [e, qf_smul, inv_mul_le_iff₀ ht] at h1
  exact h1

theorem qf_step_le (hH : H.PosDef) (hK : K.PosDef) {vol vol' c ρ σ : ℝ} (hvol : 0 < vol) (hvol' : 0 < vol')
    (hc : 0 < c) (hρ : 0 < ρ) (hσ : 0 < σ)
    {mon : Fin B → Fin M → Fin N → ℂ} (hmon : ∀ i k, mon i k ≠ 0) {w w' : Fin B → Fin M → ℝ} (hw : ∀ i k, 0 ≤ w i k)
    (hHK : ∀ u, qf H u ≤ c * qf K u) (hww : ∀ i k, w' i k ≤ ρ * w i k) (hv : vol ≤ σ * vol')
    (hT : (stepT H vol mon w).PosDef) (hT' : (stepT K vol' mon w').PosDef) (x : Fin N → ℂ) :
    qf (stepT H vol mon w)⁻¹.transpose x ≤ c * ρ * σ * qf (stepT K vol' mon w')⁻¹.transpose x := by
  rw [qf_transpose, qf_transpose]
  exact inv_le_smul hT' hT (by positivity)
    (qf_stepT_le hH hK hvol hvol' hc hρ hmon hw hHK hww hv) _

/-- Small errors in the entries of a positive definite matrix. -/
theorem within_of_entries {m ε : ℝ} (hm : 0 < m) (hε : N * ε < m) (hH : H.IsHermitian)
    (hlo : ∀ u, m * qf 1 u ≤ qf H u) (hK : K.IsHermitian) (h : ∀ a b, ‖K a b - H a b‖ ≤ ε) :
    (∀ u, qf K u ≤ (1 - N * ε / m)⁻¹ * qf H u) ∧ ∀ u, qf H u ≤ (1 - N * ε / m)⁻¹ * qf K u := by
  set t := N * ε / m with ht
  have ht1 : t < 1 := (div_lt_one hm).2 hε
  have h1 : ∀ u, |qf K u - qf H u| ≤ t * qf H u := by
    intro u
    rw [← qf_sub]
    by_cases hN : ε < 0
    · have hN0 : N = 0 := by
        by_contra h0
        have := (norm_nonneg _).trans (h ⟨0, Nat.pos_of_ne_zero h0⟩ ⟨0, Nat.pos_of_ne_zero h0⟩)
        linarith
      subst hN0
      simp [qf]
    · have hε0 : 0 ≤ ε := not_lt.1 hN
      refine (qf_le_entries ε (A := K - H) (fun a b => h a b) u).trans ?_
      calc N * ε * qf 1 u = t * (m * qf 1 u) := by rw [ht]; field_simp
        _ ≤ t * qf H u := mul_le_mul_of_nonneg_left (hlo u) (by positivity)
  have hq : ∀ u, 0 ≤ qf H u := fun u => (mul_nonneg hm.le (by rw [qf_one]; positivity)).trans (hlo u)
  have h1t : 0 < 1 - t := by linarith
  refine ⟨fun u => ?_, fun u => ?_⟩
  · have h2 := (abs_le.1 (h1 u)).2
    rw [le_inv_mul_iff₀ h1t]
    by_cases ht0 : 0 ≤ t
    · nlinarith [hq u, mul_nonneg (sq_nonneg t) (hq u)]
    · nlinarith [hq u, mul_nonneg (sq_nonneg t) (hq u), abs_nonneg (qf K u - qf H u), h1 u]
  · have h2 := (abs_le.1 (h1 u)).1
    rw [le_inv_mul_iff₀ h1t]
    linarith

theorem symmetrise_entries {G H : Matrix (Fin N) (Fin N) ℂ} (hH : H.IsHermitian) {ε : ℝ} (h : ∀ a b, ‖G a b - H a b‖ ≤ ε)
    (a b : Fin N) : ‖symmetrise G a b - H a b‖ ≤ ε := by
  have e : conj (H b a) = H a b := hH.apply a b
  have : symmetrise G a b - H a b = ((G a b - H a b) + conj (G b a - H b a)) / 2 := by
    rw [map_sub, e]
    simp only [symmetrise, of_apply]
    ring
  rw [this, norm_div, Complex.norm_two, div_le_iff₀ two_pos]
  refine (norm_add_le _ _).trans ?_
  rw [RCLike.norm_conj]
  linarith [h a b, h b a]

theorem stepT_symmetrise (h : Matrix (Fin N) (Fin N) ℂ) (vol : ℝ) (mon : Fin B → Fin M → Fin N → ℂ) (w : Fin B → Fin M → ℝ) :
    stepT (symmetrise h) vol mon w = stepT h vol mon w := by
  unfold stepT
  rw [symmetrise_of_isHermitian (symmetrise_isHermitian h)]

theorem within_hermitian {c : ℝ} (hK : K.IsHermitian) (h : WithinFactor c H K) : H.IsHermitian := by
  have h1 := ((smul_isHermitian c hK).sub h.1.isHermitian)
  rwa [sub_sub_cancel] at h1

theorem within_posDef {c : ℝ} (hc : 0 < c) (hK : K.PosDef) (h : WithinFactor c H K) : H.PosDef := by
  have hH := within_hermitian hK.isHermitian h
  refine (pd_iff hH).2 fun u hu => ?_
  have h1 := ((within_iff hH hK.isHermitian).1 h).2 u
  exact pos_of_mul_pos_right ((pd_iff hK.isHermitian).1 hK u hu |>.trans_le h1) hc.le

theorem within_trans {c d : ℝ} (hc : 0 < c) (hd : 0 < d) (hH : H.IsHermitian) (hK : K.IsHermitian) (hL : L.IsHermitian)
    (h : WithinFactor c H K) (h' : WithinFactor d K L) : WithinFactor (c * d) H L := by
  rw [within_iff hH hL]
  obtain ⟨h1, h2⟩ := (within_iff hH hK).1 h
  obtain ⟨h3, h4⟩ := (within_iff hK hL).1 h'
  refine ⟨fun u => (h1 u).trans ?_, fun u => (h4 u).trans ?_⟩
  · rw [mul_assoc]
    exact mul_le_mul_of_nonneg_left (h3 u) hc.le
  · rw [mul_comm c d, mul_assoc]
    exact mul_le_mul_of_nonneg_left (h2 u) hd.le

end Cyjax.Spec
