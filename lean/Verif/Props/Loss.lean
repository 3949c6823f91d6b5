import Verif.Model.Ml
import Verif.Spec.Loss
import Mathlib.Tactic.FieldSimp
import Mathlib.Tactic.Positivity
import Mathlib.Algebra.BigOperators.Field
import Mathlib.Algebra.Order.BigOperators.Ring.Finset

/-! # Loss (C82) -/

namespace Cyjax

open Cyjax.Ml Cyjax.Spec
open scoped BigOperators

private theorem mean_nonneg {n : ℕ} {x : Fin n → ℝ} (h : ∀ i, 0 ≤ x i) : 0 ≤ mean x :=
  div_nonneg (Finset.sum_nonneg fun i _ => h i) (Nat.cast_nonneg n)

private theorem mean_eq_zero {n : ℕ} {x : Fin n → ℝ} (h : ∀ i, 0 ≤ x i) (h0 : mean x = 0) (i : Fin n) : x i = 0 := by
  have hn : (n : ℝ) ≠ 0 := Nat.cast_ne_zero.mpr (by have := i.2; omega)
  have := (div_eq_zero_iff.mp h0).resolve_right hn
  exact (Finset.sum_eq_zero_iff_of_nonneg fun i _ => h i).mp this i (Finset.mem_univ i)

private theorem penalty_nonneg (x : ℝ) : 0 ≤ Real.log ((if x < 0 then x else 0) ^ 2 + 1) :=
  Real.log_nonneg (by nlinarith [sq_nonneg (if x < 0 then x else 0)])

private theorem penalty_pos {x : ℝ} (h : x < 0) : 0 < Real.log ((if x < 0 then x else 0) ^ 2 + 1) := by
  rw [if_pos h]
  exact Real.log_pos (by nlinarith)

private theorem penalty_zero {x : ℝ} (h : 0 < x) : Real.log ((if x < 0 then x else 0) ^ 2 + 1) = 0 := by
  rw [if_neg (not_lt.mpr h.le)]
  simp

private theorem etaMean_eq {n : ℕ} (hn : n ≠ 0) (w x : Fin n → ℝ) : mean (fun i => w i * x i) / mean w = wavg w x := by
  unfold mean wavg
  have : (n : ℝ) ≠ 0 := Nat.cast_ne_zero.mpr hn
  rw [div_div_div_cancel_right₀ this]

private theorem ne_zero_of_sum {n : ℕ} {w : Fin n → ℝ} (h : 0 < ∑ i, w i) : n ≠ 0 := by
  rintro rfl
  simp at h

/-- **C82.** The loss is not negative, for non-negative weights that do not all vanish and etas whose average is not
zero. -/
theorem C82_nonneg {n : ℕ} (etas w : Fin n → ℝ) (hw : ∀ i, 0 ≤ w i) (_hpos : 0 < ∑ i, w i) (_hm : wavg w etas ≠ 0) :
    0 ≤ varianceEtaLoss etas w :=
  add_nonneg (mean_nonneg fun i => mul_nonneg (sq_nonneg _) (hw i)) (mean_nonneg fun _ => penalty_nonneg _)

/-- **C82.** A negative eta always costs something. -/
theorem C82_negative {n : ℕ} (etas w : Fin n → ℝ) (hw : ∀ i, 0 ≤ w i) (_hpos : 0 < ∑ i, w i)
    (_hm : wavg w etas ≠ 0) (i : Fin n) (hi : etas i < 0) : 0 < varianceEtaLoss etas w := by
  have h2 : 0 ≤ mean fun i => Real.log ((if etas i < 0 then etas i else 0) ^ 2 + 1) :=
    mean_nonneg fun i => penalty_nonneg _
  refine add_pos_of_nonneg_of_pos (mean_nonneg fun i => mul_nonneg (sq_nonneg _) (hw i)) (lt_of_le_of_ne h2 ?_)
  intro h
  have := mean_eq_zero (fun i => penalty_nonneg (etas i)) h.symm i
  exact (penalty_pos hi).ne' this

/-- **C82.** For positive etas the loss is the mean weight times the relative variance of the etas, squared standard
deviation over squared average. -/
theorem C82_variance {n : ℕ} (etas w : Fin n → ℝ) (hpos : 0 < ∑ i, w i) (hm : wavg w etas ≠ 0)
    (he : ∀ i, 0 < etas i) : varianceEtaLoss etas w = (∑ i, w i) / n * (wvar w etas / wavg w etas ^ 2) := by
  have hn := ne_zero_of_sum hpos
  have hn' : (n : ℝ) ≠ 0 := Nat.cast_ne_zero.mpr hn
  unfold varianceEtaLoss
  simp only [etaMean_eq hn]
  have hz : (mean fun i => Real.log ((if etas i < 0 then etas i else 0) ^ 2 + 1)) = 0 := by
    unfold mean
    rw [Finset.sum_eq_zero fun i _ => penalty_zero (he i), zero_div]
  rw [hz, add_zero]
  unfold mean wvar
  generalize hW : wavg w etas = m at hm ⊢
  unfold wavg
  have hs : ∀ i, (etas i / m - 1) ^ 2 * w i = (w i * (etas i - m) ^ 2) / m ^ 2 := by
    intro i
    field_simp
  rw [Finset.sum_congr rfl fun i _ => hs i, ← Finset.sum_div]
  field_simp

/-- **C82.** For positive etas the loss vanishes exactly if all etas with positive weight are equal. -/
theorem C82_zero_iff {n : ℕ} (etas w : Fin n → ℝ) (hw : ∀ i, 0 ≤ w i) (hpos : 0 < ∑ i, w i) (he : ∀ i, 0 < etas i) :
    varianceEtaLoss etas w = 0 ↔ ∀ i j, 0 < w i → 0 < w j → etas i = etas j := by
  have hn := ne_zero_of_sum hpos
  have hn' : (0 : ℝ) < n := Nat.cast_pos.mpr (Nat.pos_of_ne_zero hn)
  obtain ⟨k, -, hk⟩ : ∃ i ∈ Finset.univ, 0 < w i := by
    by_contra h
    push Not at h
    exact absurd hpos (not_lt.mpr (Finset.sum_nonpos h))
  have hsum : 0 < ∑ i, w i * etas i :=
    Finset.sum_pos' (fun i _ => mul_nonneg (hw i) (he i).le) ⟨k, Finset.mem_univ k, mul_pos hk (he k)⟩
  have hm : 0 < wavg w etas := div_pos hsum hpos
  rw [C82_variance etas w hpos hm.ne' he]
  have h1 : (∑ i, w i) / n ≠ 0 := (div_pos hpos hn').ne'
  constructor
  · intro h
    have hv : wvar w etas = 0 := by
      rcases mul_eq_zero.mp h with h | h
      · exact absurd h h1
      · exact (div_eq_zero_iff.mp h).resolve_right (pow_ne_zero 2 hm.ne')
    have hs : ∑ i, w i * (etas i - wavg w etas) ^ 2 = 0 := (div_eq_zero_iff.mp hv).resolve_right hpos.ne'
    have hall := (Finset.sum_eq_zero_iff_of_nonneg fun i _ => mul_nonneg (hw i) (sq_nonneg _)).mp hs
    have heq : ∀ i, 0 < w i → etas i = wavg w etas := by
      intro i hi
      have := (mul_eq_zero.mp (hall i (Finset.mem_univ i))).resolve_left hi.ne'
      exact sub_eq_zero.mp (pow_eq_zero_iff (two_ne_zero) |>.mp this)
    intro i j hi hj
    rw [heq i hi, heq j hj]
  · intro h
    have hconst : ∀ i, w i * etas i = w i * etas k := by
      intro i
      rcases (hw i).eq_or_lt with h0 | h0
      · rw [← h0, zero_mul, zero_mul]
      · rw [h i k h0 hk]
    have havg : wavg w etas = etas k := by
      unfold wavg
      rw [Finset.sum_congr rfl fun i _ => hconst i, ← Finset.sum_mul, mul_comm, mul_div_assoc, div_self hpos.ne', mul_one]
    have hv : wvar w etas = 0 := by
      have hz : ∀ i, w i * (etas i - wavg w etas) ^ 2 = 0 := by
        intro i
        rcases (hw i).eq_or_lt with h0 | h0
        · rw [← h0, zero_mul]
        · rw [havg, h i k h0 hk, sub_self]; ring
      unfold wvar
      rw [wavg, Finset.sum_eq_zero fun i _ => hz i, zero_div]
    rw [hv, zero_div, mul_zero]

/-- **C82.** For positive etas the loss does not change when all etas are multiplied by a positive number. -/
theorem C82_scale {n : ℕ} (etas w : Fin n → ℝ) (_hw : ∀ i, 0 ≤ w i) (hpos : 0 < ∑ i, w i) (he : ∀ i, 0 < etas i)
    (hm : wavg w etas ≠ 0) (c : ℝ) (hc : 0 < c) :
    varianceEtaLoss (fun i => c * etas i) w = varianceEtaLoss etas w := by
  have hmc : wavg w (fun i => c * etas i) = c * wavg w etas := by
    unfold wavg
    rw [← mul_div_assoc, Finset.mul_sum]
    congr 1
    exact Finset.sum_congr rfl fun i _ => by ring
  have hvc : wvar w (fun i => c * etas i) = c ^ 2 * wvar w etas := by
    unfold wvar
    rw [hmc]
    generalize wavg w etas = m
    unfold wavg
    rw [← mul_div_assoc, Finset.mul_sum]
    congr 1
    exact Finset.sum_congr rfl fun i _ => by ring
  rw [C82_variance _ w hpos (by rw [hmc]; exact mul_ne_zero hc.ne' hm) (fun i => mul_pos hc (he i)),
    C82_variance etas w hpos hm he, hmc, hvc]
  field_simp

/-- **C82.** The scale of the weights is not divided out: multiplying them by `c` multiplies the loss by `c`. -/
theorem C82_weights {n : ℕ} (etas w : Fin n → ℝ) (hpos : 0 < ∑ i, w i) (he : ∀ i, 0 < etas i)
    (hm : wavg w etas ≠ 0) (c : ℝ) (hc : 0 < c) :
    varianceEtaLoss etas (fun i => c * w i) = c * varianceEtaLoss etas w := by
  have havg : ∀ x : Fin n → ℝ, wavg (fun i => c * w i) x = wavg w x := by
    intro x
    unfold wavg
    simp only [mul_assoc]
    rw [← Finset.mul_sum, ← Finset.mul_sum, mul_div_mul_left _ _ hc.ne']
  have hs : ∑ i, c * w i = c * ∑ i, w i := (Finset.mul_sum _ _ _).symm
  rw [C82_variance etas _ (by rw [hs]; exact mul_pos hc hpos) (by rw [havg]; exact hm) he,
    C82_variance etas w hpos hm he, wvar, havg, havg, hs, ← wvar]
  ring

/-- Three samples, one of them with weight zero. -/
example : varianceEtaLoss (n := 3) ![2, 5, 2] ![1, 0, 3] = 0 := by
  rw [C82_zero_iff]
  · intro i j hi hj
    fin_cases i <;> fin_cases j <;> simp at hi hj ⊢
  · intro i; fin_cases i <;> simp
  · simp [Fin.sum_univ_three]; norm_num
  · intro i; fin_cases i <;> simp

/-- A non-zero value: etas 1 and 3 with equal weights have average 2 and relative variance 1/4. -/
example : varianceEtaLoss (n := 2) ![1, 3] ![1, 1] = 1 / 4 := by
  have hm : wavg (n := 2) ![1, 1] ![1, 3] = 2 := by simp [wavg, Fin.sum_univ_two]; norm_num
  rw [C82_variance]
  · rw [wvar, hm]; simp [wavg, Fin.sum_univ_two]; norm_num
  · simp [Fin.sum_univ_two]
  · rw [hm]; norm_num
  · intro i; fin_cases i <;> simp

end Cyjax
