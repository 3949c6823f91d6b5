import Verif.Model.RoundingIntegrate
import Verif.Lemmas.RoundingAccuracy
import Verif.Lemmas.RoundingOps
import Verif.Lemmas.RoundingProjective

/-! # Errors of Monte Carlo sums, and rounding of particular numbers -/

namespace Cyjax.Fl

variable {ε δ : ℝ} {A : Arith} {D : DivAbs}

theorem nearG_weight {y x : ℝ} (hδ : 0 ≤ δ) (hx : 0 ≤ x) (h : |y - x| ≤ δ * x) : NearG (1 + δ) (y : ℂ) (x : ℂ) x := by
  refine ⟨?_, by rw [Complex.norm_real, Real.norm_eq_abs, abs_of_nonneg hx], by linarith⟩
  rw [← Complex.ofReal_sub, Complex.norm_real, Real.norm_eq_abs]
  simpa using h

/-- Division by a positive integer. -/
theorem NearG.divNat (hA : A.Accurate ε) (hD : D.Accurate ε) {G a : ℝ} {y x : ℂ} (h : NearG G y x a) {n : ℕ} (hn : 0 < n) :
    NearG ((1 + ε) * G) (D.div y n) (x / n) (a / n) := by
  have := h.div hA.nonneg hD (NearG.refl (n : ℂ)) (by exact_mod_cast hn.ne') (by norm_num)
  rw [Complex.norm_natCast] at this
  refine this.mono (le_of_eq ?_)
  norm_num

theorem NearG.sq (hA : A.Accurate ε) {G a : ℝ} {y x : ℂ} (h : NearG G y x a) :
    NearG ((1 + ε) * G ^ 2) (intPow A.mul y 2) (x ^ 2) (a ^ 2) := by
  rw [Projective.intPow_two]
  have := h.mul hA h
  rwa [← _root_.sq, ← _root_.sq, ← _root_.sq] at this

/-- The square of a weighted value. -/
theorem nearG_val_sq (hA : A.Accurate ε) {f y x : ℝ} (hδ : 0 ≤ δ) (hx : 0 ≤ x) (h : |y - x| ≤ δ * x) :
    NearG ((1 + ε) ^ 3 * (1 + δ) ^ 2) (intPow A.mul (A.mul f y) 2) (((f * x) ^ 2 : ℝ) : ℂ) ((f * x) ^ 2) := by
  have h1 := ((NearG.refl (f : ℂ)).mul hA (nearG_weight hδ hx h)).sq hA
  have e : (‖(f : ℂ)‖ * x) ^ 2 = (f * x) ^ 2 := by rw [Complex.norm_real, Real.norm_eq_abs, mul_pow, mul_pow, sq_abs]
  rw [e] at h1
  push_cast
  exact h1.mono (le_of_eq (by ring))

theorem rnd_zero (p : ℕ) : rnd p 0 = 0 := by simp [rnd]

theorem rnd_neg_of_neg (p : ℕ) (hp : 0 < p) {x : ℝ} (hx : x < 0) : rnd p x < 0 := by
  have h := rnd_isRounding p x
  have h2 : (2 : ℝ) ^ (-(p : ℤ)) < 1 := by
    rw [zpow_neg, zpow_natCast]
    exact inv_lt_one_of_one_lt₀ (one_lt_pow₀ (by norm_num) hp.ne')
  rw [abs_of_neg hx] at h
  have := (abs_le.1 h).2
  nlinarith

/-- A number with binary exponent `e` is rounded to the multiple `m` of its last digit. -/
theorem rnd_eq_of (p : ℕ) (x : ℝ) (e m : ℤ) (h1 : (2 : ℝ) ^ e ≤ x) (h2 : x < 2 ^ (e + 1))
    (h3 : (m : ℝ) - 1 / 2 ≤ x * 2 ^ ((p : ℤ) - 1 - e)) (h4 : x * 2 ^ ((p : ℤ) - 1 - e) < m + 1 / 2) :
    rnd p x = m * 2 ^ (e - ((p : ℤ) - 1)) := by
  have hx : 0 < x := lt_of_lt_of_le (by positivity) h1
  have hlog : Int.log 2 |x| = e := by
    rw [abs_of_pos hx]
    have a := (Int.zpow_le_iff_le_log (R := ℝ) (b := 2) (by norm_num) (x := e) hx).1 (by exact_mod_cast h1)
    have b := (Int.lt_zpow_iff_log_lt (R := ℝ) (b := 2) (by norm_num) (x := e + 1) hx).1 (by exact_mod_cast h2)
    omega
  rw [rnd, if_neg hx.ne', hlog]
  congr 2
  rw [round_eq, Int.floor_eq_iff]
  constructor <;> linarith

/-- Numbers in `[1, 2)`, for `p` digits: `Q = 2^(p-1)`. -/
theorem rnd_one (r : ℕ) (x : ℝ) (m : ℤ) (h1 : 1 ≤ x) (h2 : x < 2) (h3 : (m : ℝ) - 1 / 2 ≤ x * 2 ^ r) (h4 : x * 2 ^ r < m + 1 / 2) :
    rnd (r + 1) x = m / 2 ^ r := by
  have := rnd_eq_of (r + 1) x 0 m (by simpa using h1) (by simpa using h2)
  rw [show ((r + 1 : ℕ) : ℤ) - 1 - 0 = (r : ℤ) by push_cast; ring, zpow_natCast,
    show (0 : ℤ) - (((r + 1 : ℕ) : ℤ) - 1) = -(r : ℤ) by push_cast; ring, zpow_neg, zpow_natCast] at this
  exact this h3 h4

/-- Numbers in `[2, 4)`. -/
theorem rnd_two (r : ℕ) (x : ℝ) (m : ℤ) (h1 : 2 ≤ x) (h2 : x < 4) (h3 : (m : ℝ) - 1 / 2 ≤ x * 2 ^ r / 2)
    (h4 : x * 2 ^ r / 2 < m + 1 / 2) : rnd (r + 1) x = 2 * m / 2 ^ r := by
  have := rnd_eq_of (r + 1) x 1 m (by simpa using h1) (by norm_num; exact h2)
  rw [show ((r + 1 : ℕ) : ℤ) - 1 - 1 = (r : ℤ) - 1 by push_cast; ring, zpow_sub_one₀ (by norm_num), zpow_natCast,
    show (1 : ℤ) - (((r + 1 : ℕ) : ℤ) - 1) = -(r : ℤ) + 1 by push_cast; ring, zpow_add_one₀ (by norm_num), zpow_neg,
    zpow_natCast] at this
  rw [this (by linarith) (by linarith)]
  ring

/-- Numbers in `[1/2, 1)`. -/
theorem rnd_half (r : ℕ) (x : ℝ) (m : ℤ) (h1 : 1 / 2 ≤ x) (h2 : x < 1) (h3 : (m : ℝ) - 1 / 2 ≤ x * 2 ^ r * 2)
    (h4 : x * 2 ^ r * 2 < m + 1 / 2) : rnd (r + 1) x = m / 2 ^ r / 2 := by
  have := rnd_eq_of (r + 1) x (-1) m (by norm_num; linarith) (by simpa using h2)
  rw [show ((r + 1 : ℕ) : ℤ) - 1 - -1 = (r : ℤ) + 1 by push_cast; ring, zpow_add_one₀ (by norm_num), zpow_natCast,
    show (-1 : ℤ) - (((r + 1 : ℕ) : ℤ) - 1) = -(r : ℤ) - 1 by push_cast; ring, zpow_sub_one₀ (by norm_num), zpow_neg,
    zpow_natCast] at this
  rw [this (by linarith) (by linarith)]
  ring

theorem ofRounding_add_real (fl : ℝ → ℝ) (h : fl 0 = 0) (a b : ℝ) : (ofRounding fl).add a b = (fl (a + b) : ℝ) := by
  apply Complex.ext <;> simp [ofRounding, h]

theorem ofRounding_mul_real (fl : ℝ → ℝ) (h : fl 0 = 0) (a b : ℝ) : (ofRounding fl).mul a b = (fl (fl (a * b)) : ℝ) := by
  apply Complex.ext <;> simp [ofRounding, h]

theorem divAbs_div_real (fl : ℝ → ℝ) (h : fl 0 = 0) (a b : ℝ) : (divAbsOfRounding fl).div a b = (fl (a / b) : ℝ) := by
  have : (a : ℂ) / b = ((a / b : ℝ) : ℂ) := by push_cast; rfl
  apply Complex.ext <;> simp [divAbsOfRounding, this, h, Complex.ofReal_re, Complex.ofReal_im, -Complex.ofReal_div]

/-- The roundings met by the two weights `1 + q` and `1 + 2 q`, where `q = 2^(-r)` is the distance from `1` to the next number. -/
theorem rnd_values (r : ℕ) (hr : 4 ≤ r) (q : ℝ) (hq : q = 1 / 2 ^ r) :
    rnd (r + 1) (1 + q) = 1 + q ∧ rnd (r + 1) (1 + 2 * q) = 1 + 2 * q ∧ rnd (r + 1) (1 + 3 * q) = 1 + 3 * q ∧
    rnd (r + 1) (1 + 4 * q) = 1 + 4 * q ∧
    rnd (r + 1) ((1 + q) + (1 + 2 * q)) = 2 + 4 * q ∧ rnd (r + 1) ((1 + 2 * q) + (1 + 4 * q)) = 2 + 6 * q ∧
    rnd (r + 1) ((1 + q) * (1 + q)) = 1 + 2 * q ∧ rnd (r + 1) ((1 + 2 * q) * (1 + 2 * q)) = 1 + 4 * q ∧
    rnd (r + 1) ((1 + 3 * q) / 2) = (1 + 3 * q) / 2 ∧ rnd (r + 1) ((1 + 4 * q) / 2) = (1 + 4 * q) / 2 := by
  have hQ : (16 : ℝ) ≤ 2 ^ r := by
    calc (16 : ℝ) = 2 ^ 4 := by norm_num
      _ ≤ _ := pow_le_pow_right₀ (by norm_num) hr
  have hc : (((2 : ℤ) ^ r : ℤ) : ℝ) = (2 : ℝ) ^ r := by push_cast; rfl
  obtain ⟨Q, hQd⟩ : ∃ Q : ℝ, Q = 2 ^ r := ⟨_, rfl⟩
  have hQ0 : 0 < Q := by rw [hQd]; positivity
  have hQ16 : 16 ≤ Q := by rw [hQd]; exact hQ
  have hqQ : q * Q = 1 := by rw [hq, hQd]; field_simp
  have hq0 : 0 < q := by rw [hq]; positivity
  have hq1 : q ≤ 1 / 16 := by nlinarith
  have hm : ∀ k : ℤ, (((2 : ℤ) ^ r + k : ℤ) : ℝ) = Q + k := fun k => by push_cast; rw [hQd]
  have hdiv : ∀ k : ℝ, (Q + k) / Q = 1 + k * q := by
    intro k
    rw [add_div, div_self hQ0.ne', show q = 1 / Q by rw [hq, hQd]]
    ring
  refine ⟨?_, ?_, ?_, ?_, ?_, ?_, ?_, ?_, ?_, ?_⟩
  · rw [rnd_one r _ (2 ^ r + 1) (by linarith) (by linarith) (by rw [hm, ← hQd]; push_cast; nlinarith) (by rw [hm, ← hQd]; push_cast; nlinarith),
      hm, ← hQd, hdiv]; push_cast; ring
  · rw [rnd_one r _ (2 ^ r + 2) (by linarith) (by linarith) (by rw [hm, ← hQd]; push_cast; nlinarith) (by rw [hm, ← hQd]; push_cast; nlinarith),
      hm, ← hQd, hdiv]; push_cast; ring
  · rw [rnd_one r _ (2 ^ r + 3) (by linarith) (by linarith) (by rw [hm, ← hQd]; push_cast; nlinarith) (by rw [hm, ← hQd]; push_cast; nlinarith),
      hm, ← hQd, hdiv]; push_cast; ring
  · rw [rnd_one r _ (2 ^ r + 4) (by linarith) (by linarith) (by rw [hm, ← hQd]; push_cast; nlinarith) (by rw [hm, ← hQd]; push_cast; nlinarith),
      hm, ← hQd, hdiv]; push_cast; ring
  · rw [rnd_two r _ (2 ^ r + 2) (by linarith) (by linarith) (by rw [hm, ← hQd]; push_cast; nlinarith) (by rw [hm, ← hQd]; push_cast; nlinarith),
      hm, ← hQd, mul_div_assoc, hdiv]; push_cast; ring
  · rw [rnd_two r _ (2 ^ r + 3) (by linarith) (by linarith) (by rw [hm, ← hQd]; push_cast; nlinarith) (by rw [hm, ← hQd]; push_cast; nlinarith),
      hm, ← hQd, mul_div_assoc, hdiv]; push_cast; ring
  · have e : (1 + q) * (1 + q) * Q = Q + 2 + q := by linear_combination (2 + q) * hqQ
    rw [rnd_one r _ (2 ^ r + 2) (by nlinarith) (by nlinarith) (by rw [hm, ← hQd, e]; push_cast; linarith)
      (by rw [hm, ← hQd, e]; push_cast; linarith), hm, ← hQd, hdiv]; push_cast; ring
  · have e : (1 + 2 * q) * (1 + 2 * q) * Q = Q + 4 + 4 * q := by linear_combination (4 + 4 * q) * hqQ
    rw [rnd_one r _ (2 ^ r + 4) (by nlinarith) (by nlinarith) (by rw [hm, ← hQd, e]; push_cast; linarith)
      (by rw [hm, ← hQd, e]; push_cast; linarith), hm, ← hQd, hdiv]; push_cast; ring
  · rw [rnd_half r _ (2 ^ r + 3) (by linarith) (by linarith) (by rw [hm, ← hQd]; push_cast; nlinarith) (by rw [hm, ← hQd]; push_cast; nlinarith),
      hm, ← hQd, hdiv]; push_cast; ring
  · rw [rnd_half r _ (2 ^ r + 4) (by linarith) (by linarith) (by rw [hm, ← hQd]; push_cast; nlinarith) (by rw [hm, ← hQd]; push_cast; nlinarith),
      hm, ← hQd, hdiv]; push_cast; ring

/-- The number of entries summed is positive. -/
theorem RTree.Covers.pos {n : ℕ} {t : RTree (Fin n)} (ht : t.Covers) : 0 < n := by
  have := t.leaves_pos
  rwa [ht.length] at this

end Cyjax.Fl

namespace Cyjax.Util

open Cyjax.Fl

variable {ε δ : ℝ} {A : Arith} {D : DivAbs}

theorem mcMean_near (hA : A.Accurate ε) (hD : D.Accurate ε) {b bs : ℕ} (t : RTree (Fin bs)) (ht : t.Covers) (tb : RTree (Fin b))
    (htb : tb.Covers) (f w wF : Fin b → Fin bs → ℝ) (hw : ∀ i k, 0 ≤ w i k) (hδ : 0 ≤ δ)
    (hF : ∀ i k, |wF i k - w i k| ≤ δ * w i k) :
    NearG ((1 + ε) ^ (t.depth + tb.depth + 2) * (1 + δ)) (meanF A D tb fun i => (mcStepF A D t (f i) (wF i)).1)
      (((∑ i, ∑ k, w i k) / (b * bs) : ℝ) : ℂ) ((∑ i, ∑ k, w i k) / (b * bs)) := by
  have h1 : ∀ i, NearG ((1 + ε) ^ (t.depth + 1) * (1 + δ)) (mcStepF A D t (f i) (wF i)).1
      ((∑ k, (w i k : ℂ)) / bs) ((∑ k, w i k) / bs) := fun i =>
    meanF_near hA hD t ht fun k => nearG_weight hδ (hw i k) (hF i k)
  have h2 := meanF_near hA hD tb htb h1
  have e1 : (∑ i, (∑ k, w i k) / (bs : ℝ)) / b = (∑ i, ∑ k, w i k) / (b * bs) := by
    rw [← Finset.sum_div, div_div, mul_comm (bs : ℝ)]
  have e2 : (∑ i, (∑ k, (w i k : ℂ)) / (bs : ℂ)) / b = (((∑ i, ∑ k, w i k) / (b * bs) : ℝ) : ℂ) := by
    rw [← e1]
    push_cast
    rfl
  rw [e1, e2] at h2
  exact h2.mono (le_of_eq (by ring))

theorem mcSquares_near (hA : A.Accurate ε) (hD : D.Accurate ε) {b bs : ℕ} (t : RTree (Fin bs)) (ht : t.Covers) (tb : RTree (Fin b))
    (htb : tb.Covers) (f w wF : Fin b → Fin bs → ℝ) (hw : ∀ i k, 0 ≤ w i k) (hδ : 0 ≤ δ)
    (hF : ∀ i k, |wF i k - w i k| ≤ δ * w i k) :
    NearG ((1 + ε) ^ (t.depth + tb.depth + 7) * (1 + δ) ^ 2)
      (D.div (meanF A D tb fun i => (mcStepF A D t (f i) (wF i)).2) b)
      (((∑ i, ∑ k, (f i k * w i k) ^ 2) / (b * bs) / (b * bs) : ℝ) : ℂ) ((∑ i, ∑ k, (f i k * w i k) ^ 2) / (b * bs) / (b * bs)) := by
  have hb := htb.pos
  have hbs := ht.pos
  have h1 : ∀ i, NearG ((1 + ε) * ((1 + ε) ^ (t.depth + 1) * ((1 + ε) ^ 3 * (1 + δ) ^ 2))) (mcStepF A D t (f i) (wF i)).2
      ((∑ k, (((f i k * w i k) ^ 2 : ℝ) : ℂ)) / bs / bs) ((∑ k, (f i k * w i k) ^ 2) / bs / bs) := fun i =>
    (meanF_near hA hD t ht fun k => nearG_val_sq hA hδ (hw i k) (hF i k)).divNat hA hD hbs
  have h2 := (meanF_near hA hD tb htb h1).divNat hA hD hb
  have e1 : (∑ i, (∑ k, (f i k * w i k) ^ 2) / (bs : ℝ) / bs) / b / b = (∑ i, ∑ k, (f i k * w i k) ^ 2) / (b * bs) / (b * bs) := by
    rw [← Finset.sum_div, ← Finset.sum_div]
    field_simp
  have e2 : (∑ i, (∑ k, (((f i k * w i k) ^ 2 : ℝ) : ℂ)) / (bs : ℂ) / bs) / b / b =
      (((∑ i, ∑ k, (f i k * w i k) ^ 2) / (b * bs) / (b * bs) : ℝ) : ℂ) := by
    rw [← e1]
    push_cast
    rfl
  rw [e1, e2] at h2
  exact h2.mono (le_of_eq (by ring))

theorem mcVariance_near (hA : A.Accurate ε) (hD : D.Accurate ε) {b bs : ℕ} (t : RTree (Fin bs)) (ht : t.Covers) (tb : RTree (Fin b))
    (htb : tb.Covers) (f w wF : Fin b → Fin bs → ℝ) (hw : ∀ i k, 0 ≤ w i k) (hδ : 0 ≤ δ)
    (hF : ∀ i k, |wF i k - w i k| ≤ δ * w i k) (m s : ℝ) (hm : m = (∑ i, ∑ k, w i k) / (b * bs))
    (hs : s = (∑ i, ∑ k, (f i k * w i k) ^ 2) / (b * bs)) :
    |(mcIntegrateBatchedF A D t tb f wF).2 - (s - m ^ 2) / (b * bs)| ≤
      ((1 + ε) ^ (2 * (t.depth + tb.depth) + 8) * (1 + δ) ^ 2 - 1) * ((s + m ^ 2) / (b * bs)) := by
  have hb := htb.pos
  have hbs := ht.pos
  have e : 1 ≤ 1 + ε := by linarith [hA.nonneg]
  have h1 := mcMean_near hA hD t ht tb htb f w wF hw hδ hF
  have h2 := mcSquares_near hA hD t ht tb htb f w wF hw hδ hF
  rw [← hm] at h1
  rw [← hs] at h2
  have h3 := ((h1.sq hA).divNat hA hD (Nat.mul_pos hb hbs)).neg
  have le1 : (1 + ε) ^ (t.depth + tb.depth + 7) * (1 + δ) ^ 2 ≤ (1 + ε) ^ (2 * (t.depth + tb.depth) + 7) * (1 + δ) ^ 2 :=
    mul_le_mul_of_nonneg_right (pow_le_pow_right₀ e (by omega)) (by positivity)
  have le2 : (1 + ε) * ((1 + ε) * ((1 + ε) ^ (t.depth + tb.depth + 2) * (1 + δ)) ^ 2) ≤
      (1 + ε) ^ (2 * (t.depth + tb.depth) + 7) * (1 + δ) ^ 2 := by
    calc _ = (1 + ε) ^ (2 * (t.depth + tb.depth) + 6) * (1 + δ) ^ 2 := by ring
      _ ≤ _ := mul_le_mul_of_nonneg_right (pow_le_pow_right₀ e (by omega)) (by positivity)
  have h4 := (h2.mono le1).add hA (h3.mono le2)
  have e3 : ((s / (b * bs) : ℝ) : ℂ) + -((m : ℂ) ^ 2 / ((b * bs : ℕ) : ℂ)) = (((s - m ^ 2) / (b * bs) : ℝ) : ℂ) := by
    push_cast
    ring
  have e4 : s / (b * bs) + m ^ 2 / ((b * bs : ℕ) : ℝ) = (s + m ^ 2) / (b * bs) := by
    push_cast
    ring
  rw [e3, e4] at h4
  have h5 := h4.re.err
  rw [← Complex.ofReal_sub, Complex.norm_real, Real.norm_eq_abs] at h5
  refine h5.trans (le_of_eq ?_)
  ring

theorem mcPlain_near (hA : A.Accurate ε) (hD : D.Accurate ε) {c : ℕ} (t : RTree (Fin c)) (ht : t.Covers) (f w wF : Fin c → ℝ)
    (hw : ∀ k, 0 ≤ w k) (hδ : 0 ≤ δ) (hF : ∀ k, |wF k - w k| ≤ δ * w k) (m s : ℝ) (hm : m = (∑ k, w k) / c)
    (hs : s = (∑ k, (f k * w k) ^ 2) / c) :
    |(mcIntegrateF A D t f wF).1 - m| ≤ ((1 + ε) ^ (t.depth + 1) * (1 + δ) - 1) * m ∧
    |(mcIntegrateF A D t f wF).2 - (s - m ^ 2) / c| ≤ ((1 + ε) ^ (2 * t.depth + 6) * (1 + δ) ^ 2 - 1) * ((s + m ^ 2) / c) := by
  have e : 1 ≤ 1 + ε := by linarith [hA.nonneg]
  have h1 := meanF_near hA hD t ht fun k => nearG_weight hδ (hw k) (hF k)
  have h2 := meanF_near hA hD t ht fun k => nearG_val_sq (f := f k) hA hδ (hw k) (hF k)
  have e1 : (∑ k, (w k : ℂ)) / c = (m : ℂ) := by rw [hm]; push_cast; rfl
  have e2 : (∑ k, (((f k * w k) ^ 2 : ℝ) : ℂ)) / c = (s : ℂ) := by rw [hs]; push_cast; rfl
  rw [e1, ← hm] at h1
  rw [e2, ← hs] at h2
  refine ⟨?_, ?_⟩
  · have h := h1.re.err
    rwa [← Complex.ofReal_sub, Complex.norm_real, Real.norm_eq_abs] at h
  · have h3 := (h1.sq hA).neg
    have le1 : (1 + ε) ^ (t.depth + 1) * ((1 + ε) ^ 3 * (1 + δ) ^ 2) ≤ (1 + ε) ^ (2 * t.depth + 4) * (1 + δ) ^ 2 := by
      calc _ = (1 + ε) ^ (t.depth + 4) * (1 + δ) ^ 2 := by ring
        _ ≤ _ := mul_le_mul_of_nonneg_right (pow_le_pow_right₀ e (by omega)) (by positivity)
    have le2 : (1 + ε) * ((1 + ε) ^ (t.depth + 1) * (1 + δ)) ^ 2 ≤ (1 + ε) ^ (2 * t.depth + 4) * (1 + δ) ^ 2 := by
      calc _ = (1 + ε) ^ (2 * t.depth + 3) * (1 + δ) ^ 2 := by ring
        _ ≤ _ := mul_le_mul_of_nonneg_right (pow_le_pow_right₀ e (by omega)) (by positivity)
    have h4 := ((h2.mono le1).add hA (h3.mono le2)).divNat hA hD ht.pos
    have e3 : ((s : ℂ) + -(m : ℂ) ^ 2) / c = (((s - m ^ 2) / c : ℝ) : ℂ) := by
      push_cast
      ring
    rw [e3] at h4
    have h5 := h4.re.err
    rw [← Complex.ofReal_sub, Complex.norm_real, Real.norm_eq_abs] at h5
    refine h5.trans (le_of_eq ?_)
    ring

end Cyjax.Util
