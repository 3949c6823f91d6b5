import Verif.Lemmas.Rounding
import Mathlib.Analysis.SpecialFunctions.Exp
import Mathlib.Analysis.Complex.Exponential

/-! # Rounded arithmetic satisfies the standard model -/

namespace Cyjax.Fl

theorem rnd_isRounding (p : ℕ) : IsRounding (rnd p) (2 ^ (-(p : ℤ))) := by
  intro x
  by_cases hx : x = 0
  · simp [rnd, hx]
  · rw [rnd, if_neg hx]
    set e := Int.log 2 |x| with he
    have h2 : (2 : ℝ) ≠ 0 := two_ne_zero
    have hr := abs_sub_round (x * 2 ^ ((p : ℤ) - 1 - e))
    have hx' : x = x * 2 ^ ((p : ℤ) - 1 - e) * 2 ^ (e - ((p : ℤ) - 1)) := by
      rw [mul_assoc, ← zpow_add₀ h2, show (p : ℤ) - 1 - e + (e - ((p : ℤ) - 1)) = 0 by ring, zpow_zero, mul_one]
    have hle : (2 : ℝ) ^ e ≤ |x| := by
      have := Int.zpow_log_le_self (b := 2) (r := |x|) (by norm_num) (abs_pos.2 hx)
      simpa using this
    calc |(round (x * 2 ^ ((p : ℤ) - 1 - e)) : ℤ) * (2 : ℝ) ^ (e - ((p : ℤ) - 1)) - x|
        = |x * 2 ^ ((p : ℤ) - 1 - e) - round (x * 2 ^ ((p : ℤ) - 1 - e))| * 2 ^ (e - ((p : ℤ) - 1)) := by
          set y := x * 2 ^ ((p : ℤ) - 1 - e) with hy
          rw [hx', ← sub_mul, abs_mul, abs_sub_comm, abs_of_pos (zpow_pos (by norm_num : (0 : ℝ) < 2) _)]
      _ ≤ 1 / 2 * 2 ^ (e - ((p : ℤ) - 1)) := by gcongr
      _ = 2 ^ (-(p : ℤ)) * 2 ^ e := by
        rw [← zpow_add₀ h2, show e - ((p : ℤ) - 1) = (-(p : ℤ) + e) + 1 by ring, zpow_add_one₀ h2]
        ring
      _ ≤ _ := by gcongr

theorem rnd_isFloat (p : ℕ) (x : ℝ) : IsFloat p (rnd p x) := by
  by_cases hx : x = 0
  · exact ⟨0, 0, by simp [rnd, hx], by simp⟩
  · refine ⟨_, _, by rw [rnd, if_neg hx], ?_⟩
    set e := Int.log 2 |x| with he
    have h2 : (2 : ℝ) ≠ 0 := two_ne_zero
    have hlt : |x| < 2 ^ (e + 1) := by
      have := Int.lt_zpow_succ_log_self (b := 2) (by norm_num) |x|
      simpa using this
    have hy : |x * 2 ^ ((p : ℤ) - 1 - e)| < 2 ^ p := by
      rw [abs_mul, abs_of_pos (zpow_pos (by norm_num : (0 : ℝ) < 2) _)]
      calc |x| * 2 ^ ((p : ℤ) - 1 - e) < 2 ^ (e + 1) * 2 ^ ((p : ℤ) - 1 - e) := by gcongr
        _ = 2 ^ p := by rw [← zpow_add₀ h2, show e + 1 + ((p : ℤ) - 1 - e) = p by ring, zpow_natCast]
    set y := x * 2 ^ ((p : ℤ) - 1 - e) with hyd
    have hr := abs_sub_round y
    have h3 : |((round y : ℤ) : ℝ)| < 2 ^ p + 1 := by
      calc |((round y : ℤ) : ℝ)| = |y - (y - round y)| := by ring_nf
        _ ≤ |y| + |y - round y| := abs_sub _ _
        _ < 2 ^ p + 1 := by linarith
    have h4 : |round y| < 2 ^ p + 1 := by exact_mod_cast h3
    omega

theorem norm_le_of_parts (z : ℂ) (c : ℝ) (hc : 0 ≤ c) (h : z.re ^ 2 + z.im ^ 2 ≤ c ^ 2) : ‖z‖ ≤ c := by
  refine le_of_sq_le_sq ?_ hc
  rw [Complex.sq_norm, Complex.normSq_apply]
  linarith [h]

theorem ofRounding_accurate (fl : ℝ → ℝ) (u : ℝ) (h0 : 0 ≤ u) (h1 : u ≤ 1 / 2) (h : IsRounding fl u) :
    (ofRounding fl).Accurate (4 * u) := by
  have hsq : ∀ x, (fl x - x) ^ 2 ≤ u ^ 2 * x ^ 2 := by
    intro x
    have := h x
    rw [← sq_abs (fl x - x), ← sq_abs x, ← mul_pow]
    exact pow_le_pow_left₀ (abs_nonneg _) this 2
  refine ⟨by linarith, fun a b => ?_, fun a b => ?_, fun r => ?_⟩
  · have : ‖(ofRounding fl).add a b - (a + b)‖ ≤ u * ‖a + b‖ := by
      apply norm_le_of_parts _ _ (by positivity)
      rw [mul_pow, Complex.sq_norm, Complex.normSq_apply]
      have e1 := hsq (a.re + b.re)
      have e2 := hsq (a.im + b.im)
      simp only [ofRounding, Complex.sub_re, Complex.sub_im, Complex.add_re, Complex.add_im]
      nlinarith
    exact this.trans (mul_le_mul_of_nonneg_right (by linarith) (norm_nonneg _))
  · have two : ∀ (s t m : ℝ) (f : ℝ → ℝ → ℝ), |s| + |t| ≤ m → (∀ x y, |f x y| ≤ |x| + |y|) →
        (∀ x y x' y', f x y - f x' y' = f (x - x') (y - y')) →
        |fl (f (fl s) (fl t)) - f s t| ≤ (2 * u + u ^ 2) * m := by
      intro s t m f hm hf hlin
      have e1 := h s
      have e2 := h t
      have e3 := h (f (fl s) (fl t))
      have e4 : |f (fl s) (fl t) - f s t| ≤ u * (|s| + |t|) := by
        rw [hlin]
        refine (hf _ _).trans ?_
        linarith
      have e5 : |f (fl s) (fl t)| ≤ (1 + u) * (|s| + |t|) := by
        have e6 := hf s t
        have e7 : |f (fl s) (fl t)| ≤ |f (fl s) (fl t) - f s t| + |f s t| := by
          have := abs_add_le (f (fl s) (fl t) - f s t) (f s t)
          simpa using this
        linarith
      have e8 : |fl (f (fl s) (fl t)) - f s t| ≤ |fl (f (fl s) (fl t)) - f (fl s) (fl t)| + |f (fl s) (fl t) - f s t| :=
        abs_sub_le _ _ _
      have e9 : u * |f (fl s) (fl t)| ≤ u * ((1 + u) * (|s| + |t|)) := mul_le_mul_of_nonneg_left e5 h0
      have e10 : (2 * u + u ^ 2) * (|s| + |t|) ≤ (2 * u + u ^ 2) * m := mul_le_mul_of_nonneg_left hm (by positivity)
      nlinarith
    have cs : ∀ p q r s : ℝ, |p * r| + |q * s| ≤ √(p ^ 2 + q ^ 2) * √(r ^ 2 + s ^ 2) := by
      intro p q r s
      rw [← Real.sqrt_mul (by positivity)]
      apply Real.le_sqrt_of_sq_le
      have h1 : |p * r| ^ 2 = p ^ 2 * r ^ 2 := by rw [sq_abs, mul_pow]
      have h2 : |q * s| ^ 2 = q ^ 2 * s ^ 2 := by rw [sq_abs, mul_pow]
      have h3 : 2 * (|p * r| * |q * s|) ≤ p ^ 2 * s ^ 2 + q ^ 2 * r ^ 2 := by
        have e : |p * r| * |q * s| = |p * s| * |q * r| := by
          simp only [abs_mul]; ring
        rw [e]
        have := two_mul_le_add_sq |p * s| |q * r|
        rw [sq_abs, sq_abs, mul_pow, mul_pow] at this
        linarith
      nlinarith
    have na : √(a.re ^ 2 + a.im ^ 2) = ‖a‖ := by
      rw [Complex.norm_def, Complex.normSq_apply]; ring_nf
    have nb : √(b.re ^ 2 + b.im ^ 2) = ‖b‖ := by
      rw [Complex.norm_def, Complex.normSq_apply]; ring_nf
    have nb' : √(b.im ^ 2 + b.re ^ 2) = ‖b‖ := by rw [add_comm, nb]
    have c1 := cs a.re a.im b.re b.im
    have c2 := cs a.re a.im b.im b.re
    rw [na, nb] at c1
    rw [na, nb'] at c2
    have t1 := two _ _ _ (fun x y => x - y) c1 (fun x y => abs_sub _ _) (fun x y x' y' => by ring)
    have t2 := two _ _ _ (fun x y => x + y) c2 (fun x y => abs_add_le _ _) (fun x y x' y' => by ring)
    set M := ‖a‖ * ‖b‖ with hM
    have hM0 : 0 ≤ M := by positivity
    have q1 := pow_le_pow_left₀ (abs_nonneg _) t1 2
    have q2 := pow_le_pow_left₀ (abs_nonneg _) t2 2
    rw [sq_abs] at q1 q2
    rw [norm_mul, ← hM]
    apply norm_le_of_parts _ _ (by positivity)
    simp only [ofRounding, Complex.sub_re, Complex.sub_im, Complex.mul_re, Complex.mul_im]
    refine (add_le_add q1 q2).trans ?_
    have hu : (2 + u) ^ 2 * 2 ≤ 16 := by nlinarith
    have : ((2 * u + u ^ 2) * M) ^ 2 + ((2 * u + u ^ 2) * M) ^ 2 = (u * M) ^ 2 * ((2 + u) ^ 2 * 2) := by ring
    rw [this, show (4 * u * M) ^ 2 = (u * M) ^ 2 * 16 by ring]
    exact mul_le_mul_of_nonneg_left hu (by positivity)
  · have : ‖(ofRounding fl).const r - r‖ ≤ u * |r| := by
      show ‖((fl r : ℝ) : ℂ) - (r : ℂ)‖ ≤ _
      rw [← Complex.ofReal_sub, Complex.norm_real]
      exact h r
    exact this.trans (mul_le_mul_of_nonneg_right (by linarith) (abs_nonneg _))

theorem growth_le (ε : ℝ) (hε : 0 ≤ ε) (k : ℕ) (hk : k * ε ≤ 1) : (1 + ε) ^ k - 1 ≤ 2 * (k * ε) := by
  have h0 : 0 ≤ k * ε := by positivity
  have h1 : (1 + ε) ^ k ≤ Real.exp (k * ε) := by
    rw [Real.exp_nat_mul]
    exact pow_le_pow_left₀ (by linarith) (by linarith [Real.add_one_le_exp ε]) k
  have h2 := Real.abs_exp_sub_one_le (x := k * ε) (by rw [abs_of_nonneg h0]; exact hk)
  rw [abs_of_nonneg h0] at h2
  linarith [le_abs_self (Real.exp (k * ε) - 1)]

theorem exact_accurate : exact.Accurate 0 := ⟨le_rfl, by simp [exact], by simp [exact], by simp [exact]⟩

end Cyjax.Fl
