import Verif.Spec.RoundingAccuracy
import Verif.Lemmas.RoundingSections

/-! # Propagation of errors through quotients and means -/

namespace Cyjax.Fl

/-- `y` is `x` up to a factor of growth `G`, where `a` bounds the terms entering `x`. -/
structure NearG (G : ℝ) (y x : ℂ) (a : ℝ) : Prop where
  err : ‖y - x‖ ≤ (G - 1) * a
  size : ‖x‖ ≤ a
  one_le : 1 ≤ G

variable {ε G H : ℝ} {y x y' x' : ℂ} {a a' : ℝ} {A : Arith} {D : DivAbs}

theorem NearG.nonneg (h : NearG G y x a) : 0 ≤ a := (norm_nonneg _).trans h.size

theorem NearG.refl (x : ℂ) : NearG 1 x x ‖x‖ := ⟨by simp, le_rfl, le_rfl⟩

theorem NearG.mono (h : NearG G y x a) (hG : G ≤ H) : NearG H y x a :=
  ⟨h.err.trans (mul_le_mul_of_nonneg_right (by linarith) h.nonneg), h.size, h.one_le.trans hG⟩

theorem NearG.bound (h : NearG G y x a) : ‖y‖ ≤ G * a := by
  calc ‖y‖ = ‖(y - x) + x‖ := by ring_nf
    _ ≤ ‖y - x‖ + ‖x‖ := norm_add_le _ _
    _ ≤ (G - 1) * a + a := add_le_add h.err h.size
    _ = _ := by ring

/-- One more rounding. -/
theorem NearG.round (h0 : 0 ≤ ε) (h : NearG G y x a) (hy : ‖y' - y‖ ≤ ε * ‖y‖) : NearG ((1 + ε) * G) y' x a := by
  refine ⟨?_, h.size, one_le_mul_of_one_le_of_one_le (by linarith) h.one_le⟩
  have := mul_le_mul_of_nonneg_left h.bound h0
  calc ‖y' - x‖ = ‖(y' - y) + (y - x)‖ := by ring_nf
    _ ≤ ‖y' - y‖ + ‖y - x‖ := norm_add_le _ _
    _ ≤ ε * (G * a) + (G - 1) * a := add_le_add (hy.trans this) h.err
    _ = _ := by ring

theorem NearG.add' (h : NearG G y x a) (h' : NearG G y' x' a') : NearG G (y + y') (x + x') (a + a') := by
  refine ⟨?_, (norm_add_le _ _).trans (add_le_add h.size h'.size), h.one_le⟩
  rw [show y + y' - (x + x') = (y - x) + (y' - x') by ring, mul_add]
  exact (norm_add_le _ _).trans (add_le_add h.err h'.err)

theorem NearG.mul' (h : NearG G y x a) (h' : NearG H y' x' a') : NearG (G * H) (y * y') (x * x') (a * a') := by
  have ha := h.nonneg
  have ha' := h'.nonneg
  refine ⟨?_, by rw [norm_mul]; exact mul_le_mul h.size h'.size (norm_nonneg _) ha, one_le_mul_of_one_le_of_one_le h.one_le h'.one_le⟩
  calc ‖y * y' - x * x'‖ = ‖y * (y' - x') + (y - x) * x'‖ := by ring_nf
    _ ≤ ‖y‖ * ‖y' - x'‖ + ‖y - x‖ * ‖x'‖ := (norm_add_le _ _).trans (add_le_add (norm_mul_le _ _) (norm_mul_le _ _))
    _ ≤ (G * a) * ((H - 1) * a') + ((G - 1) * a) * a' := by
      have e1 : 0 ≤ G * a := (norm_nonneg _).trans h.bound
      have e2 : 0 ≤ (G - 1) * a := (norm_nonneg _).trans h.err
      exact add_le_add (mul_le_mul h.bound h'.err (norm_nonneg _) e1) (mul_le_mul h.err h'.size (norm_nonneg _) e2)
    _ = _ := by ring

theorem NearG.neg (h : NearG G y x a) : NearG G (-y) (-x) a :=
  ⟨by rw [show -y - -x = -(y - x) by ring, norm_neg]; exact h.err, by rw [norm_neg]; exact h.size, h.one_le⟩

/-- The inverse of a number with relative error `H - 1 < 1`. -/
theorem NearG.inv (h : NearG H y x ‖x‖) (hx : x ≠ 0) (hH : H < 2) : y ≠ 0 ∧ NearG (1 / (2 - H)) y⁻¹ x⁻¹ ‖x⁻¹‖ := by
  have hn : 0 < ‖x‖ := norm_pos_iff.2 hx
  have h1 : (2 - H) * ‖x‖ ≤ ‖y‖ := by
    have := norm_sub_norm_le x y
    rw [norm_sub_rev] at this
    linarith [h.err]
  have h2 : 0 < 2 - H := by linarith
  have hy : 0 < ‖y‖ := lt_of_lt_of_le (by positivity) h1
  have hy0 : y ≠ 0 := norm_pos_iff.1 hy
  refine ⟨hy0, ?_, le_rfl, ?_⟩
  · rw [show y⁻¹ - x⁻¹ = (x - y) / (x * y) by field_simp, norm_div, norm_mul, norm_sub_rev, norm_inv, div_le_iff₀ (by positivity)]
    calc ‖y - x‖ ≤ (H - 1) * ‖x‖ := h.err
      _ = (1 / (2 - H) - 1) * ((2 - H) * ‖x‖) := by field_simp; ring
      _ ≤ (1 / (2 - H) - 1) * ‖y‖ := by
        refine mul_le_mul_of_nonneg_left h1 ?_
        rw [sub_nonneg, le_div_iff₀ h2]
        linarith [h.one_le]
      _ = _ := by field_simp
  · rw [le_div_iff₀ h2]
    linarith [h.one_le]

theorem NearG.add (hA : A.Accurate ε) (h : NearG G y x a) (h' : NearG G y' x' a') :
    NearG ((1 + ε) * G) (A.add y y') (x + x') (a + a') := (h.add' h').round hA.nonneg (hA.add _ _)

theorem NearG.mul (hA : A.Accurate ε) (h : NearG G y x a) (h' : NearG H y' x' a') :
    NearG ((1 + ε) * (G * H)) (A.mul y y') (x * x') (a * a') := (h.mul' h').round hA.nonneg (hA.mul _ _)

theorem NearG.div (h0 : 0 ≤ ε) (hD : D.Accurate ε) (h : NearG G y x a) (h' : NearG H y' x' ‖x'‖) (hx : x' ≠ 0) (hH : H < 2) :
    NearG ((1 + ε) * (G / (2 - H))) (D.div y y') (x / x') (a / ‖x'‖) := by
  obtain ⟨hy, hi⟩ := h'.inv hx hH
  have := h.mul' hi
  rw [← div_eq_mul_inv, ← div_eq_mul_inv, norm_inv, ← div_eq_mul_inv, mul_one_div] at this
  exact this.round h0 (hD.div _ _ hy)

theorem NearG.abs (h0 : 0 ≤ ε) (hD : D.Accurate ε) (h : NearG G y x a) : NearG ((1 + ε) * G) (D.abs y : ℂ) (‖x‖ : ℂ) a := by
  have h1 : NearG G (‖y‖ : ℂ) (‖x‖ : ℂ) a := by
    refine ⟨?_, by simpa using h.size, h.one_le⟩
    rw [← Complex.ofReal_sub, Complex.norm_real]
    exact (abs_norm_sub_norm_le _ _).trans h.err
  refine h1.round h0 ?_
  rw [← Complex.ofReal_sub, Complex.norm_real, Complex.norm_real, Real.norm_eq_abs, norm_norm]
  exact hD.abs y

theorem NearG.re {r : ℝ} (h : NearG G y (r : ℂ) a) : NearG G (y.re : ℂ) (r : ℂ) a := by
  refine ⟨?_, h.size, h.one_le⟩
  rw [← Complex.ofReal_sub, Complex.norm_real, Real.norm_eq_abs, show y.re - r = (y - r).re by simp]
  exact (Complex.abs_re_le_norm _).trans h.err

theorem RTree.nearG_add {ι : Type*} (hA : A.Accurate ε) (t : RTree ι) {y x : ι → ℂ} {a : ι → ℝ} (hG : ∀ i, NearG G (y i) (x i) (a i)) :
    NearG ((1 + ε) ^ t.depth * G) (t.eval A.add y) (t.leaves.map x).sum (t.leaves.map a).sum := by
  induction t with
  | leaf i => simpa [RTree.leaves, RTree.eval, RTree.depth] using hG i
  | node l r hl hr =>
    have e : 1 ≤ 1 + ε := by linarith [hA.nonneg]
    have h1 : 0 < G := lt_of_lt_of_le one_pos (hG (l.leaves.head (List.ne_nil_of_length_pos l.leaves_pos))).one_le
    have := (hl.mono (mul_le_mul_of_nonneg_right (pow_le_pow_right₀ e (le_max_left l.depth r.depth)) h1.le)).add hA
      (hr.mono (mul_le_mul_of_nonneg_right (pow_le_pow_right₀ e (le_max_right l.depth r.depth)) h1.le))
    simp only [RTree.leaves, RTree.eval, List.map_append, List.sum_append, RTree.depth]
    rw [pow_succ', mul_assoc]
    exact this

theorem meanF_near (hA : A.Accurate ε) (hD : D.Accurate ε) {n : ℕ} (t : RTree (Fin n)) (ht : t.Covers) {y x : Fin n → ℂ}
    {a : Fin n → ℝ} (hG : ∀ i, NearG G (y i) (x i) (a i)) :
    NearG ((1 + ε) ^ (t.depth + 1) * G) (meanF A D t y) ((∑ i, x i) / n) ((∑ i, a i) / n) := by
  have hn : (n : ℂ) ≠ 0 := by
    have := t.leaves_pos
    rw [ht.length] at this
    exact_mod_cast this.ne'
  have h := t.nearG_add hA hG
  rw [ht.sum, ht.sum] at h
  have := h.div hA.nonneg hD (NearG.refl (n : ℂ)) hn (by norm_num)
  unfold meanF
  simp only [Complex.norm_natCast] at this
  refine this.mono (le_of_eq ?_)
  rw [pow_succ]
  norm_num
  ring

theorem divAbs_accurate (fl : ℝ → ℝ) (u : ℝ) (h0 : 0 ≤ u) (h : IsRounding fl u) : (divAbsOfRounding fl).Accurate u := by
  have hsq : ∀ x, (fl x - x) ^ 2 ≤ u ^ 2 * x ^ 2 := by
    intro x
    have := h x
    rw [← mul_pow, sq_le_sq, abs_mul, abs_of_nonneg h0]
    exact this
  refine ⟨fun a b _ => ?_, fun a => ?_⟩
  · refine norm_le_of_parts _ _ (by positivity) ?_
    rw [mul_pow, Complex.sq_norm, Complex.normSq_apply]
    have e1 := hsq (a / b).re
    have e2 := hsq (a / b).im
    simp only [divAbsOfRounding, Complex.sub_re, Complex.sub_im]
    linarith
  · have := h ‖a‖
    rwa [abs_of_nonneg (norm_nonneg a)] at this

/-- `1 / (2 - (1 + ε)^k)` grows no faster than `(1 + ε)^(4 k)`. -/
theorem inv_growth_le (h0 : 0 ≤ ε) (k : ℕ) (hk : 4 * k * ε ≤ 1) : (1 + ε) ^ k < 2 ∧ 1 / (2 - (1 + ε) ^ k) ≤ (1 + ε) ^ (4 * k) := by
  have h1 := growth_le ε h0 k (by nlinarith)
  have hx : 0 ≤ k * ε := by positivity
  have h2 : 1 / 2 ≤ 2 - (1 + ε) ^ k := by linarith
  have h3 : 1 + 4 * (k * ε) ≤ (1 + ε) ^ (4 * k) := by
    have := one_add_mul_le_pow (show -2 ≤ ε by linarith) (4 * k)
    push_cast at this
    linarith
  refine ⟨by linarith, ?_⟩
  rw [div_le_iff₀ (by linarith)]
  calc (1 : ℝ) ≤ (1 + 4 * (k * ε)) * (1 - 2 * (k * ε)) := by nlinarith
    _ ≤ (1 + ε) ^ (4 * k) * (2 - (1 + ε) ^ k) := mul_le_mul h3 (by linarith) (by linarith) (by positivity)

end Cyjax.Fl
