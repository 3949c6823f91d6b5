import Verif.Model.RoundingLoss
import Verif.Model.Ml
import Verif.Spec.RoundingLoss
import Verif.Lemmas.RoundingIntegrate
import Mathlib.Tactic.FieldSimp

/-! # Errors and signs of the loss in rounded arithmetic -/

namespace Cyjax.Fl

variable {ε : ℝ} {A : Arith} {D : DivAbs} {lg : ℝ → ℝ} {fl : ℝ → ℝ} {u : ℝ}

theorem rnd_one_le (p : ℕ) (hp : 0 < p) {x : ℝ} (hx : 1 ≤ x) : 1 ≤ rnd p x := by
  have hx0 : 0 < x := by linarith
  have hne : x ≠ 0 := hx0.ne'
  rw [rnd, if_neg hne, abs_of_pos hx0]
  have he0 : 0 ≤ Int.log 2 x := by
    have := (Int.zpow_le_iff_le_log (R := ℝ) (b := 2) (by norm_num) (x := 0) hx0).1 (by simpa using hx)
    exact this
  have hle : (2 : ℝ) ^ Int.log 2 x ≤ x := by exact_mod_cast Int.zpow_log_le_self (b := 2) (by norm_num) hx0
  obtain ⟨e, he⟩ : ∃ e : ℤ, e = Int.log 2 x := ⟨_, rfl⟩
  rw [← he] at hle he0 ⊢
  have h1 : ((2 ^ (p - 1) : ℕ) : ℤ) ≤ round (x * 2 ^ ((p : ℤ) - 1 - e)) := by
    rw [round_eq, Int.le_floor]
    have : (2 : ℝ) ^ e * 2 ^ ((p : ℤ) - 1 - e) ≤ x * 2 ^ ((p : ℤ) - 1 - e) := mul_le_mul_of_nonneg_right hle (by positivity)
    rw [← zpow_add₀ (by norm_num), show e + ((p : ℤ) - 1 - e) = ((p - 1 : ℕ) : ℤ) by omega, zpow_natCast] at this
    push_cast
    linarith
  have h2 : ((2 : ℝ) ^ (p - 1)) ≤ (round (x * 2 ^ ((p : ℤ) - 1 - e)) : ℤ) := by exact_mod_cast h1
  calc (1 : ℝ) ≤ 2 ^ e := one_le_zpow₀ (by norm_num) he0
    _ = 2 ^ (p - 1) * 2 ^ (e - ((p : ℤ) - 1)) := by
      rw [← zpow_natCast, ← zpow_add₀ (by norm_num)]
      congr 1
      omega
    _ ≤ _ := mul_le_mul_of_nonneg_right h2 (by positivity)

/-- Numbers just above one are rounded to one. -/
theorem rnd_near_one (r : ℕ) {x : ℝ} (h0 : 0 ≤ x) (hx : x * 2 ^ r < 1 / 2) : rnd (r + 1) (x + 1) = 1 := by
  have h2 : (1 : ℝ) ≤ 2 ^ r := one_le_pow₀ (by norm_num)
  rw [rnd_one r (x + 1) (2 ^ r) (by linarith) (by nlinarith) (by push_cast; nlinarith) (by push_cast; nlinarith)]
  push_cast
  exact div_self (by positivity)

theorem rnd_keepsOne (p : ℕ) (hp : 0 < p) : KeepsOne (rnd p) := by
  refine ⟨rnd_zero p, ?_, fun x hx => rnd_one_le p hp hx⟩
  obtain ⟨r, rfl⟩ : ∃ r, p = r + 1 := ⟨p - 1, by omega⟩
  simpa using rnd_near_one r (x := 0) le_rfl (by norm_num)

/-- Numbers of the format are not changed. -/
theorem rnd_of_isFloat (p : ℕ) (hp : 0 < p) {x : ℝ} (h : IsFloat p x) : rnd p x = x := by
  by_cases hx : x = 0
  · rw [hx, rnd_zero]
  obtain ⟨m, e, hxe, hm⟩ := h
  have hx0 : 0 < |x| := abs_pos.2 hx
  obtain ⟨L, hL⟩ : ∃ L : ℤ, L = Int.log 2 |x| := ⟨_, rfl⟩
  have hle : (2 : ℝ) ^ L ≤ |x| := by rw [hL]; exact_mod_cast Int.zpow_log_le_self (b := 2) (by norm_num) hx0
  have habs : |x| = |(m : ℝ)| * 2 ^ e := by rw [hxe, abs_mul, abs_of_pos (by positivity : (0 : ℝ) < 2 ^ e)]
  have hmR : |(m : ℝ)| ≤ 2 ^ (p : ℤ) := by rw [zpow_natCast]; exact_mod_cast hm
  have hLpe : L ≤ p + e := by
    have : (2 : ℝ) ^ L ≤ 2 ^ ((p : ℤ) + e) := by
      rw [zpow_add₀ (by norm_num)]
      exact hle.trans (habs ▸ mul_le_mul_of_nonneg_right hmR (by positivity))
    exact (zpow_le_zpow_iff_right₀ (by norm_num)).1 this
  have hint : ∃ k : ℤ, x * 2 ^ ((p : ℤ) - 1 - L) = k := by
    rcases lt_or_eq_of_le hLpe with hlt | heq
    · refine ⟨m * 2 ^ (e + (p - 1 - L)).toNat, ?_⟩
      rw [hxe, mul_assoc, ← zpow_add₀ (by norm_num)]
      push_cast
      rw [← zpow_natCast, Int.toNat_of_nonneg (by omega)]
    · have h2 : (2 : ℝ) ^ (p : ℤ) ≤ |(m : ℝ)| := by
        rw [habs, heq, zpow_add₀ (by norm_num)] at hle
        exact le_of_mul_le_mul_right hle (by positivity)
      have h3 : |m| = 2 ^ p := by
        refine le_antisymm hm ?_
        rw [zpow_natCast] at h2
        exact_mod_cast h2
      have h4 : x * 2 ^ ((p : ℤ) - 1 - L) = m * 2 ^ (-1 : ℤ) := by
        rw [hxe, mul_assoc, ← zpow_add₀ (by norm_num), heq]
        congr 2
        ring
      obtain ⟨q, rfl⟩ : ∃ q, p = q + 1 := ⟨p - 1, by omega⟩
      rcases abs_eq (by positivity : (0 : ℤ) ≤ 2 ^ (q + 1)) |>.1 h3 with h5 | h5
      · exact ⟨2 ^ q, by rw [h4, h5]; push_cast; rw [pow_succ]; norm_num; ring⟩
      · exact ⟨-2 ^ q, by rw [h4, h5]; push_cast; rw [pow_succ]; norm_num; ring⟩
  obtain ⟨k, hk⟩ := hint
  rw [rnd, if_neg hx, ← hL, hk, round_intCast, ← hk, mul_assoc, ← zpow_add₀ (by norm_num)]
  rw [show (p : ℤ) - 1 - L + (L - (p - 1)) = 0 by ring, zpow_zero, mul_one]

theorem IsFloat.two_mul {p : ℕ} {x : ℝ} (h : IsFloat p x) : IsFloat p (2 * x) := by
  obtain ⟨m, e, hx, hm⟩ := h
  exact ⟨m, e + 1, by rw [hx, zpow_add_one₀ (by norm_num)]; ring, hm⟩

theorem LogAccurate.mono {ε' : ℝ} (h : LogAccurate lg ε) (hε : ε ≤ ε') : LogAccurate lg ε' := fun x hx =>
  (h x hx).trans (mul_le_mul_of_nonneg_right hε (abs_nonneg _))

theorem LogAccurate.one (h : LogAccurate lg ε) : lg 1 = 0 := by
  have := h 1 one_pos
  simpa using this

theorem LogAccurate.nonneg (h : LogAccurate lg ε) (hε : ε < 1) {x : ℝ} (hx : 1 ≤ x) : 0 ≤ lg x := by
  have h1 := h x (by linarith)
  have h2 := Real.log_nonneg hx
  rw [abs_of_nonneg h2] at h1
  nlinarith [(abs_le.1 h1).1]

theorem LogAccurate.pos (h : LogAccurate lg ε) (hε : ε < 1) {x : ℝ} (hx : 1 < x) : 0 < lg x := by
  have h1 := h x (by linarith)
  have h2 := Real.log_pos hx
  rw [abs_of_pos h2] at h1
  nlinarith [(abs_le.1 h1).1]

theorem IsRounding.ge (h : IsRounding fl u) {x : ℝ} (hx : 0 ≤ x) : (1 - u) * x ≤ fl x := by
  have := h x
  rw [abs_of_nonneg hx] at this
  linarith [(abs_le.1 this).1]

/-- Sums of real numbers in the rounded arithmetic are real, and keep their sign. -/
theorem RTree.eval_real {ι : Type*} (h0 : fl 0 = 0) (h : IsRounding fl u) (hu : u < 1) (t : RTree ι) (x : ι → ℝ) :
    ∃ s : ℝ, t.eval (ofRounding fl).add (fun i => (x i : ℂ)) = (s : ℂ) ∧ ((∀ i, 0 ≤ x i) → 0 ≤ s) ∧
      ((∀ i, 0 ≤ x i) → (∃ i ∈ t.leaves, 0 < x i) → 0 < s) := by
  induction t with
  | leaf i => exact ⟨x i, rfl, fun hx => hx i, fun _ ⟨j, hj, hp⟩ => by simp [RTree.leaves] at hj; rwa [← hj]⟩
  | node l r hl hr =>
    obtain ⟨s, hs, hs0, hsp⟩ := hl
    obtain ⟨s', hs', hs0', hsp'⟩ := hr
    refine ⟨fl (s + s'), ?_, fun hx => ?_, fun hx ⟨i, hi, hp⟩ => ?_⟩
    · rw [RTree.eval, hs, hs', ofRounding_add_real _ h0]
    · exact (mul_nonneg (by linarith) (add_nonneg (hs0 hx) (hs0' hx))).trans (h.ge (add_nonneg (hs0 hx) (hs0' hx)))
    · have hp' : 0 < s + s' := by
        rcases List.mem_append.1 hi with hi | hi
        · linarith [hsp hx ⟨i, hi, hp⟩, hs0' hx]
        · linarith [hsp' hx ⟨i, hi, hp⟩, hs0 hx]
      exact lt_of_lt_of_le (mul_pos (by linarith) hp') (h.ge hp'.le)

theorem meanF_real (h0 : fl 0 = 0) (h : IsRounding fl u) (hu : u < 1) {n : ℕ} (t : RTree (Fin n)) (ht : t.Covers) (x : Fin n → ℝ) :
    ∃ s : ℝ, meanF (ofRounding fl) (divAbsOfRounding fl) t (fun i => (x i : ℂ)) = (s : ℂ) ∧ ((∀ i, 0 ≤ x i) → 0 ≤ s) ∧
      ((∀ i, 0 ≤ x i) → (∃ i, 0 < x i) → 0 < s) := by
  obtain ⟨s, hs, hs0, hsp⟩ := t.eval_real h0 h hu x
  have hn : (0 : ℝ) < n := by exact_mod_cast ht.pos
  refine ⟨fl (s / n), ?_, fun hx => ?_, fun hx hp => ?_⟩
  · rw [meanF, hs, ← divAbs_div_real _ h0]
    norm_num
  · exact (mul_nonneg (by linarith) (div_nonneg (hs0 hx) hn.le)).trans (h.ge (div_nonneg (hs0 hx) hn.le))
  · obtain ⟨i, hi⟩ := hp
    have hs1 := hsp hx ⟨i, ht.mem_iff.2 (List.mem_finRange i), hi⟩
    exact lt_of_lt_of_le (mul_pos (by linarith) (div_pos hs1 hn)) (h.ge (div_pos hs1 hn).le)

/-- A sum of zeros is zero. -/
theorem meanF_zero (hA : A.Accurate ε) (hD : D.Accurate ε) {n : ℕ} (t : RTree (Fin n)) (ht : t.Covers) :
    meanF A D t (fun _ => 0) = 0 := by
  have := (meanF_near hA hD t ht (fun _ => NearG.refl (0 : ℂ))).bound
  simpa using this

end Cyjax.Fl

namespace Cyjax.Ml

open Cyjax.Fl

variable {ε : ℝ} {A : Arith} {D : DivAbs} {lg : ℝ → ℝ}

/-- Without negative values there is no penalty. -/
theorem varianceEtaLossF_pos (hA : A.Accurate ε) (hD : D.Accurate ε) (h1 : A.add 0 1 = 1) (hlg : LogAccurate lg ε) {n : ℕ}
    (t : RTree (Fin n)) (ht : t.Covers) (etas weights : Fin n → ℝ) (he : ∀ i, 0 ≤ etas i) :
    varianceEtaLossF A D lg t etas weights =
      (A.add (meanF A D t fun i => A.mul (intPow A.mul (A.add (D.div (etas i)
        (D.div (meanF A D t fun i => A.mul (weights i) (etas i)) (meanF A D t fun i => (weights i : ℂ)))) (-1)) 2) (weights i)) 0).re := by
  have hz : intPow A.mul ((0 : ℝ) : ℂ) 2 = 0 := by
    have := ((NearG.refl (0 : ℂ)).sq hA).bound
    simpa using this
  have hp : (meanF A D t fun i => ((lg (A.add (intPow A.mul ((if etas i < 0 then etas i else 0 : ℝ) : ℂ) 2) 1).re : ℝ) : ℂ)) = 0 := by
    rw [← meanF_zero hA hD t ht]
    congr 1
    funext i
    rw [if_neg (not_lt.2 (he i)), hz, h1, Complex.one_re, hlg.one, Complex.ofReal_zero]
  unfold varianceEtaLossF
  simp only [hp]

/-- The exact loss for positive values. -/
theorem varianceEtaLoss_pos {n : ℕ} (η w : Fin n → ℝ) (hη : ∀ i, 0 < η i) :
    varianceEtaLoss η w = mean fun i => (η i / (mean (fun i => w i * η i) / mean w) - 1) ^ 2 * w i := by
  unfold varianceEtaLoss
  have : (mean fun i => Real.log ((if η i < 0 then η i else 0) ^ 2 + 1)) = 0 := by
    unfold mean
    rw [Finset.sum_eq_zero fun i _ => by rw [if_neg (not_lt.2 (hη i).le)]; simp]
    simp
  simp only [this, add_zero]

/-- The mean of `(η / m + 1)²` with the weights is the loss plus four times the volume. -/
theorem loss_scale {n : ℕ} (hn : 0 < n) (η w : Fin n → ℝ) (hη : ∀ i, 0 < η i) (hw : ∀ i, 0 < w i) :
    (∑ i, (η i / (mean (fun i => w i * η i) / mean w) + 1) ^ 2 * w i) / n = varianceEtaLoss η w + 4 * mean w := by
  rw [varianceEtaLoss_pos η w hη]
  have hne : (Finset.univ : Finset (Fin n)).Nonempty := ⟨⟨0, hn⟩, Finset.mem_univ _⟩
  have hn' : (0 : ℝ) < n := by exact_mod_cast hn
  have h1 : 0 < mean w := div_pos (Finset.sum_pos (fun i _ => hw i) hne) hn'
  have h2 : 0 < mean fun i => w i * η i := div_pos (Finset.sum_pos (fun i _ => mul_pos (hw i) (hη i)) hne) hn'
  obtain ⟨m, hm⟩ : ∃ m, m = mean (fun i => w i * η i) / mean w := ⟨_, rfl⟩
  have hm0 : 0 < m := hm ▸ div_pos h2 h1
  have e1 : (∑ i, w i * η i) / n = m * mean w := by
    rw [hm, div_mul_cancel₀ _ h1.ne']; rfl
  rw [← hm]
  have e2 : (∑ i, (η i / m + 1) ^ 2 * w i) / n = (∑ i, (η i / m - 1) ^ 2 * w i) / n + 4 / m * ((∑ i, w i * η i) / n) := by
    rw [← mul_div_assoc, ← add_div, Finset.mul_sum, ← Finset.sum_add_distrib]
    congr 1
    refine Finset.sum_congr rfl fun i _ => ?_
    field_simp
    ring
  rw [e2, e1, ← mul_assoc, div_mul_cancel₀ _ hm0.ne']
  rfl

/-- Computed quotients `η / m` by the mean, for inputs with relative errors. -/
theorem etaRatio_near (hA : A.Accurate ε) (hD : D.Accurate ε) {n : ℕ} (t : RTree (Fin n)) (ht : t.Covers) (η w etas weights : Fin n → ℝ)
    (hη : ∀ i, 0 < η i) (hw : ∀ i, 0 < w i) {δη δw : ℝ} (hδη : 0 ≤ δη) (hδw : 0 ≤ δw) (he : ∀ i, |etas i - η i| ≤ δη * η i)
    (hwt : ∀ i, |weights i - w i| ≤ δw * w i) {C M : ℝ} (hC : C = (1 + ε) ^ (t.depth + 1) * (1 + δw)) (hC2 : C < 2)
    (hM : M = (1 + ε) * ((1 + ε) ^ (t.depth + 2) * ((1 + δη) * (1 + δw)) / (2 - C))) (hM2 : M < 2) (i : Fin n) :
    NearG ((1 + ε) * ((1 + δη) / (2 - M))) (D.div (etas i) (D.div (meanF A D t fun i => A.mul (weights i) (etas i))
      (meanF A D t fun i => (weights i : ℂ)))) ((η i / (mean (fun i => w i * η i) / mean w) : ℝ) : ℂ)
      (η i / (mean (fun i => w i * η i) / mean w)) := by
  have hn : 0 < n := ht.pos
  have hne : (Finset.univ : Finset (Fin n)).Nonempty := ⟨⟨0, hn⟩, Finset.mem_univ _⟩
  have hn' : (0 : ℝ) < n := by exact_mod_cast hn
  have h1 : 0 < mean w := div_pos (Finset.sum_pos (fun i _ => hw i) hne) hn'
  have h2 : 0 < mean fun i => w i * η i := div_pos (Finset.sum_pos (fun i _ => mul_pos (hw i) (hη i)) hne) hn'
  have h3 := div_pos h2 h1
  have ne := fun i => nearG_weight hδη (hη i).le (he i)
  have nw := fun i => nearG_weight hδw (hw i).le (hwt i)
  have nK : NearG ((1 + ε) ^ (t.depth + 2) * ((1 + δη) * (1 + δw))) (meanF A D t fun i => A.mul (weights i) (etas i))
      ((mean fun i => w i * η i : ℝ) : ℂ) (mean fun i => w i * η i) := by
    have := meanF_near hA hD t ht fun i => (nw i).mul hA (ne i)
    convert this using 1
    · ring
    · unfold mean; push_cast; rfl
    · rfl
  have nC : NearG C (meanF A D t fun i => (weights i : ℂ)) ((mean w : ℝ) : ℂ) ‖((mean w : ℝ) : ℂ)‖ := by
    have := meanF_near hA hD t ht nw
    rw [Complex.norm_real, Real.norm_of_nonneg h1.le, hC]
    convert this using 1
    · unfold mean; push_cast; rfl
    · rfl
  have nm := nK.div hA.nonneg hD nC (by exact_mod_cast h1.ne') hC2
  rw [← hM, Complex.norm_real, Real.norm_of_nonneg h1.le, ← Complex.ofReal_div] at nm
  have nm' : NearG M (D.div (meanF A D t fun i => A.mul (weights i) (etas i)) (meanF A D t fun i => (weights i : ℂ)))
      ((mean (fun i => w i * η i) / mean w : ℝ) : ℂ) ‖((mean (fun i => w i * η i) / mean w : ℝ) : ℂ)‖ := by
    rwa [Complex.norm_real, Real.norm_of_nonneg h3.le]
  have := (ne i).div hA.nonneg hD nm' (by exact_mod_cast h3.ne') hM2
  rwa [Complex.norm_real, Real.norm_of_nonneg h3.le, ← Complex.ofReal_div] at this

/-- In floating point arithmetic the loss is the rounded sum of two non-negative numbers, the second of which is positive if there is a
negative value of eta that is not too small. -/
theorem lossF_parts {fl : ℝ → ℝ} {u : ℝ} (h : IsRounding fl u) (hu : u < 1) (hfl : KeepsOne fl) (hε : ε < 1)
    (hlg : LogAccurate lg ε) {n : ℕ} (t : RTree (Fin n)) (ht : t.Covers) (etas weights : Fin n → ℝ) (hw : ∀ i, 0 ≤ weights i) :
    ∃ l s : ℝ, 0 ≤ l ∧ 0 ≤ s ∧ varianceEtaLossF (ofRounding fl) (divAbsOfRounding fl) lg t etas weights = fl (l + s) ∧
      ((∃ i, etas i < 0 ∧ u < (1 - u) ^ 3 * etas i ^ 2) → 0 < s) := by
  have z := hfl.zero
  have hnn : ∀ x, 0 ≤ x → 0 ≤ fl x := fun x hx => (mul_nonneg (by linarith) hx).trans (h.ge hx)
  have hsq : ∀ x : ℝ, intPow (ofRounding fl).mul (x : ℂ) 2 = ((fl (fl (x * x)) : ℝ) : ℂ) := fun x => by
    rw [Projective.intPow_two, ofRounding_mul_real _ z]
  obtain ⟨a, ha, -⟩ := meanF_real z h hu t ht fun i => fl (fl (weights i * etas i))
  obtain ⟨b, hb, -⟩ := meanF_real z h hu t ht weights
  obtain ⟨x, hx⟩ : ∃ x : Fin n → ℝ, x = fun i => fl (fl (etas i / fl (a / b)) + -1) := ⟨_, rfl⟩
  obtain ⟨l, hl, hl0, -⟩ := meanF_real z h hu t ht fun i => fl (fl (fl (fl (x i * x i)) * weights i))
  obtain ⟨y, hy⟩ : ∃ y : Fin n → ℝ, y = fun i => if etas i < 0 then etas i else 0 := ⟨_, rfl⟩
  have hy0 : ∀ i, 0 ≤ fl (fl (y i * y i)) := fun i => hnn _ (hnn _ (mul_self_nonneg _))
  obtain ⟨s, hs, hs0, hsp⟩ := meanF_real z h hu t ht fun i => lg (fl (fl (fl (y i * y i)) + 1))
  have hlg0 : ∀ i, 0 ≤ lg (fl (fl (fl (y i * y i)) + 1)) := fun i => hlg.nonneg hε (hfl.one_le _ (by linarith [hy0 i]))
  refine ⟨l, s, hl0 fun i => hnn _ (hnn _ (mul_nonneg (hnn _ (hnn _ (mul_self_nonneg _))) (hw i))), hs0 hlg0, ?_, ?_⟩
  · have e1 : ∀ i, (ofRounding fl).mul (weights i : ℂ) (etas i : ℂ) = ((fl (fl (weights i * etas i)) : ℝ) : ℂ) :=
      fun i => ofRounding_mul_real _ z _ _
    have e2 : ∀ i, intPow (ofRounding fl).mul (((if etas i < 0 then etas i else 0 : ℝ)) : ℂ) 2 = ((fl (fl (y i * y i)) : ℝ) : ℂ) :=
      fun i => by rw [hsq, hy]
    have e3 : ∀ c : ℝ, (ofRounding fl).add (c : ℂ) 1 = ((fl (c + 1) : ℝ) : ℂ) := fun c => by
      rw [← ofRounding_add_real _ z, Complex.ofReal_one]
    have e4 : ∀ c : ℝ, (ofRounding fl).add (c : ℂ) (-1) = ((fl (c + -1) : ℝ) : ℂ) := fun c => by
      rw [← ofRounding_add_real _ z, Complex.ofReal_neg, Complex.ofReal_one]
    simp only [varianceEtaLossF, e1, e2, e3, Complex.ofReal_re, ha, hb, divAbs_div_real _ z, e4, hsq, ofRounding_mul_real _ z]
    simp only [hx] at hl
    rw [hl, hs, ofRounding_add_real _ z, Complex.ofReal_re]
  · rintro ⟨i, hi, hi2⟩
    refine hsp hlg0 ⟨i, hlg.pos hε ?_⟩
    have hyi : y i = etas i := by rw [hy]; simp [hi]
    rw [hyi]
    have h1 : (1 - u) * (etas i * etas i) ≤ fl (etas i * etas i) := h.ge (mul_self_nonneg _)
    have h2 : (1 - u) * fl (etas i * etas i) ≤ fl (fl (etas i * etas i)) := h.ge (hnn _ (mul_self_nonneg _))
    have h3 : (1 - u) * (fl (fl (etas i * etas i)) + 1) ≤ fl (fl (fl (etas i * etas i)) + 1) := h.ge (by linarith [hnn _ (hnn _ (mul_self_nonneg (etas i)))])
    have h4 : (1 - u) * ((1 - u) * (etas i * etas i)) ≤ fl (fl (etas i * etas i)) :=
      (mul_le_mul_of_nonneg_left h1 (by linarith)).trans h2
    have h5 := mul_le_mul_of_nonneg_left h4 (by linarith : (0 : ℝ) ≤ 1 - u)
    nlinarith

end Cyjax.Ml
