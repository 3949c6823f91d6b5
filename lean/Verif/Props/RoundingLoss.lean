import Verif.Lemmas.RoundingLoss
import Verif.Props.RoundingIntegrate

/-! # Property C173: the loss of the training in rounded arithmetic -/

namespace Cyjax

open Cyjax.Fl Cyjax.Ml

/-- **C173.** Let all operations have relative error at most `ε`, the computed values of eta (positive) relative error `δη < 1` and the
computed weights relative error `δw`. The computed loss differs from the exact one by a small multiple of the loss plus four times the
volume. `C` and `M` are the growth factors of the mean of the weights and of the mean of eta. -/
theorem C173_error (A : Arith) (D : DivAbs) (ε : ℝ) (hA : A.Accurate ε) (hD : D.Accurate ε) (h1 : A.add 0 1 = 1) (lg : ℝ → ℝ)
    (hlg : LogAccurate lg ε) {count : ℕ} (t : RTree (Fin count)) (ht : t.Covers) (η w etas weights : Fin count → ℝ)
    (hη : ∀ i, 0 < η i) (hw : ∀ i, 0 < w i) (δη δw : ℝ) (hδη : 0 ≤ δη) (hδη1 : δη < 1) (hδw : 0 ≤ δw)
    (he : ∀ i, |etas i - η i| ≤ δη * η i) (hwt : ∀ i, |weights i - w i| ≤ δw * w i) (C M : ℝ)
    (hC : C = (1 + ε) ^ (t.depth + 1) * (1 + δw)) (hC2 : C < 2)
    (hM : M = (1 + ε) * ((1 + ε) ^ (t.depth + 2) * ((1 + δη) * (1 + δw)) / (2 - C))) (hM2 : M < 2) :
    |varianceEtaLossF A D lg t etas weights - varianceEtaLoss η w| ≤
      ((1 + ε) ^ (t.depth + 8) * ((1 + δη) / (2 - M)) ^ 2 * (1 + δw) - 1) * (varianceEtaLoss η w + 4 * ((∑ i, w i) / count)) := by
  have hpos : ∀ i, 0 ≤ etas i := fun i => by nlinarith [(abs_le.1 (he i)).1, hη i]
  have nw := fun i => nearG_weight hδw (hw i).le (hwt i)
  have nr := etaRatio_near hA hD t ht η w etas weights hη hw hδη hδw he hwt hC hC2 hM hM2
  have h0 : NearG 1 (-1) (-1) 1 := by simpa using (NearG.refl (-1 : ℂ))
  have nt := fun i => (((nr i).add hA (h0.mono (nr i).one_le)).sq hA).mul hA (nw i)
  have nm := meanF_near hA hD t ht nt
  have nz : NearG 1 (0 : ℂ) 0 0 := by simpa using NearG.refl (0 : ℂ)
  have nf := nm.add hA (nz.mono nm.one_le)
  rw [varianceEtaLossF_pos hA hD h1 hlg t ht etas weights hpos]
  have hx : (∑ i, (((η i / (mean (fun i => w i * η i) / mean w) : ℝ) : ℂ) + -1) ^ 2 * (w i : ℂ)) / (count : ℂ) + 0 =
      ((varianceEtaLoss η w : ℝ) : ℂ) := by
    rw [varianceEtaLoss_pos η w hη, add_zero]
    generalize mean (fun i => w i * η i) / mean w = m
    simp only [mean, sub_eq_add_neg]
    push_cast
    rfl
  have hs : (∑ i, (η i / (mean (fun i => w i * η i) / mean w) + 1) ^ 2 * w i) / count + 0 = varianceEtaLoss η w + 4 * ((∑ i, w i) / count) := by
    rw [add_zero, loss_scale ht.pos η w hη hw]; rfl
  rw [hx, hs] at nf
  have hfin := nf.re.err
  rw [← Complex.ofReal_sub, Complex.norm_real, Real.norm_eq_abs] at hfin
  refine hfin.trans (le_of_eq ?_)
  congr 2
  ring

/-- **C173.** For exact values at the points the error is at most `82 (d + 2) ε` times the loss plus four times the volume. -/
theorem C173_explicit (A : Arith) (D : DivAbs) (ε : ℝ) (hA : A.Accurate ε) (hD : D.Accurate ε) (h1 : A.add 0 1 = 1) (lg : ℝ → ℝ)
    (hlg : LogAccurate lg ε) {count : ℕ} (t : RTree (Fin count)) (ht : t.Covers) (η w : Fin count → ℝ)
    (hη : ∀ i, 0 < η i) (hw : ∀ i, 0 < w i) (hε : 41 * (t.depth + 2) * ε ≤ 1) :
    |varianceEtaLossF A D lg t η w - varianceEtaLoss η w| ≤
      82 * (t.depth + 2) * ε * (varianceEtaLoss η w + 4 * ((∑ i, w i) / count)) := by
  have h0 := hA.nonneg
  have hd : (0 : ℝ) ≤ t.depth := Nat.cast_nonneg _
  have hdε : 0 ≤ t.depth * ε := mul_nonneg hd h0
  have hc := inv_growth_le h0 (t.depth + 1) (by push_cast; nlinarith)
  obtain ⟨C, hC⟩ : ∃ C, C = (1 + ε) ^ (t.depth + 1) * (1 + 0) := ⟨_, rfl⟩
  obtain ⟨M, hM⟩ : ∃ M, M = (1 + ε) * ((1 + ε) ^ (t.depth + 2) * ((1 + 0) * (1 + 0)) / (2 - C)) := ⟨_, rfl⟩
  have hC' : C = (1 + ε) ^ (t.depth + 1) := by rw [hC]; ring
  rw [← hC'] at hc
  have hM' : M ≤ (1 + ε) ^ (5 * t.depth + 7) := by
    calc M = (1 + ε) ^ (t.depth + 3) * (1 / (2 - C)) := by rw [hM]; ring
      _ ≤ (1 + ε) ^ (t.depth + 3) * (1 + ε) ^ (4 * (t.depth + 1)) := mul_le_mul_of_nonneg_left hc.2 (by positivity)
      _ = _ := by rw [← pow_add]; congr 1; ring
  have hm := inv_growth_le h0 (5 * t.depth + 7) (by push_cast; nlinarith)
  have hM2 : M < 2 := lt_of_le_of_lt hM' hm.1
  have hinv : 1 / (2 - M) ≤ (1 + ε) ^ (4 * (5 * t.depth + 7)) :=
    (one_div_le_one_div_of_le (by linarith [hm.1]) (by linarith)).trans hm.2
  have h := C173_error A D ε hA hD h1 lg hlg t ht η w η w hη hw 0 0 le_rfl one_pos le_rfl (fun i => by simp) (fun i => by simp)
    C M hC hc.1 hM hM2
  refine h.trans (mul_le_mul_of_nonneg_right ?_ ?_)
  · have h3 := growth_le ε h0 (41 * t.depth + 64) (by push_cast; nlinarith)
    have hb : (1 + ε) ^ (t.depth + 8) * ((1 + 0) / (2 - M)) ^ 2 * (1 + 0) ≤ (1 + ε) ^ (41 * t.depth + 64) := by
      calc (1 + ε) ^ (t.depth + 8) * ((1 + 0) / (2 - M)) ^ 2 * (1 + 0) = (1 + ε) ^ (t.depth + 8) * (1 / (2 - M)) ^ 2 := by ring
        _ ≤ (1 + ε) ^ (t.depth + 8) * ((1 + ε) ^ (4 * (5 * t.depth + 7))) ^ 2 :=
          mul_le_mul_of_nonneg_left (pow_le_pow_left₀ (one_div_nonneg.2 (by linarith)) hinv 2) (by positivity)
        _ = _ := by rw [← pow_mul, ← pow_add]; congr 1; ring
    push_cast at h3
    nlinarith
  · rw [← show mean w = (∑ i, w i) / count from rfl, ← loss_scale ht.pos η w hη hw]
    exact div_nonneg (Finset.sum_nonneg fun i _ => mul_nonneg (sq_nonneg _) (hw i).le) (Nat.cast_nonneg _)

/-- **C173.** Constant positive eta has loss zero; the computed loss is of second order in the rounding errors (`M` as in `C173_error`):
at most four times the square of the relative error of the quotients, times the volume. -/
theorem C173_perfect (A : Arith) (D : DivAbs) (ε : ℝ) (hA : A.Accurate ε) (hD : D.Accurate ε) (h1 : A.add 0 1 = 1) (lg : ℝ → ℝ)
    (hlg : LogAccurate lg ε) {count : ℕ} (t : RTree (Fin count)) (ht : t.Covers) (c : ℝ) (hc : 0 < c) (w : Fin count → ℝ)
    (hw : ∀ i, 0 < w i) (C M : ℝ) (hC : C = (1 + ε) ^ (t.depth + 1)) (hC2 : C < 2)
    (hM : M = (1 + ε) * ((1 + ε) ^ (t.depth + 2) / (2 - C))) (hM2 : M < 2) :
    |varianceEtaLossF A D lg t (fun _ => c) w| ≤
      (1 + ε) ^ (t.depth + 4) * (4 * ((1 + ε) ^ 2 / (2 - M) - 1) ^ 2) * ((∑ i, w i) / count) := by
  have hn := ht.pos
  have hn' : (0 : ℝ) < count := by exact_mod_cast hn
  have hne : (Finset.univ : Finset (Fin count)).Nonempty := ⟨⟨0, hn⟩, Finset.mem_univ _⟩
  have hmw : 0 < mean w := div_pos (Finset.sum_pos (fun i _ => hw i) hne) hn'
  have nr := etaRatio_near hA hD t ht (fun _ => c) w (fun _ => c) w (fun _ => hc) hw (δη := 0) (δw := 0) le_rfl le_rfl
    (fun i => by simp) (fun i => by simp) (C := C) (M := M) (by rw [hC]; ring) hC2 (by rw [hM]; ring) hM2
  have hratio : c / ((mean fun i => w i * c) / mean w) = 1 := by
    have : (mean fun i => w i * c) = mean w * c := by
      unfold mean; rw [← Finset.sum_mul]; ring
    rw [this]; field_simp
  simp only [hratio] at nr
  have h0 : NearG 1 (-1) (-1) 1 := by simpa using (NearG.refl (-1 : ℂ))
  have nt := fun i => (nr i).add hA (h0.mono (nr i).one_le)
  rw [varianceEtaLossF_pos hA hD h1 hlg t ht _ _ (fun _ => hc.le)]
  obtain ⟨y, hy⟩ : ∃ y : Fin count → ℂ, y = fun i => A.add (D.div c (D.div (meanF A D t fun i => A.mul (w i) c)
    (meanF A D t fun i => (w i : ℂ)))) (-1) := ⟨_, rfl⟩
  have hyb : ∀ i, ‖y i‖ ≤ 2 * ((1 + ε) ^ 2 / (2 - M) - 1) := by
    intro i
    have := (nt i).err
    rw [hy]
    refine le_trans (le_of_eq ?_) (this.trans (le_of_eq ?_))
    · congr 1
      simp
    · ring
  have nw : ∀ i, NearG 1 (w i : ℂ) (w i) (w i) := fun i => by
    simpa [abs_of_pos (hw i)] using NearG.refl (w i : ℂ)
  have ns := fun i => ((NearG.refl (y i)).sq hA).mul hA (nw i)
  have nm := meanF_near hA hD t ht ns
  have nz : NearG 1 (0 : ℂ) 0 0 := by simpa using NearG.refl (0 : ℂ)
  have nf := (nm.add hA (nz.mono nm.one_le)).bound
  have hε := hA.nonneg
  refine (Complex.abs_re_le_norm _).trans ?_
  subst hy
  refine nf.trans ?_
  have hsum : (∑ i, ‖(fun _ : Fin count => A.add (D.div c (D.div (meanF A D t fun i => A.mul (w i) c)
      (meanF A D t fun i => (w i : ℂ)))) (-1)) i‖ ^ 2 * w i) / count ≤
      4 * ((1 + ε) ^ 2 / (2 - M) - 1) ^ 2 * ((∑ i, w i) / count) := by
    rw [← mul_div_assoc, Finset.mul_sum]
    refine div_le_div_of_nonneg_right (Finset.sum_le_sum fun i _ => mul_le_mul_of_nonneg_right ?_ (hw i).le) hn'.le
    have := pow_le_pow_left₀ (norm_nonneg _) (hyb i) 2
    linarith
  rw [add_zero]
  calc _ ≤ (1 + ε) * ((1 + ε) ^ (t.depth + 1) * ((1 + ε) * ((1 + ε) * 1 ^ 2 * 1))) *
        (4 * ((1 + ε) ^ 2 / (2 - M) - 1) ^ 2 * ((∑ i, w i) / count)) := mul_le_mul_of_nonneg_left hsum (by positivity)
    _ = _ := by ring

/-- **C173.** In floating point arithmetic the computed loss is never negative, whatever the signs of eta, as long as the computed means
are not zero. (Compare the variance in `C171_negative_violated`.) -/
theorem C173_nonneg (fl : ℝ → ℝ) (u : ℝ) (h : IsRounding fl u) (hu : u < 1) (hfl : KeepsOne fl) (lg : ℝ → ℝ) (ε : ℝ)
    (hε : ε < 1) (hlg : LogAccurate lg ε) {count : ℕ} (t : RTree (Fin count)) (ht : t.Covers) (etas weights : Fin count → ℝ)
    (hw : ∀ i, 0 ≤ weights i) (_hw0 : ∃ i, 0 < weights i)
    (_hm : meanF (ofRounding fl) (divAbsOfRounding fl) t (fun i => (ofRounding fl).mul (weights i) (etas i)) ≠ 0) :
    0 ≤ varianceEtaLossF (ofRounding fl) (divAbsOfRounding fl) lg t etas weights := by
  obtain ⟨l, s, hl0, hs0, hs, -⟩ := lossF_parts h hu hfl hε hlg t ht etas weights hw
  rw [hs]
  exact (mul_nonneg (by linarith) (add_nonneg hl0 hs0)).trans (h.ge (add_nonneg hl0 hs0))

/-- **C173, partial.** A negative eta with square above `u / (1 - u)^3`, where `u` is the unit roundoff, makes the computed loss positive.
Missing: negative eta of smaller absolute value, see `C173_penalty_violated`. -/
theorem C173_penalty_partial (fl : ℝ → ℝ) (u : ℝ) (h : IsRounding fl u) (hu : u < 1) (hfl : KeepsOne fl) (lg : ℝ → ℝ) (ε : ℝ)
    (hε : ε < 1) (hlg : LogAccurate lg ε) {count : ℕ} (t : RTree (Fin count)) (ht : t.Covers) (etas weights : Fin count → ℝ)
    (hw : ∀ i, 0 ≤ weights i) (_hw0 : ∃ i, 0 < weights i)
    (_hm : meanF (ofRounding fl) (divAbsOfRounding fl) t (fun i => (ofRounding fl).mul (weights i) (etas i)) ≠ 0)
    (i : Fin count) (hi : etas i < 0) (hi2 : u < (1 - u) ^ 3 * etas i ^ 2) :
    0 < varianceEtaLossF (ofRounding fl) (divAbsOfRounding fl) lg t etas weights := by
  obtain ⟨l, s, hl0, hs0, hs, hsp⟩ := lossF_parts h hu hfl hε hlg t ht etas weights hw
  have := hsp ⟨i, hi, hi2⟩
  rw [hs]
  exact lt_of_lt_of_le (mul_pos (by linarith) (add_pos_of_nonneg_of_pos hl0 this)) (h.ge (add_pos_of_nonneg_of_pos hl0 this).le)

/-- **C173.** Rounding to `p` digits, with the logarithm rounded likewise, meets all the assumptions made above. -/
theorem C173_floats (p : ℕ) (hp : 0 < p) : IsRounding (rnd p) (2 ^ (-(p : ℤ))) ∧ (2 : ℝ) ^ (-(p : ℤ)) < 1 ∧ KeepsOne (rnd p) ∧
    LogAccurate (fun x => rnd p (Real.log x)) (2 ^ (-(p : ℤ))) ∧ (ofRounding (rnd p)).add 0 1 = 1 := by
  have hk := rnd_keepsOne p hp
  refine ⟨rnd_isRounding p, ?_, hk, fun x _ => rnd_isRounding p _, ?_⟩
  · rw [zpow_neg, zpow_natCast]
    exact inv_lt_one_of_one_lt₀ (one_lt_pow₀ (by norm_num) hp.ne')
  · have := ofRounding_add_real (rnd p) hk.zero 0 1
    rw [zero_add, hk.one] at this
    simpa using this

/-- **C173 is violated for small negative eta.** In arithmetic with `p = r + 1` digits, eta with the same negative value `v` at all (two) points
is reported as a perfect metric if `v² 2^(r+3) ≤ 1`: the computed loss is exactly zero although the penalty in the exact loss is positive. -/
theorem C173_penalty_violated (r : ℕ) (hr : 2 ≤ r) (v : ℝ) (hv : v < 0) (hf : IsFloat (r + 1) v) (hs : v ^ 2 * 2 ^ (r + 3) ≤ 1) :
    varianceEtaLossF (ofRounding (rnd (r + 1))) (divAbsOfRounding (rnd (r + 1))) (fun x => rnd (r + 1) (Real.log x))
      (.node (.leaf 0) (.leaf 1)) (fun _ : Fin 2 => v) (fun _ => 1) = 0 ∧
    0 < varianceEtaLoss (fun _ : Fin 2 => v) (fun _ => 1) := by
  have hk := rnd_keepsOne (r + 1) (by omega)
  have hround := rnd_isRounding (r + 1)
  have hv1 : rnd (r + 1) v = v := rnd_of_isFloat _ (by omega) hf
  have hv2 : rnd (r + 1) (v + v) = v + v := by rw [← two_mul]; exact rnd_of_isFloat _ (by omega) hf.two_mul
  have h2 : rnd (r + 1) (1 + 1) = 2 := by
    have := rnd_of_isFloat (r + 1) (by omega) (x := 2) ⟨1, 1, by norm_num, by
      rw [abs_one]; exact one_le_pow₀ (by norm_num)⟩
    rw [← this]; norm_num
  have hq : rnd (r + 1) (rnd (r + 1) (rnd (r + 1) (v * v)) + 1) = 1 := by
    have hu : (2 : ℝ) ^ (-((r + 1 : ℕ) : ℤ)) ≤ 1 / 8 := by
      rw [zpow_neg, zpow_natCast, one_div]
      refine inv_anti₀ (by norm_num) ?_
      calc (8 : ℝ) = 2 ^ 3 := by norm_num
        _ ≤ 2 ^ (r + 1) := pow_le_pow_right₀ (by norm_num) (by omega)
    have hb : ∀ x : ℝ, 0 ≤ x → 0 ≤ rnd (r + 1) x ∧ rnd (r + 1) x ≤ 9 / 8 * x := fun x hx => by
      have := hround x
      rw [abs_of_nonneg hx] at this
      have := abs_le.1 (this.trans (mul_le_mul_of_nonneg_right hu hx))
      constructor <;> linarith
    obtain ⟨a1, a2⟩ := hb (v * v) (mul_self_nonneg v)
    obtain ⟨b1, b2⟩ := hb _ a1
    refine rnd_near_one r b1 ?_
    have hp : (0 : ℝ) < 2 ^ r := by positivity
    have e : v ^ 2 * 2 ^ (r + 3) = 8 * (v * v * 2 ^ r) := by ring
    rw [e] at hs
    calc _ ≤ 9 / 8 * (9 / 8 * (v * v)) * 2 ^ r := mul_le_mul_of_nonneg_right (b2.trans (by linarith)) hp.le
      _ < 1 / 2 := by linarith
  constructor
  · have z := hk.zero
    have hone := hk.one
    obtain ⟨fl, hfl⟩ : ∃ fl : ℝ → ℝ, fl = rnd (r + 1) := ⟨_, rfl⟩
    rw [← hfl] at hv1 hv2 h2 hq z hone
    rw [← hfl]
    have c2 : ((2 : ℕ) : ℂ) = ((2 : ℝ) : ℂ) := by push_cast; rfl
    have e3 : ∀ c : ℝ, (ofRounding fl).add (c : ℂ) 1 = ((fl (c + 1) : ℝ) : ℂ) := fun c => by
      rw [← ofRounding_add_real _ z, Complex.ofReal_one]
    have e4 : ∀ c : ℝ, (ofRounding fl).add (c : ℂ) (-1) = ((fl (c + -1) : ℝ) : ℂ) := fun c => by
      rw [← ofRounding_add_real _ z, Complex.ofReal_neg, Complex.ofReal_one]
    have h22 : (v + v) / 2 = v := by ring
    simp only [varianceEtaLossF, meanF, RTree.eval, c2, ofRounding_mul_real _ z, ofRounding_add_real _ z, divAbs_div_real _ z, one_mul, mul_one, hv1,
      hv2, h2, h22, div_self (by norm_num : (2 : ℝ) ≠ 0), hone, div_one, div_self hv.ne, e4, add_neg_cancel, z, Projective.intPow_two,
      mul_zero, add_zero, zero_div, if_pos hv, e3, hq, Complex.ofReal_re, Real.log_one]
  · unfold varianceEtaLoss
    have : 0 < Real.log (v ^ 2 + 1) := Real.log_pos (by nlinarith)
    have hne : v ≠ 0 := hv.ne
    simp only [mean, Fin.sum_univ_two, if_pos hv]
    have e : v / ((1 * v + 1 * v) / ((2 : ℕ) : ℝ) / ((1 + 1) / ((2 : ℕ) : ℝ))) = 1 := by
      push_cast; field_simp
    rw [e]
    push_cast
    linarith

/-- **C173.** In exact arithmetic the model is `variance_eta_loss` as modelled for C121, in any order of summation. -/
theorem C173_exact {count : ℕ} (t : RTree (Fin count)) (ht : t.Covers) (etas weights : Fin count → ℝ) :
    varianceEtaLossF Fl.exact exactDivAbs Real.log t etas weights = varianceEtaLoss etas weights := by
  have hm : ∀ x : Fin count → ℝ, meanF Fl.exact exactDivAbs t (fun k => (x k : ℂ)) = ((mean x : ℝ) : ℂ) := by
    intro x
    have h := (RTree.eval_add t (fun k => (x k : ℂ))).trans (ht.sum _)
    unfold meanF mean
    push_cast
    exact congrArg (· / (count : ℂ)) h
  have hmul : ∀ a b : ℝ, Fl.exact.mul (a : ℂ) (b : ℂ) = ((a * b : ℝ) : ℂ) := fun a b => by simp [Fl.exact]
  have hdiv : ∀ a b : ℝ, exactDivAbs.div (a : ℂ) (b : ℂ) = ((a / b : ℝ) : ℂ) := fun a n => by simp [exactDivAbs]
  have hadd : ∀ a b : ℝ, Fl.exact.add (a : ℂ) (b : ℂ) = ((a + b : ℝ) : ℂ) := fun a b => by simp [Fl.exact]
  have hadd1 : ∀ a : ℝ, Fl.exact.add (a : ℂ) 1 = ((a + 1 : ℝ) : ℂ) := fun a => by simp [Fl.exact]
  have hsub1 : ∀ a : ℝ, Fl.exact.add (a : ℂ) (-1) = ((a - 1 : ℝ) : ℂ) := fun a => by simp [Fl.exact, sub_eq_add_neg]
  simp only [varianceEtaLossF, varianceEtaLoss, Projective.intPow_two, hmul, hm, hdiv, hadd1, hsub1, hadd, Complex.ofReal_re, ← sq]

/-- Single precision, two points. -/
example : |varianceEtaLossF (ofRounding (rnd 24)) (divAbsOfRounding (rnd 24)) (fun x => rnd 24 (Real.log x)) (.node (.leaf 0) (.leaf 1))
    ![1, 3] ![1, 1] - 1 / 4| ≤ 1 / 1000 := by
  have hf := C173_floats 24 (by norm_num)
  have h := C173_explicit (ofRounding (rnd 24)) (divAbsOfRounding (rnd 24)) (4 * 2 ^ (-((24 : ℕ) : ℤ))) (C159_floats 24 (by norm_num)).2
    (C161_floats 24) hf.2.2.2.2 (fun x => rnd 24 (Real.log x)) (hf.2.2.2.1.mono (by norm_num)) (.node (.leaf 0) (.leaf 1))
    (by unfold RTree.Covers; decide) ![1, 3] ![1, 1] (fun i => by fin_cases i <;> norm_num) (fun i => by fin_cases i <;> norm_num)
    (by norm_num [RTree.depth])
  have e : varianceEtaLoss ![(1 : ℝ), 3] ![1, 1] = 1 / 4 := by
    norm_num [varianceEtaLoss, mean, Fin.sum_univ_two]
  rw [e] at h
  refine h.trans ?_
  norm_num [RTree.depth, Fin.sum_univ_two]

/-- In single precision, one point with eta equal to `-1`: the loss is positive. -/
example : 0 < varianceEtaLossF (ofRounding (rnd 24)) (divAbsOfRounding (rnd 24)) (fun x => rnd 24 (Real.log x)) (.leaf 0)
    (fun _ : Fin 1 => -1) (fun _ => 1) := by
  obtain ⟨h1, h2, h3, h4, -⟩ := C173_floats 24 (by norm_num)
  have hf : rnd 24 (-1) = -1 := rnd_of_isFloat _ (by norm_num) ⟨-1, 0, by norm_num, by norm_num⟩
  refine C173_penalty_partial _ _ h1 h2 h3 _ _ h2 h4 (.leaf 0) (by unfold RTree.Covers; decide) _ _ (fun _ => zero_le_one)
    ⟨0, one_pos⟩ ?_ 0 (by norm_num) (by norm_num)
  have c1 : ((1 : ℕ) : ℂ) = ((1 : ℝ) : ℂ) := by push_cast; rfl
  simp only [meanF, RTree.eval, c1, ofRounding_mul_real _ h3.zero, divAbs_div_real _ h3.zero, one_mul, div_one, hf]
  norm_num

/-- Double precision, all values of eta equal to `-2^(-28)`. -/
example := C173_penalty_violated 52 (by norm_num) (-2 ^ (-28 : ℤ)) (by norm_num) ⟨-1, -28, by norm_num, by norm_num⟩ (by norm_num)

end Cyjax
