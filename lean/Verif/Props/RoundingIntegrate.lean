import Verif.Lemmas.RoundingIntegrate
import Verif.Props.Integrate
import Verif.Props.RoundingAccuracy

/-! # Property C171: Monte Carlo volume and its variance in rounded arithmetic -/

namespace Cyjax

open Cyjax.Fl Cyjax.Util

/-- **C171.** The volume computed in batches from weights with relative error `δ`: its relative error is at most
`(1 + ε)^(d + d' + 2) (1 + δ) - 1`, where `d` and `d'` are the depths of the sums within a batch and over the batches. -/
theorem C171_volume (A : Arith) (D : DivAbs) (ε : ℝ) (hA : A.Accurate ε) (hD : D.Accurate ε) {b bs : ℕ} (t : RTree (Fin bs))
    (ht : t.Covers) (tb : RTree (Fin b)) (htb : tb.Covers) (f w wF : Fin b → Fin bs → ℝ) (hw : ∀ i k, 0 ≤ w i k) (δ : ℝ)
    (hδ : 0 ≤ δ) (hF : ∀ i k, |wF i k - w i k| ≤ δ * w i k) :
    |(mcIntegrateBatchedF A D t tb f wF).1 - (∑ i, ∑ k, w i k) / (b * bs)| ≤
      ((1 + ε) ^ (t.depth + tb.depth + 2) * (1 + δ) - 1) * ((∑ i, ∑ k, w i k) / (b * bs)) := by
  have h := (mcMean_near hA hD t ht tb htb f w wF hw hδ hF).re.err
  rwa [← Complex.ofReal_sub, Complex.norm_real, Real.norm_eq_abs] at h

/-- **C171.** The variance returned with it differs from the exact one, `(mean of squares - square of the mean) / N`, by a small multiple
of the *sum* of the two terms. -/
theorem C171_variance (A : Arith) (D : DivAbs) (ε : ℝ) (hA : A.Accurate ε) (hD : D.Accurate ε) {b bs : ℕ} (t : RTree (Fin bs))
    (ht : t.Covers) (tb : RTree (Fin b)) (htb : tb.Covers) (f w wF : Fin b → Fin bs → ℝ) (hw : ∀ i k, 0 ≤ w i k) (δ : ℝ)
    (hδ : 0 ≤ δ) (hF : ∀ i k, |wF i k - w i k| ≤ δ * w i k) :
    let N : ℝ := b * bs
    let m := (∑ i, ∑ k, w i k) / N
    let s := (∑ i, ∑ k, (f i k * w i k) ^ 2) / N
    |(mcIntegrateBatchedF A D t tb f wF).2 - (s - m ^ 2) / N| ≤
      ((1 + ε) ^ (2 * (t.depth + tb.depth) + 8) * (1 + δ) ^ 2 - 1) * ((s + m ^ 2) / N) :=
  mcVariance_near hA hD t ht tb htb f w wF hw hδ hF _ _ rfl rfl

/-- **C171.** The same for `mc_integrate` without batches. -/
theorem C171_plain (A : Arith) (D : DivAbs) (ε : ℝ) (hA : A.Accurate ε) (hD : D.Accurate ε) {c : ℕ} (t : RTree (Fin c)) (ht : t.Covers)
    (f w wF : Fin c → ℝ) (hw : ∀ k, 0 ≤ w k) (δ : ℝ) (hδ : 0 ≤ δ) (hF : ∀ k, |wF k - w k| ≤ δ * w k) :
    let m := (∑ k, w k) / c
    let s := (∑ k, (f k * w k) ^ 2) / c
    |(mcIntegrateF A D t f wF).1 - m| ≤ ((1 + ε) ^ (t.depth + 1) * (1 + δ) - 1) * m ∧
    |(mcIntegrateF A D t f wF).2 - (s - m ^ 2) / c| ≤ ((1 + ε) ^ (2 * t.depth + 6) * (1 + δ) ^ 2 - 1) * ((s + m ^ 2) / c) :=
  mcPlain_near hA hD t ht f w wF hw hδ hF _ _ rfl rfl

/-- **C171, partial.** The returned variance of a volume is non-negative, hence has a square root, as soon as the exact variance of the
weights is larger than the rounding errors. Missing: all other cases, see `C171_negative_violated`. -/
theorem C171_nonneg_partial (A : Arith) (D : DivAbs) (ε : ℝ) (hA : A.Accurate ε) (hD : D.Accurate ε) {b bs : ℕ} (t : RTree (Fin bs))
    (ht : t.Covers) (tb : RTree (Fin b)) (htb : tb.Covers) (w wF : Fin b → Fin bs → ℝ) (hw : ∀ i k, 0 ≤ w i k) (δ : ℝ)
    (hδ : 0 ≤ δ) (hF : ∀ i k, |wF i k - w i k| ≤ δ * w i k) (m s : ℝ) (hm : m = (∑ i, ∑ k, w i k) / (b * bs))
    (hs : s = (∑ i, ∑ k, w i k ^ 2) / (b * bs))
    (hv : ((1 + ε) ^ (2 * (t.depth + tb.depth) + 8) * (1 + δ) ^ 2 - 1) * (s + m ^ 2) ≤ s - m ^ 2) :
    0 ≤ (mcIntegrateBatchedF A D t tb (fun _ _ => 1) wF).2 := by
  have h := mcVariance_near hA hD t ht tb htb (fun _ _ => 1) w wF hw hδ hF m s hm (by simpa using hs)
  have hN : (0 : ℝ) < b * bs := by
    have := htb.pos
    have := ht.pos
    positivity
  have h1 := (abs_le.1 h).1
  rw [← mul_div_assoc] at h1
  have h2 := div_le_div_of_nonneg_right hv hN.le
  linarith

/-- Weights `1` and `3` in single precision: the variance is positive. -/
example : 0 ≤ (mcIntegrateBatchedF (ofRounding (rnd 24)) (divAbsOfRounding (rnd 24)) (.node (.leaf 0) (.leaf 1)) (.leaf 0)
    (fun (_ : Fin 1) (_ : Fin 2) => 1) (fun _ => ![1, 3])).2 := by
  refine C171_nonneg_partial _ _ _ (C159_floats 24 (by norm_num)).2 (C161_floats 24) _ (by unfold RTree.Covers; decide) _
    (by unfold RTree.Covers; decide) (fun _ => ![1, 3]) _ ?_ 0 le_rfl (fun i k => by simp) 2 5 ?_ ?_ ?_
  · intro i k
    fin_cases k <;> norm_num
  · norm_num [Fin.sum_univ_two]
  · norm_num [Fin.sum_univ_two]
  · norm_num [RTree.depth, zpow_neg]

/-- **C171 is violated for nearly constant weights.** In arithmetic with `p = r + 1 ≥ 5` digits, the weights `1 + q` and `1 + 2 q`, where
`q = 2^(-r)` is the distance between neighbouring numbers, are represented exactly and have a positive variance, but the variance
returned is negative, both by the batched and by the plain integration: its square root is not a number. All the ties met are rounded
the same way by "ties to even". -/
theorem C171_negative_violated (r : ℕ) (hr : 4 ≤ r) :
    ∃ w : Fin 2 → ℝ, (∀ k, rnd (r + 1) (w k) = w k ∧ 0 < w k) ∧ 0 < ((∑ k, w k ^ 2) / 2 - ((∑ k, w k) / 2) ^ 2) / 2 ∧
      (mcIntegrateBatchedF (ofRounding (rnd (r + 1))) (divAbsOfRounding (rnd (r + 1))) (.node (.leaf 0) (.leaf 1)) (.leaf 0)
        (fun (_ : Fin 1) _ => 1) (fun _ => w)).2 < 0 ∧
      (mcIntegrateF (ofRounding (rnd (r + 1))) (divAbsOfRounding (rnd (r + 1))) (.node (.leaf 0) (.leaf 1)) (fun _ => 1) w).2 < 0 := by
  obtain ⟨q, hq⟩ : ∃ q : ℝ, q = 1 / 2 ^ r := ⟨_, rfl⟩
  have hq0 : 0 < q := by rw [hq]; positivity
  obtain ⟨r1, r2, r3, r4, r5, r6, r7, r8, r9, r10⟩ := rnd_values r hr q hq
  have z := rnd_zero (r + 1)
  obtain ⟨fl, hfl⟩ : ∃ fl : ℝ → ℝ, fl = rnd (r + 1) := ⟨_, rfl⟩
  have hneg : ∀ x < 0, fl x < 0 := fun x hx => by rw [hfl]; exact rnd_neg_of_neg _ (by omega) hx
  rw [← hfl] at r1 r2 r3 r4 r5 r6 r7 r8 r9 r10 z
  rw [← hfl]
  have hsq0 : intPow (ofRounding fl).mul ((ofRounding fl).mul ((1 : ℝ) : ℂ) ((1 + q : ℝ) : ℂ)) 2 = ((1 + 2 * q : ℝ) : ℂ) := by
    rw [Projective.intPow_two, ofRounding_mul_real _ z, one_mul, r1, r1, ofRounding_mul_real _ z, r7, r2]
  have hsq1 : intPow (ofRounding fl).mul ((ofRounding fl).mul ((1 : ℝ) : ℂ) ((1 + 2 * q : ℝ) : ℂ)) 2 = ((1 + 4 * q : ℝ) : ℂ) := by
    rw [Projective.intPow_two, ofRounding_mul_real _ z, one_mul, r2, r2, ofRounding_mul_real _ z, r8, r4]
  have h2 : ((2 : ℕ) : ℂ) = ((2 : ℝ) : ℂ) := by push_cast; rfl
  have hmean : meanF (ofRounding fl) (divAbsOfRounding fl) (.node (.leaf 0) (.leaf 1))
      (fun k => ((![1 + q, 1 + 2 * q] k : ℝ) : ℂ)) = ((1 + 2 * q : ℝ) : ℂ) := by
    simp only [meanF, RTree.eval, Matrix.cons_val_zero, Matrix.cons_val_one]
    rw [ofRounding_add_real _ z, r5, h2, divAbs_div_real _ z, show (2 + 4 * q) / 2 = 1 + 2 * q by ring, r2]
  have hmsq : meanF (ofRounding fl) (divAbsOfRounding fl) (.node (.leaf 0) (.leaf 1))
      (fun k => intPow (ofRounding fl).mul ((ofRounding fl).mul ((1 : ℝ) : ℂ) ((![1 + q, 1 + 2 * q] k : ℝ) : ℂ)) 2) =
      ((1 + 3 * q : ℝ) : ℂ) := by
    simp only [meanF, RTree.eval, Matrix.cons_val_zero, Matrix.cons_val_one]
    rw [hsq0, hsq1, ofRounding_add_real _ z, r6, h2, divAbs_div_real _ z, show (2 + 6 * q) / 2 = 1 + 3 * q by ring, r3]
  have hvsq : intPow (ofRounding fl).mul ((1 + 2 * q : ℝ) : ℂ) 2 = ((1 + 4 * q : ℝ) : ℂ) := by
    rw [Projective.intPow_two, ofRounding_mul_real _ z, r8, r4]
  refine ⟨![1 + q, 1 + 2 * q], ?_, ?_, ?_, ?_⟩
  · intro k
    fin_cases k
    · exact ⟨r1, by simp; linarith⟩
    · exact ⟨r2, by simp; linarith⟩
  · simp only [Fin.sum_univ_two, Matrix.cons_val_zero, Matrix.cons_val_one]
    nlinarith
  · have hone : ((1 : ℕ) : ℂ) = ((1 : ℝ) : ℂ) := by simp
    have h12 : ((1 * 2 : ℕ) : ℂ) = ((2 : ℝ) : ℂ) := by push_cast; norm_num
    simp only [mcIntegrateBatchedF, mcStepF]
    rw [hmean, hmsq, h12, divAbs_div_real _ z, r9]
    simp only [meanF, RTree.eval]
    rw [hone, divAbs_div_real _ z, divAbs_div_real _ z, div_one, div_one, r9, r9, divAbs_div_real _ z, div_one, r2, hvsq,
      divAbs_div_real _ z, r10, ← Complex.ofReal_neg, ofRounding_add_real _ z, Complex.ofReal_re]
    exact hneg _ (by linarith)
  · simp only [mcIntegrateF]
    rw [hmean, hmsq, hvsq, ← Complex.ofReal_neg, ofRounding_add_real _ z, h2, divAbs_div_real _ z, Complex.ofReal_re]
    refine hneg _ ?_
    have := hneg (1 + 3 * q + -(1 + 4 * q)) (by linarith)
    linarith

/-- **C171.** In exact arithmetic the model is `mc_integrate_batched` as modelled for C12, in any order of summation. -/
theorem C171_exact {Key Z : Type*} (split : Key → Key × Key) (key : Key) {b bs : ℕ} (t : RTree (Fin bs)) (ht : t.Covers)
    (tb : RTree (Fin b)) (htb : tb.Covers) (fn : Z → ℝ) (sample : Key → (c : ℕ) → (Fin c → Z) × (Fin c → ℝ)) :
    mcIntegrateBatchedF Fl.exact exactDivAbs t tb (fun i k => fn ((sample (batchKey split key i) bs).1 k))
      (fun i k => (sample (batchKey split key i) bs).2 k) = mcIntegrateBatched split key b bs fn sample := by
  have hb : (b : ℝ) ≠ 0 := by exact_mod_cast htb.pos.ne'
  have hbs : (bs : ℝ) ≠ 0 := by exact_mod_cast ht.pos.ne'
  have hm : ∀ {n : ℕ} (t : RTree (Fin n)) (_ : t.Covers) (x : Fin n → ℝ),
      meanF Fl.exact exactDivAbs t (fun k => (x k : ℂ)) = (((∑ k, x k) / n : ℝ) : ℂ) := by
    intro n t ht x
    have h := (RTree.eval_add t (fun k => (x k : ℂ))).trans (ht.sum _)
    unfold meanF
    push_cast
    exact congrArg (· / (n : ℂ)) h
  rw [C12_batched_formula split key b bs htb.pos ht.pos]
  simp only [mcIntegrateBatchedF, mcStepF, Projective.intPow_two]
  have hmul : ∀ a b : ℝ, Fl.exact.mul (a : ℂ) (b : ℂ) = ((a * b : ℝ) : ℂ) := fun a b => by simp [Fl.exact]
  have hdiv : ∀ (a : ℝ) (n : ℕ), exactDivAbs.div (a : ℂ) (n : ℂ) = ((a / n : ℝ) : ℂ) := fun a n => by simp [exactDivAbs]
  have hadd : ∀ a b : ℝ, Fl.exact.add (a : ℂ) (-(b : ℂ)) = ((a - b : ℝ) : ℂ) := fun a b => by
    simp [Fl.exact, sub_eq_add_neg]
  simp only [hm t ht, hm tb htb, hmul, hdiv, hadd, Complex.ofReal_re, Finset.sum_range]
  refine Prod.ext ?_ ?_
  · simp only
    rw [← Finset.sum_div]
    field_simp
  · simp only
    rw [← Finset.sum_div, ← Finset.sum_div, ← Finset.sum_div]
    push_cast
    field_simp

/-- Two batches of two points. -/
example : (mcIntegrateBatchedF Fl.exact exactDivAbs (.node (.leaf 0) (.leaf 1)) (.node (.leaf 1) (.leaf 0))
    (fun (_ : Fin 2) (_ : Fin 2) => 1) (fun i k => if i = k then 1 else 3)).1 = 2 := by
  have h := C171_volume Fl.exact exactDivAbs 0 exact_accurate ⟨by simp [exactDivAbs], by simp [exactDivAbs]⟩
    (.node (.leaf 0) (.leaf 1)) (by unfold RTree.Covers; decide) (.node (.leaf 1) (.leaf 0)) (by unfold RTree.Covers; decide)
    (fun (_ : Fin 2) (_ : Fin 2) => 1) (fun i k => if i = k then 1 else 3) (fun i k => if i = k then 1 else 3)
    (fun i k => by split <;> norm_num) 0 le_rfl (fun i k => by simp)
  rw [show ∑ i : Fin 2, ∑ k : Fin 2, (if i = k then (1 : ℝ) else 3) = 8 by simp [Fin.sum_univ_two]; norm_num] at h
  norm_num at h
  linarith

/-- Double precision. -/
example := C171_negative_violated 52 (by norm_num)

end Cyjax
