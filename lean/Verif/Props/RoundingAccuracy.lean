import Verif.Lemmas.RoundingAccuracy
import Verif.Props.Rounding
import Mathlib.Tactic.FieldSimp

/-! # C161: rounding errors of the accuracy measure -/

namespace Cyjax

open Cyjax.Donaldson Cyjax.Fl

/-- **C161.** Let all operations have relative error at most `ε`, the computed values of eta relative error `δη` and the computed
weights relative error `δw`. Then the computed accuracy differs from the exact one by at most `2 * (G - 1)`, where `G` is
`(1 + ε)^(2 d + 8) (1 + δη) (1 + δw)^2` divided by the factors `2 - K` and `2 - C` of the two volumes. -/
theorem C161_accuracy (A : Arith) (D : DivAbs) (ε : ℝ) (hA : A.Accurate ε) (hD : D.Accurate ε) {count : ℕ}
    (t : RTree (Fin count)) (ht : t.Covers) (η w : Fin count → ℝ) (hη : ∀ i, 0 < η i) (hw : ∀ i, 0 < w i)
    (etas : Fin count → ℂ) (weights : Fin count → ℝ) (δη δw : ℝ) (hδη : 0 ≤ δη) (hδw : 0 ≤ δw)
    (he : ∀ i, RelErr δη (etas i) (η i)) (hwt : ∀ i, RelErr δw (weights i) (w i))
    (hK : (1 + ε) ^ (t.depth + 2) * ((1 + δη) * (1 + δw)) < 2) :
    |sigmaAccuracyF A D t etas weights - sigmaAccuracy (fun i => (η i : ℂ)) w| ≤
      2 * ((1 + ε) ^ (2 * t.depth + 8) * (1 + δη) * (1 + δw) ^ 2 /
        ((2 - (1 + ε) ^ (t.depth + 2) * ((1 + δη) * (1 + δw))) * (2 - (1 + ε) ^ (t.depth + 1) * (1 + δw))) - 1) := by
  have hn : 0 < count := by
    have := t.leaves_pos
    rwa [ht.length] at this
  have hn' : (count : ℝ) ≠ 0 := by exact_mod_cast hn.ne'
  have hne : (Finset.univ : Finset (Fin count)).Nonempty := ⟨⟨0, hn⟩, Finset.mem_univ _⟩
  have h0 := hA.nonneg
  set K := (1 + ε) ^ (t.depth + 2) * ((1 + δη) * (1 + δw)) with hKdef
  set C := (1 + ε) ^ (t.depth + 1) * (1 + δw) with hCdef
  set vK : ℝ := (∑ i, η i * w i) / count with hvK
  set vC : ℝ := (∑ i, w i) / count with hvC
  have hvKpos : 0 < vK := div_pos (Finset.sum_pos (fun i _ => mul_pos (hη i) (hw i)) hne) (by exact_mod_cast hn)
  have hvCpos : 0 < vC := div_pos (Finset.sum_pos (fun i _ => hw i) hne) (by exact_mod_cast hn)
  have hC : C < 2 := by
    refine lt_of_le_of_lt ?_ hK
    rw [hCdef, hKdef, pow_succ (1 + ε) (t.depth + 1), mul_assoc]
    refine mul_le_mul_of_nonneg_left ?_ (by positivity)
    nlinarith [mul_nonneg h0 hδη, mul_nonneg h0 hδw, mul_nonneg hδη hδw, mul_nonneg (mul_nonneg h0 hδη) hδw]
  -- the inputs
  have ne : ∀ i, NearG (1 + δη) (etas i) (η i : ℂ) (η i) := fun i => by
    have h := he i
    unfold RelErr at h
    rw [Complex.norm_real, Real.norm_of_nonneg (hη i).le] at h
    exact ⟨by rw [add_sub_cancel_left]; exact h, by rw [Complex.norm_real, Real.norm_of_nonneg (hη i).le], by linarith⟩
  have nw : ∀ i, NearG (1 + δw) (weights i : ℂ) (w i : ℂ) (w i) := fun i => by
    have h := hwt i
    unfold RelErr at h
    rw [Complex.norm_real (w i), Real.norm_of_nonneg (hw i).le] at h
    exact ⟨by rw [add_sub_cancel_left]; exact h, by rw [Complex.norm_real, Real.norm_of_nonneg (hw i).le], by linarith⟩
  -- the volumes
  have nK : NearG K (meanF A D t fun i => A.mul (etas i) (weights i)) (vK : ℂ) ‖(vK : ℂ)‖ := by
    have := meanF_near hA hD t ht fun i => (ne i).mul hA (nw i)
    rw [Complex.norm_real, Real.norm_of_nonneg hvKpos.le]
    convert this using 1
    · rw [hKdef, pow_succ (1 + ε) (t.depth + 1)]; ring
    · rw [hvK]; push_cast; rfl
  have nC : NearG C ((meanF A D t fun i => (weights i : ℂ)).re : ℂ) (vC : ℂ) ‖(vC : ℂ)‖ := by
    have := meanF_near hA hD t ht nw
    rw [Complex.norm_real, Real.norm_of_nonneg hvCpos.le]
    refine NearG.re ?_
    convert this using 1
    rw [hvC]; push_cast; rfl
  set volK' := meanF A D t fun i => A.mul (etas i) (weights i) with hvolK'
  set volC' := (meanF A D t fun i => (weights i : ℂ)).re with hvolC'
  -- the terms
  have hvK0 : (vK : ℂ) ≠ 0 := by exact_mod_cast hvKpos.ne'
  have hvC0 : (vC : ℂ) ≠ 0 := by exact_mod_cast hvCpos.ne'
  have nq := fun i => ((ne i).mul hA nC).div h0 hD nK hvK0 hK
  set Q := (1 + ε) * ((1 + ε) * ((1 + δη) * C) / (2 - K)) with hQ
  have nd := fun i => ((((NearG.refl (1 : ℂ)).mono (nq i).one_le).add hA (nq i).neg).abs h0 hD).mul hA (nw i)
  have ns := (meanF_near hA hD t ht nd).div h0 hD nC hvC0 hC
  -- the exact value
  have hσ : sigmaAccuracy (fun i => (η i : ℂ)) w =
      ((∑ i, ‖(1 : ℂ) + -((η i : ℂ) * (vC : ℂ) / (vK : ℂ))‖ * w i) / count) / vC := by
    unfold sigmaAccuracy
    have e1 : (meanC fun i => (η i : ℂ) * (w i : ℂ)) = (vK : ℂ) := by unfold meanC; rw [hvK]; push_cast; rfl
    have e2 : (meanC fun i => (w i : ℂ)) = (vC : ℂ) := by unfold meanC; rw [hvC]; push_cast; rfl
    simp only [e1, e2, Complex.ofReal_re, sub_eq_add_neg]
  have hx : (∑ i, (‖(1 : ℂ) + -((η i : ℂ) * (vC : ℂ) / (vK : ℂ))‖ : ℂ) * (w i : ℂ)) / (count : ℂ) / (vC : ℂ) =
      ((sigmaAccuracy (fun i => (η i : ℂ)) w : ℝ) : ℂ) := by
    rw [hσ]; push_cast; rfl
  have hscale : (∑ i, (‖(1 : ℂ)‖ + η i * ‖(vC : ℂ)‖ / ‖(vK : ℂ)‖) * w i) / count / ‖(vC : ℂ)‖ = 2 := by
    rw [Complex.norm_real, Complex.norm_real, Real.norm_of_nonneg hvKpos.le, Real.norm_of_nonneg hvCpos.le, norm_one]
    have e : ∑ i, (1 + η i * vC / vK) * w i = count * vC + vC / vK * (count * vK) := by
      have e3 : (count : ℝ) * vC = ∑ i, w i := by rw [hvC, mul_div_cancel₀ _ hn']
      have e4 : (count : ℝ) * vK = ∑ i, η i * w i := by rw [hvK, mul_div_cancel₀ _ hn']
      rw [e3, e4, Finset.mul_sum, ← Finset.sum_add_distrib]
      refine Finset.sum_congr rfl fun i _ => ?_
      ring
    rw [e]
    field_simp
    norm_num
  rw [hx, hscale] at ns
  have hfin := ns.re.err
  rw [← Complex.ofReal_sub, Complex.norm_real, Real.norm_eq_abs] at hfin
  unfold sigmaAccuracyF
  refine hfin.trans (le_of_eq ?_)
  have h1 : 2 - K ≠ 0 := by linarith
  have h2 : 2 - C ≠ 0 := by linarith
  rw [mul_comm]
  congr 2
  rw [hQ, show (1 + ε) ^ (2 * t.depth + 8) * (1 + δη) * (1 + δw) ^ 2 =
    (1 + ε) ^ (t.depth + 1) * (1 + ε) ^ 6 * (1 + δη) * (1 + δw) * C by rw [hCdef]; ring]
  field_simp

/-- **C161.** For exact values at the points the error is at most `40 (d + 2) ε`: it grows with the depth `d` of the summation,
not with the number of points. -/
theorem C161_explicit (A : Arith) (D : DivAbs) (ε : ℝ) (hA : A.Accurate ε) (hD : D.Accurate ε) {count : ℕ}
    (t : RTree (Fin count)) (ht : t.Covers) (η w : Fin count → ℝ) (hη : ∀ i, 0 < η i) (hw : ∀ i, 0 < w i)
    (hε : 10 * (t.depth + 2) * ε ≤ 1) :
    |sigmaAccuracyF A D t (fun i => (η i : ℂ)) w - sigmaAccuracy (fun i => (η i : ℂ)) w| ≤ 40 * (t.depth + 2) * ε := by
  have h0 := hA.nonneg
  have hd : (0 : ℝ) ≤ t.depth := Nat.cast_nonneg _
  have h1 := inv_growth_le h0 (t.depth + 2) (by push_cast; nlinarith)
  have h2 := inv_growth_le h0 (t.depth + 1) (by push_cast; nlinarith)
  have h := C161_accuracy A D ε hA hD t ht η w hη hw (fun i => (η i : ℂ)) w 0 0 le_rfl le_rfl (fun i => by simp [RelErr])
    (fun i => by simp [RelErr]) (by simpa using h1.1)
  refine h.trans ?_
  have h3 := growth_le ε h0 (10 * t.depth + 20) (by push_cast; linarith)
  have hb : (1 + ε) ^ (2 * t.depth + 8) * (1 + 0) * (1 + 0) ^ 2 /
      ((2 - (1 + ε) ^ (t.depth + 2) * ((1 + 0) * (1 + 0))) * (2 - (1 + ε) ^ (t.depth + 1) * (1 + 0))) ≤
      (1 + ε) ^ (10 * t.depth + 20) := by
    have e := mul_le_mul h1.2 h2.2 (by have := h2.1; exact one_div_nonneg.2 (by linarith)) (by positivity)
    have hp : (0 : ℝ) ≤ (1 + ε) ^ (2 * t.depth + 8) := by positivity
    calc _ = (1 + ε) ^ (2 * t.depth + 8) * (1 / (2 - (1 + ε) ^ (t.depth + 2)) * (1 / (2 - (1 + ε) ^ (t.depth + 1)))) := by
          rw [div_mul_div_comm, mul_div_assoc']; norm_num
      _ ≤ (1 + ε) ^ (2 * t.depth + 8) * ((1 + ε) ^ (4 * (t.depth + 2)) * (1 + ε) ^ (4 * (t.depth + 1))) :=
          mul_le_mul_of_nonneg_left e hp
      _ = _ := by rw [← pow_add, ← pow_add]; congr 1; ring
  push_cast at h3
  linarith

/-- **C161.** A metric with constant eta, whose accuracy is zero, is reported with at most the rounding error. -/
theorem C161_perfect (A : Arith) (D : DivAbs) (ε : ℝ) (hA : A.Accurate ε) (hD : D.Accurate ε) {count : ℕ}
    (t : RTree (Fin count)) (ht : t.Covers) (c : ℝ) (hc : 0 < c) (w : Fin count → ℝ) (hw : ∀ i, 0 < w i)
    (hε : 10 * (t.depth + 2) * ε ≤ 1) : |sigmaAccuracyF A D t (fun _ => (c : ℂ)) w| ≤ 40 * (t.depth + 2) * ε := by
  have h := C161_explicit A D ε hA hD t ht (fun _ => c) w (fun _ => hc) hw hε
  have hn : 0 < count := by
    have := t.leaves_pos
    rwa [ht.length] at this
  have hs : 0 < ∑ i, w i := Finset.sum_pos (fun i _ => hw i) ⟨⟨0, hn⟩, Finset.mem_univ _⟩
  have e : sigmaAccuracy (fun _ => (c : ℂ)) w = 0 := by
    have hn' : (count : ℂ) ≠ 0 := by exact_mod_cast hn.ne'
    have hs' : ((∑ i, w i : ℝ) : ℂ) ≠ 0 := by exact_mod_cast hs.ne'
    have hc' : (c : ℂ) ≠ 0 := by exact_mod_cast hc.ne'
    have e1 : (meanC fun i => (w i : ℂ)) = (((∑ i, w i) / count : ℝ) : ℂ) := by unfold meanC; push_cast; rfl
    have e2 : (meanC fun i => (c : ℂ) * (w i : ℂ)) = c * (((∑ i, w i) / count : ℝ) : ℂ) := by
      unfold meanC; rw [← Finset.mul_sum]; push_cast; ring
    have e3 : (c : ℂ) * (((∑ i, w i) / count : ℝ) : ℂ) ≠ 0 := by
      refine mul_ne_zero hc' ?_
      push_cast at hs' ⊢
      exact div_ne_zero hs' hn'
    unfold sigmaAccuracy
    simp only [e1, e2, Complex.ofReal_re, div_self e3]
    simp
  rwa [e, sub_zero] at h

/-- **C161.** With exact operations the program is the one of C73 and C110. -/
theorem C161_exact {count : ℕ} (t : RTree (Fin count)) (ht : t.Covers) (etas : Fin count → ℂ) (weights : Fin count → ℝ) :
    sigmaAccuracyF Fl.exact exactDivAbs t etas weights = sigmaAccuracy etas weights := by
  have hm : ∀ x : Fin count → ℂ, meanF Fl.exact exactDivAbs t x = meanC x := by
    intro x
    unfold meanF meanC
    exact congrArg (· / (count : ℂ)) ((RTree.eval_add t x).trans (ht.sum x))
  unfold sigmaAccuracyF sigmaAccuracy
  simp only [hm]
  simp only [exactDivAbs, Fl.exact]
  have : ∀ a : ℂ, ∀ b : ℝ, (a / (b : ℂ)).re = a.re / b := fun a b => Complex.div_ofReal_re a b
  rw [this]
  congr 1
  unfold meanC
  rw [← Complex.ofReal_natCast, this]
  congr 1
  rw [Complex.re_sum]
  refine Finset.sum_congr rfl fun i _ => ?_
  rw [← Complex.ofReal_mul, Complex.ofReal_re, ← sub_eq_add_neg]

/-- **C161.** Correctly rounded quotients and absolute values satisfy the hypothesis. -/
theorem C161_floats (p : ℕ) : (divAbsOfRounding (rnd p)).Accurate (4 * 2 ^ (-(p : ℤ))) := by
  have h := divAbs_accurate (rnd p) _ (by positivity) (rnd_isRounding p)
  have hp : (0 : ℝ) ≤ 2 ^ (-(p : ℤ)) := by positivity
  refine ⟨fun a b hb => (h.div a b hb).trans ?_, fun a => (h.abs a).trans ?_⟩ <;>
    exact mul_le_mul_of_nonneg_right (by linarith) (norm_nonneg _)

/-- Three points in single precision: the reported accuracy of a perfect metric is at most `4 * 10^(-5)`. -/
example (w : Fin 3 → ℝ) (hw : ∀ i, 0 < w i) :
    |sigmaAccuracyF (ofRounding (rnd 24)) (divAbsOfRounding (rnd 24)) (.node (.node (.leaf 0) (.leaf 1)) (.leaf 2))
      (fun _ => ((7 : ℝ) : ℂ)) w| ≤ 4 * 10 ^ (-(5 : ℤ)) := by
  have h := C161_perfect _ _ _ (C159_floats 24 (by norm_num)).2 (C161_floats 24)
    (.node (.node (.leaf 0) (.leaf 1)) (.leaf 2)) (by unfold RTree.Covers; decide) 7 (by norm_num) w hw
    (by norm_num [RTree.depth, zpow_neg])
  refine h.trans ?_
  norm_num [RTree.depth, zpow_neg]

/-- Computed values with errors: `eta` is `2` computed as `2.002`. -/
example : RelErr (1 / 1000) (2.002 : ℂ) ((2 : ℝ) : ℂ) := by
  unfold RelErr
  rw [show (2.002 : ℂ) - ((2 : ℝ) : ℂ) = ((0.002 : ℝ) : ℂ) by push_cast; norm_num, Complex.norm_real, Complex.norm_real]
  norm_num

end Cyjax
