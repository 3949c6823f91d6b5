import Verif.Model.LossGrad
import Verif.Props.Loss
import Mathlib.Analysis.Calculus.FDeriv.Mul
import Mathlib.Analysis.Calculus.FDeriv.Pow
import Mathlib.Analysis.Calculus.FDeriv.Comp
import Mathlib.Analysis.SpecialFunctions.Log.Deriv
import Mathlib.Analysis.Calculus.Deriv.Pow
import Mathlib.Analysis.Normed.Module.FiniteDimension

/-! # The gradient that training follows (C146) -/

namespace Cyjax

open Cyjax.Ml Cyjax.Spec
open scoped BigOperators

variable {E : Type*} [NormedAddCommGroup E] [NormedSpace ℝ E]

/-- The gradient is computed together with the value of the loss. -/
theorem C146_value {n : ℕ} (etas : E → Fin n → ℝ) (w : Fin n → ℝ) (θ : E) :
    (lossValueAndGrad etas w θ).1 = varianceEtaLoss (etas θ) w := rfl

private theorem hasDerivAt_negSq (x : ℝ) :
    HasDerivAt (fun x : ℝ => (if x < 0 then x else 0) ^ 2) (2 * (if x < 0 then x else 0)) x := by
  rcases lt_trichotomy x 0 with h | h | h
  · rw [if_pos h]
    have h1 : HasDerivAt (fun x : ℝ => x ^ 2) (2 * x) x := by simpa using hasDerivAt_pow 2 x
    refine h1.congr_of_eventuallyEq ?_
    filter_upwards [Iio_mem_nhds h] with y hy
    rw [if_pos (Set.mem_Iio.mp hy)]
  · subst h
    rw [if_neg (lt_irrefl _), mul_zero]
    rw [hasDerivAt_iff_isLittleO_nhds_zero]
    have h1 : HasDerivAt (fun x : ℝ => x ^ 2) (2 * 0) (0 : ℝ) := by simpa using hasDerivAt_pow 2 (0 : ℝ)
    rw [hasDerivAt_iff_isLittleO_nhds_zero] at h1
    refine (Asymptotics.IsBigO.of_bound 1 (Filter.Eventually.of_forall fun y => ?_)).trans_isLittleO h1
    by_cases hy : y < 0
    · simp [hy]
    · simp [hy, sq_nonneg]
  · rw [if_neg (not_lt.mpr h.le), mul_zero]
    refine (hasDerivAt_const x (0 : ℝ)).congr_of_eventuallyEq ?_
    filter_upwards [Ioi_mem_nhds h] with y hy
    rw [if_neg (not_lt.mpr (le_of_lt hy))]
    simp

/-- Derivative of the penalty for negative values. -/
private theorem hasDerivAt_penalty (x : ℝ) :
    HasDerivAt (fun x : ℝ => Real.log ((if x < 0 then x else 0) ^ 2 + 1))
      (2 * (if x < 0 then x else 0) / ((if x < 0 then x else 0) ^ 2 + 1)) x :=
  ((hasDerivAt_negSq x).add_const 1).log (by positivity)

/-- The three sums in the loss. -/
private theorem loss_expand {n : ℕ} (x w : Fin n → ℝ) (m : ℝ) :
    mean (fun i => (x i / m - 1) ^ 2 * w i) =
      ((∑ i, w i * x i ^ 2) * m⁻¹ ^ 2 - 2 * (∑ i, w i * x i) * m⁻¹ + ∑ i, w i) / n := by
  unfold mean
  rw [Finset.mul_sum, Finset.sum_mul, Finset.sum_mul, ← Finset.sum_sub_distrib, ← Finset.sum_add_distrib]
  congr 1
  refine Finset.sum_congr rfl fun i _ => ?_
  simp only [div_eq_mul_inv]
  ring

private theorem etaMean_wavg {n : ℕ} (hn : n ≠ 0) (w x : Fin n → ℝ) :
    mean (fun i => w i * x i) / mean w = wavg w x := by
  unfold mean wavg
  have : (n : ℝ) ≠ 0 := Nat.cast_ne_zero.mpr hn
  rw [div_div_div_cancel_right₀ this]

/-- Part of the loss that measures the variation of the etas. -/
private noncomputable def varPart {n : ℕ} (w x : Fin n → ℝ) : ℝ := (∑ i, w i) / n * (wvar w x / wavg w x ^ 2)

private theorem varPart_eq {n : ℕ} (w x : Fin n → ℝ) (hW : 0 < ∑ i, w i) (hm : wavg w x ≠ 0) :
    varPart w x = ((∑ i, w i * x i ^ 2) * (wavg w x)⁻¹ ^ 2 - ∑ i, w i) / n := by
  have hB : ∑ i, w i * x i = wavg w x * ∑ i, w i := by unfold wavg; rw [div_mul_cancel₀ _ hW.ne']
  have h : wvar w x * ∑ i, w i = (∑ i, w i * x i ^ 2) - wavg w x ^ 2 * ∑ i, w i := by
    unfold wvar
    set m := wavg w x
    unfold wavg
    rw [div_mul_cancel₀ _ hW.ne']
    have : ∀ i, w i * (x i - m) ^ 2 = w i * x i ^ 2 - 2 * m * (w i * x i) + m ^ 2 * w i := fun i => by ring
    simp only [this]
    rw [Finset.sum_add_distrib, Finset.sum_sub_distrib, ← Finset.mul_sum, ← Finset.mul_sum, hB]
    ring
  unfold varPart
  have e : (∑ i, w i * x i ^ 2) = wvar w x * (∑ i, w i) + wavg w x ^ 2 * ∑ i, w i := by rw [h]; ring
  rw [e]
  field_simp
  ring

private theorem grads {n : ℕ} (etas : E → Fin n → ℝ) (w : Fin n → ℝ) (θ : E) (hW : 0 < ∑ i, w i)
    (hm : wavg w (etas θ) ≠ 0) (D : Fin n → E →L[ℝ] ℝ) (hD : ∀ i, HasFDerivAt (fun t => etas t i) (D i) θ) :
    ∃ G M : E →L[ℝ] ℝ, HasFDerivAt (fun t => lossStopped (etas t) (etas θ) w) G θ ∧
      HasFDerivAt (fun t => wavg w (etas t)) M θ ∧
      HasFDerivAt (fun t => varianceEtaLoss (etas t) w)
        (G - (2 * varPart w (etas θ) / wavg w (etas θ)) • M) θ ∧
      (∀ v, M v = (∑ i, w i)⁻¹ * ∑ i, w i * D i v) ∧
      ((∀ i, 0 < etas θ i) → ∀ v, G v = (n : ℝ)⁻¹ * ((wavg w (etas θ))⁻¹ ^ 2 * (∑ i, w i * ((2 * etas θ i) * D i v)) -
        2 * (wavg w (etas θ))⁻¹ * ∑ i, w i * D i v)) := by
  have hn : n ≠ 0 := by rintro rfl; simp at hW
  have hn' : (n : ℝ) ≠ 0 := Nat.cast_ne_zero.mpr hn
  set m := wavg w (etas θ) with hmdef
  have hA : HasFDerivAt (fun t => ∑ i, w i * etas t i ^ 2) (∑ i, w i • ((2 * etas θ i) • D i)) θ := by
    refine HasFDerivAt.fun_sum fun i _ => ?_
    have := ((hD i).pow 2).const_mul (w i)
    simpa using this
  have hB : HasFDerivAt (fun t => ∑ i, w i * etas t i) (∑ i, w i • D i) θ :=
    HasFDerivAt.fun_sum fun i _ => (hD i).const_mul (w i)
  have hP : HasFDerivAt (fun t => mean fun i => Real.log ((if etas t i < 0 then etas t i else 0) ^ 2 + 1))
      (((n : ℝ)⁻¹) • ∑ i, (2 * (if etas θ i < 0 then etas θ i else 0) /
        ((if etas θ i < 0 then etas θ i else 0) ^ 2 + 1)) • D i) θ := by
    unfold mean
    simp only [div_eq_inv_mul]
    refine HasFDerivAt.const_mul (HasFDerivAt.fun_sum fun i _ => ?_) _
    have := (hasDerivAt_penalty (etas θ i)).comp_hasFDerivAt θ (hD i)
    simpa [Function.comp_def, div_eq_inv_mul] using this
  have hM : HasFDerivAt (fun t => wavg w (etas t)) ((∑ i, w i)⁻¹ • ∑ i, w i • D i) θ := by
    unfold wavg
    simp only [div_eq_inv_mul]
    exact hB.const_mul _
  have hMi : HasFDerivAt (fun t => (wavg w (etas t))⁻¹) (-(m ^ 2)⁻¹ • ((∑ i, w i)⁻¹ • ∑ i, w i • D i)) θ := by
    exact (hasDerivAt_inv hm).comp_hasFDerivAt θ hM
  refine ⟨(n : ℝ)⁻¹ • ((m⁻¹ ^ 2) • (∑ i, w i • ((2 * etas θ i) • D i)) - (2 * m⁻¹) • ∑ i, w i • D i) +
      (((n : ℝ)⁻¹) • ∑ i, (2 * (if etas θ i < 0 then etas θ i else 0) /
        ((if etas θ i < 0 then etas θ i else 0) ^ 2 + 1)) • D i), (∑ i, w i)⁻¹ • ∑ i, w i • D i, ?_, hM, ?_, ?_, ?_⟩
  · have h1 : HasFDerivAt (fun t => (n : ℝ)⁻¹ * ((m⁻¹ ^ 2) * (∑ i, w i * etas t i ^ 2) -
        (2 * m⁻¹) * (∑ i, w i * etas t i) + ∑ i, w i)) _ θ :=
      (((hA.const_mul (m⁻¹ ^ 2)).sub (hB.const_mul (2 * m⁻¹))).add_const (∑ i, w i)).const_mul ((n : ℝ)⁻¹)
    refine (h1.add hP).congr_of_eventuallyEq (Filter.Eventually.of_forall fun t => ?_)
    simp only [lossStopped, etaMean_wavg hn, ← hmdef, loss_expand, Pi.add_apply]
    ring
  · have h1 : HasFDerivAt (fun t => (n : ℝ)⁻¹ * ((∑ i, w i * etas t i ^ 2) * (wavg w (etas t))⁻¹ ^ 2 -
        (2 * (∑ i, w i * etas t i)) * (wavg w (etas t))⁻¹ + ∑ i, w i)) _ θ :=
      (((hA.mul (hMi.pow 2)).sub ((hB.const_mul 2).mul hMi)).add_const (∑ i, w i)).const_mul ((n : ℝ)⁻¹)
    have h2 := (h1.add hP).congr_of_eventuallyEq (f₁ := fun t => varianceEtaLoss (etas t) w)
      (Filter.Eventually.of_forall fun t => by
        simp only [varianceEtaLoss, etaMean_wavg hn, loss_expand, Pi.add_apply]
        ring)
    refine h2.congr_fderiv ?_
    ext v
    have hBm : ∑ i, w i * etas θ i = m * ∑ i, w i := by rw [hmdef]; unfold wavg; rw [div_mul_cancel₀ _ hW.ne']
    rw [varPart_eq w (etas θ) hW hm, hBm]
    simp only [add_apply, sub_apply, smul_apply, smul_eq_mul, nsmul_eq_mul]
    rw [← hmdef]
    generalize (∑ i, w i • D i) v = b
    generalize (∑ i, w i • ((2 * etas θ i) • D i)) v = a
    generalize (∑ i, w i * etas θ i ^ 2) = A
    generalize (∑ i, w i) = W at hW
    have hW' : W ≠ 0 := hW.ne'
    simp only [Nat.cast_ofNat, Nat.add_one_sub_one, pow_one]
    field_simp
    ring
  · intro v
    simp
  · intro he v
    simp [not_lt.mpr (he _).le]

/-- **C146.** With etas that depend differentiably on parameters, the loss is differentiable, and the gradient computed in
training is its derivative plus a multiple of the derivative of the average eta: the weight is twice the part of the loss
that measures the variation of the etas over the average eta. (What is missing: the full claim, that training follows the
gradient of the loss, does not hold.) -/
theorem C146_gradient_partial {n : ℕ} (etas : E → Fin n → ℝ) (w : Fin n → ℝ) (θ : E) (hW : 0 < ∑ i, w i)
    (hm : wavg w (etas θ) ≠ 0) (hD : DifferentiableAt ℝ etas θ) :
    DifferentiableAt ℝ (fun t => varianceEtaLoss (etas t) w) θ ∧
      ∀ v, (lossValueAndGrad etas w θ).2 v = fderiv ℝ (fun t => varianceEtaLoss (etas t) w) θ v +
        2 * ((∑ i, w i) / n * (wvar w (etas θ) / wavg w (etas θ) ^ 2)) / wavg w (etas θ) *
          fderiv ℝ (fun t => wavg w (etas t)) θ v := by
  obtain ⟨G, M, hG, hM, hL, -, -⟩ := grads etas w θ hW hm _ fun i => (differentiableAt_pi.mp hD i).hasFDerivAt
  refine ⟨hL.differentiableAt, fun v => ?_⟩
  simp only [lossValueAndGrad]
  rw [hG.fderiv, hM.fderiv, hL.fderiv]
  simp [varPart]

/-- The loss for a constant average eta is differentiable. -/
theorem C146_stopped {n : ℕ} (etas : E → Fin n → ℝ) (w : Fin n → ℝ) (θ : E) (hW : 0 < ∑ i, w i)
    (hm : wavg w (etas θ) ≠ 0) (hD : DifferentiableAt ℝ etas θ) :
    DifferentiableAt ℝ (fun t => lossStopped (etas t) (etas θ) w) θ := by
  obtain ⟨G, M, hG, -⟩ := grads etas w θ hW hm _ fun i => (differentiableAt_pi.mp hD i).hasFDerivAt
  exact hG.differentiableAt

/-- **C146.** Where the average eta is stationary (the exact volume does not depend on the metric), training follows the
gradient of the loss. -/
theorem C146_stationary_partial {n : ℕ} (etas : E → Fin n → ℝ) (w : Fin n → ℝ) (θ : E) (hW : 0 < ∑ i, w i)
    (hm : wavg w (etas θ) ≠ 0) (hD : DifferentiableAt ℝ etas θ)
    (hs : fderiv ℝ (fun t => wavg w (etas t)) θ = 0) :
    (lossValueAndGrad etas w θ).2 = fderiv ℝ (fun t => varianceEtaLoss (etas t) w) θ := by
  ext v
  rw [(C146_gradient_partial etas w θ hW hm hD).2 v, hs]
  simp

/-- **C146.** Training stops at metrics of zero loss: there the computed gradient is zero. -/
theorem C146_minimum {n : ℕ} (etas : E → Fin n → ℝ) (w : Fin n → ℝ) (θ : E) (hw : ∀ i, 0 ≤ w i) (hW : 0 < ∑ i, w i)
    (he : ∀ i, 0 < etas θ i) (hD : DifferentiableAt ℝ etas θ) (h0 : varianceEtaLoss (etas θ) w = 0) :
    (lossValueAndGrad etas w θ).2 = 0 := by
  have hm : wavg w (etas θ) ≠ 0 := by
    obtain ⟨i, _, hi⟩ := Finset.exists_lt_of_sum_lt (f := fun _ : Fin n => (0 : ℝ)) (s := Finset.univ) (by simpa using hW)
    have : 0 < ∑ i, w i * etas θ i :=
      Finset.sum_pos' (fun j _ => mul_nonneg (hw j) (he j).le) ⟨i, Finset.mem_univ i, mul_pos hi (he i)⟩
    exact (div_pos this hW).ne'
  have hmin : IsLocalMin (fun t => varianceEtaLoss (etas t) w) θ := by
    have hc : ContinuousAt (fun t => wavg w (etas t)) θ := by
      obtain ⟨G, M, hG, hM, hL, -, -⟩ := grads etas w θ hW hm _ fun i => (differentiableAt_pi.mp hD i).hasFDerivAt
      exact hM.continuousAt
    filter_upwards [hc.eventually_ne hm] with t ht
    show varianceEtaLoss (etas θ) w ≤ varianceEtaLoss (etas t) w
    rw [h0]
    exact C82_nonneg _ _ hw hW ht
  have hv := C82_variance (etas θ) w hW hm he
  rw [h0] at hv
  ext v
  rw [(C146_gradient_partial etas w θ hW hm hD).2 v, hmin.fderiv_eq_zero, ← hv]
  simp

/-- **C146.** The full claim fails: a small step against the computed gradient can increase the loss. The three etas are
the parameters here; all etas and weights are positive. -/
theorem C146_descent_violated : ∃ w x g : Fin 3 → ℝ, (∀ i, 0 < w i) ∧ (∀ i, 0 < x i) ∧
    (∀ v, (lossValueAndGrad (fun t : Fin 3 → ℝ => t) w x).2 v = ∑ i, g i * v i) ∧
    ∀ᶠ ε in nhdsWithin (0 : ℝ) (Set.Ioi 0), varianceEtaLoss x w < varianceEtaLoss (x - ε • g) w := by
  let w : Fin 3 → ℝ := ![1, 1000, 250]
  let x : Fin 3 → ℝ := ![1010, 11, 2]
  let g : Fin 3 → ℝ := ![20 / 3, 20 / 3, -(40 / 3)]
  have w2 : w 2 = 250 := rfl
  have x2 : x 2 = 2 := rfl
  have g2 : g 2 = -(40 / 3) := rfl
  have w1 : w 1 = 1000 := rfl
  have x1 : x 1 = 11 := rfl
  have g1 : g 1 = 20 / 3 := rfl
  have w0 : w 0 = 1 := rfl
  have x0 : x 0 = 1010 := rfl
  have g0 : g 0 = 20 / 3 := rfl
  have hwp : ∀ i, 0 < w i := by intro i; fin_cases i <;> norm_num [w]
  have hxp : ∀ i, 0 < x i := by intro i; fin_cases i <;> norm_num [x]
  have hW : 0 < ∑ i, w i := by norm_num [w0, w1, w2, Fin.sum_univ_three]
  have hm : wavg w x = 10 := by norm_num [wavg, w0, w1, w2, x0, x1, x2, Fin.sum_univ_three]
  have hv : varPart w x = 3390 := by
    unfold varPart wvar
    rw [hm]
    norm_num [wavg, w0, w1, w2, x0, x1, x2, Fin.sum_univ_three]
  obtain ⟨G, M, hG, hM, hL, hMv, hGv⟩ := grads (fun t : Fin 3 → ℝ => t) w x hW (by rw [hm]; norm_num)
    (fun i => ContinuousLinearMap.proj i) fun i => (ContinuousLinearMap.proj i : (Fin 3 → ℝ) →L[ℝ] ℝ).hasFDerivAt
  have hGv := hGv hxp
  rw [hm] at hGv hL
  rw [hv] at hL
  refine ⟨w, x, g, hwp, hxp, fun v => ?_, ?_⟩
  · simp only [lossValueAndGrad]
    rw [hG.fderiv, hGv]
    simp only [ContinuousLinearMap.proj_apply, Fin.sum_univ_three]
    rw [w0, w1, w2, x0, x1, x2, g0, g1, g2]
    norm_num
    ring
  · have hline : HasDerivAt (fun ε : ℝ => x - ε • g) (-g) 0 := by
      simpa using ((hasDerivAt_id (0 : ℝ)).smul_const g).const_sub x
    have hL' : HasFDerivAt (fun t : Fin 3 → ℝ => varianceEtaLoss t w) (G - (2 * 3390 / 10 : ℝ) • M) (x - (0 : ℝ) • g) := by
      simpa using hL
    have hd := hL'.comp_hasDerivAt (0 : ℝ) hline
    have hpos : 0 < (G - (2 * 3390 / 10 : ℝ) • M) (-g) := by
      rw [sub_apply, smul_apply, hGv, hMv]
      simp only [ContinuousLinearMap.proj_apply, Fin.sum_univ_three]
      norm_num [w0, w1, w2, x0, x1, x2, g0, g1, g2]
    have := hd.tendsto_slope_zero_right
    filter_upwards [this.eventually (lt_mem_nhds hpos), self_mem_nhdsWithin] with ε h1 h2
    simp only [Function.comp_def, zero_add, zero_smul, sub_zero, smul_eq_mul] at h1
    have h3 : 0 < ε⁻¹ := inv_pos.mpr h2
    nlinarith [(pos_iff_pos_of_mul_pos h1).mp h3]

/-- The hypotheses of C146 are met: two etas depending on one parameter, with stationary average and varying etas. -/
example : (lossValueAndGrad (fun t : ℝ => ![2 + t, 4 - t]) ![1, 1] 0).2 =
    fderiv ℝ (fun t : ℝ => varianceEtaLoss ![2 + t, 4 - t] ![1, 1]) 0 := by
  have hd : DifferentiableAt ℝ (fun t : ℝ => (![2 + t, 4 - t] : Fin 2 → ℝ)) 0 := by
    refine differentiableAt_pi.mpr fun i => ?_
    fin_cases i
    · exact (differentiableAt_id.const_add 2)
    · exact (differentiableAt_id.const_sub 4)
  refine C146_stationary_partial _ _ _ (by norm_num) (by norm_num [wavg]) hd ?_
  have : (fun t : ℝ => wavg ![1, 1] ![2 + t, 4 - t]) = fun _ => 3 := by
    funext t
    norm_num [wavg]
  rw [this]
  simp

end Cyjax
