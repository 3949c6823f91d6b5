import Verif.Lemmas.RootSum
import Mathlib.Analysis.Calculus.InverseFunctionTheorem.FDeriv
import Mathlib.MeasureTheory.Function.Jacobian
import Mathlib.Analysis.Calculus.FDeriv.Prod
import Mathlib.Analysis.Calculus.Deriv.Prod
import Mathlib.Analysis.Calculus.Deriv.Comp
import Mathlib.MeasureTheory.Measure.Lebesgue.Complex
import Mathlib.RingTheory.Complex

/-! # A plane curve can be integrated over along either coordinate

On a complex curve `P(a, b) = 0` the forms `db / ∂P/∂a` and `-da / ∂P/∂b` agree. -/

namespace Cyjax

open MeasureTheory Set
open scoped ENNReal

theorem det_mul_complex (c : ℂ) :
    ((ContinuousLinearMap.toSpanSingleton ℂ c).restrictScalars ℝ : ℂ →L[ℝ] ℂ).det = ‖c‖ ^ 2 := by
  have : (((ContinuousLinearMap.toSpanSingleton ℂ c).restrictScalars ℝ : ℂ →L[ℝ] ℂ) : ℂ →ₗ[ℝ] ℂ) =
      Algebra.lmul ℝ ℂ c := by
    ext x
    simp [mul_comm]
  rw [ContinuousLinearMap.det, this, ← Algebra.norm_apply, Algebra.norm_complex_apply, Complex.normSq_eq_norm_sq]

/-- Sums over the fibres of a piece on which the second coordinate determines the first. -/
private theorem fibre_sum_snd {S : Set (ℂ × ℂ)} {T : ℂ → ℂ} (hT : ∀ z ∈ S, T z.2 = z.1) (h : ℂ × ℂ → ℝ≥0∞) (b : ℂ) :
    ∑' a, S.indicator h (a, b) = (Prod.snd '' S).indicator (fun b => h (T b, b)) b := by
  by_cases hb : b ∈ Prod.snd '' S
  · obtain ⟨z, hz, rfl⟩ := hb
    rw [indicator_of_mem (mem_image_of_mem _ hz), tsum_eq_single z.1, indicator_of_mem (show (z.1, z.2) ∈ S from hz), hT z hz]
    refine fun a ha => indicator_of_notMem (fun hm => ha ?_) _
    exact (hT _ hm).symm.trans (hT z hz)
  · rw [indicator_of_notMem hb, ENNReal.tsum_eq_zero]
    exact fun a => indicator_of_notMem (fun hm => hb ⟨(a, b), hm, rfl⟩) _

private theorem fibre_sum_fst {S : Set (ℂ × ℂ)} (hi : InjOn Prod.fst S) (h : ℂ × ℂ → ℝ≥0∞) {z : ℂ × ℂ} (hz : z ∈ S) :
    ∑' b, S.indicator h (z.1, b) = h z := by
  rw [tsum_eq_single z.2, indicator_of_mem (show (z.1, z.2) ∈ S from hz)]
  refine fun b hb => indicator_of_notMem (fun hm => hb ?_) _
  exact congrArg Prod.snd (hi hm hz rfl)

variable {P Pa Pb : ℂ × ℂ → ℂ}

/-- The points of the curve at which both coordinates are local coordinates. -/
def curveGood (P Pa Pb : ℂ × ℂ → ℂ) : Set (ℂ × ℂ) := {z | P z = 0 ∧ Pa z ≠ 0 ∧ Pb z ≠ 0}

/-- A piece of the curve with a parametrisation by the second coordinate. -/
private def Piece (Pa Pb : ℂ × ℂ → ℂ) (S : Set (ℂ × ℂ)) : Prop :=
  InjOn Prod.fst S ∧ ∃ T : ℂ → ℂ, ∀ z ∈ S, T z.2 = z.1 ∧ HasDerivAt T (-(Pb z) / Pa z) z.2

private theorem piece_swap {S : Set (ℂ × ℂ)} (hS : MeasurableSet S) (hp : Piece Pa Pb S)
    (hsub : S ⊆ curveGood P Pa Pb) (ψ : ℂ × ℂ → ℝ≥0∞) :
    ∫⁻ b, ∑' a, S.indicator (fun z => ψ z / ‖Pa z‖ₑ ^ 2) (a, b) = ∫⁻ a, ∑' b, S.indicator (fun z => ψ z / ‖Pb z‖ₑ ^ 2) (a, b) := by
  obtain ⟨hi, T, hT⟩ := hp
  have hT1 : ∀ z ∈ S, T z.2 = z.1 := fun z hz => (hT z hz).1
  have hsnd : InjOn Prod.snd S := fun z hz z' hz' h => Prod.ext (by rw [← hT1 z hz, ← hT1 z' hz', h]) h
  have hD : MeasurableSet (Prod.snd '' S) := hS.image_of_continuousOn_injOn continuous_snd.continuousOn hsnd
  have himg : T '' (Prod.snd '' S) = Prod.fst '' S := by
    rw [image_image]
    exact image_congr fun z hz => hT1 z hz
  have hinj : InjOn T (Prod.snd '' S) := by
    rintro _ ⟨z, hz, rfl⟩ _ ⟨z', hz', rfl⟩ h
    rw [hT1 z hz, hT1 z' hz'] at h
    rw [hi hz hz' h]
  have hder : ∀ b ∈ Prod.snd '' S, HasFDerivWithinAt T
      ((ContinuousLinearMap.toSpanSingleton ℂ (-(Pb (T b, b)) / Pa (T b, b))).restrictScalars ℝ) (Prod.snd '' S) b := by
    rintro _ ⟨z, hz, rfl⟩
    rw [hT1 z hz]
    exact ((hT z hz).2.hasFDerivAt.restrictScalars ℝ).hasFDerivWithinAt
  simp_rw [fibre_sum_snd hT1]
  rw [lintegral_indicator hD]
  have hright : (fun a => ∑' b, S.indicator (fun z => ψ z / ‖Pb z‖ₑ ^ 2) (a, b)) =
      (T '' (Prod.snd '' S)).indicator fun a => ∑' b, S.indicator (fun z => ψ z / ‖Pb z‖ₑ ^ 2) (a, b) := by
    funext a
    by_cases ha : a ∈ T '' (Prod.snd '' S)
    · rw [indicator_of_mem ha]
    · rw [indicator_of_notMem ha, ENNReal.tsum_eq_zero]
      rw [himg] at ha
      exact fun b => indicator_of_notMem (fun hm => ha ⟨(a, b), hm, rfl⟩) _
  have hTD : MeasurableSet (T '' (Prod.snd '' S)) := by
    rw [himg]
    exact hS.image_of_continuousOn_injOn continuous_fst.continuousOn hi
  rw [hright, lintegral_indicator hTD, lintegral_image_eq_lintegral_abs_det_fderiv_mul _ hD hder hinj]
  refine setLIntegral_congr_fun hD ?_
  rintro _ ⟨z, hz, rfl⟩
  have hzz : (T z.2, z.2) = z := by rw [hT1 z hz]
  obtain ⟨-, ha, hb⟩ := hsub hz
  have hen : ‖-(Pb z) / Pa z‖ₑ = ‖Pb z‖ₑ / ‖Pa z‖ₑ := by
    rw [div_eq_mul_inv, enorm_mul, enorm_neg, enorm_inv ha, div_eq_mul_inv]
  simp only [hzz]
  rw [show T z.2 = z.1 from hT1 z hz, fibre_sum_fst hi _ hz, det_mul_complex, abs_of_nonneg (by positivity),
    ENNReal.ofReal_pow (norm_nonneg _), ofReal_norm, hen, div_eq_mul_inv (‖Pb z‖ₑ), mul_pow, ← ENNReal.inv_pow, ← div_eq_mul_inv]
  have ha' : ‖Pa z‖ₑ ^ 2 ≠ 0 := by simpa using ha
  have hb' : ‖Pb z‖ₑ ^ 2 ≠ 0 := by simpa using hb
  have ha'' : ‖Pa z‖ₑ ^ 2 ≠ ∞ := by simp
  have hb'' : ‖Pb z‖ₑ ^ 2 ≠ ∞ := by simp
  rw [div_eq_mul_inv, div_eq_mul_inv, div_eq_mul_inv, mul_comm (‖Pb z‖ₑ ^ 2), mul_assoc, ← mul_assoc (‖Pb z‖ₑ ^ 2),
    mul_comm (‖Pb z‖ₑ ^ 2) (ψ z), mul_assoc (ψ z), ENNReal.mul_inv_cancel hb' hb'', mul_one, mul_comm]

variable (hP : ∀ z, HasStrictFDerivAt P (Pa z • ContinuousLinearMap.fst ℂ ℂ ℂ + Pb z • ContinuousLinearMap.snd ℂ ℂ ℂ) z)

include hP

private theorem exists_param {z : ℂ × ℂ} (hz : z ∈ curveGood P Pa Pb) :
    ∃ O : Set (ℂ × ℂ), IsOpen O ∧ z ∈ O ∧ ∃ T : ℂ → ℂ, ∀ w ∈ curveGood P Pa Pb ∩ O,
      T w.2 = w.1 ∧ HasDerivAt T (-(Pb w) / Pa w) w.2 := by
  let L : ℂ × ℂ → (ℂ × ℂ →L[ℂ] ℂ × ℂ) := fun w => (ContinuousLinearMap.snd ℂ ℂ ℂ).prod
    (Pa w • ContinuousLinearMap.fst ℂ ℂ ℂ + Pb w • ContinuousLinearMap.snd ℂ ℂ ℂ)
  let M : ℂ × ℂ → (ℂ × ℂ →L[ℂ] ℂ × ℂ) := fun w =>
    ((Pa w)⁻¹ • (ContinuousLinearMap.snd ℂ ℂ ℂ - Pb w • ContinuousLinearMap.fst ℂ ℂ ℂ)).prod (ContinuousLinearMap.fst ℂ ℂ ℂ)
  have h1 : ∀ w, Pa w ≠ 0 → Function.LeftInverse (M w) (L w) := by
    intro w hw x
    simp [L, M, hw]
  have h2 : ∀ w, Pa w ≠ 0 → Function.RightInverse (M w) (L w) := by
    intro w hw x
    simp [L, M, hw]
  have hΦ : ∀ w, HasStrictFDerivAt (fun x : ℂ × ℂ => (x.2, P x)) (L w) w := fun w =>
    hasStrictFDerivAt_snd.prodMk (hP w)
  have hz' : HasStrictFDerivAt (fun x : ℂ × ℂ => (x.2, P x))
      (ContinuousLinearEquiv.equivOfInverse (L z) (M z) (h1 z hz.2.1) (h2 z hz.2.1) : ℂ × ℂ →L[ℂ] ℂ × ℂ) z := hΦ z
  let e := hz'.toOpenPartialHomeomorph _
  have hec : ∀ x, e x = (x.2, P x) := fun x => rfl
  refine ⟨e.source, e.open_source, hz'.mem_toOpenPartialHomeomorph_source, fun b => (e.symm (b, 0)).1, ?_⟩
  rintro w ⟨hw, hwe⟩
  have hew : e w = (w.2, 0) := by rw [hec, hw.1]
  have hsw : e.symm (w.2, 0) = w := by rw [← hew, e.left_inv hwe]
  refine ⟨congrArg Prod.fst hsw, ?_⟩
  have hd : HasFDerivAt e.symm ((ContinuousLinearEquiv.equivOfInverse (L w) (M w) (h1 w hw.2.1) (h2 w hw.2.1)).symm :
      ℂ × ℂ →L[ℂ] ℂ × ℂ) (w.2, 0) := by
    refine e.hasFDerivAt_symm (by rw [← hew]; exact e.map_source hwe) ?_
    rw [hsw]
    exact (hΦ w).hasFDerivAt
  have hline : HasDerivAt (fun b : ℂ => (b, (0 : ℂ))) ((1 : ℂ), (0 : ℂ)) w.2 :=
    (hasDerivAt_id _).prodMk (hasDerivAt_const _ _)
  have hcomp := (hasFDerivAt_fst (𝕜 := ℂ) (E := ℂ) (F := ℂ)).comp_hasDerivAt w.2 (hd.comp_hasDerivAt w.2 hline)
  refine HasDerivAt.congr_deriv hcomp ?_
  change (Pa w)⁻¹ * (0 - Pb w * 1) = _
  rw [div_eq_inv_mul]
  ring

/-- **Change of coordinate on a curve.** -/
theorem curve_swap (hPa : Measurable Pa) (hPb : Measurable Pb) {ψ : ℂ × ℂ → ℝ≥0∞} (hψ : Measurable ψ) :
    ∫⁻ b, ∑' a, (curveGood P Pa Pb).indicator (fun z => ψ z / ‖Pa z‖ₑ ^ 2) (a, b) =
      ∫⁻ a, ∑' b, (curveGood P Pa Pb).indicator (fun z => ψ z / ‖Pb z‖ₑ ^ 2) (a, b) := by
  have hPc : Continuous P := continuous_iff_continuousAt.2 fun z => (hP z).continuousAt
  have hG : MeasurableSet (curveGood P Pa Pb) :=
    (hPc.measurable (measurableSet_singleton 0)).inter
      ((hPa (measurableSet_singleton 0)).compl.inter (hPb (measurableSet_singleton 0)).compl)
  have hloc : ∀ z ∈ curveGood P Pa Pb, ∃ O : Set (ℂ × ℂ), IsOpen O ∧ z ∈ O ∧ Piece Pa Pb (curveGood P Pa Pb ∩ O) := by
    intro z hz
    obtain ⟨O, hO, hzO, T, hT⟩ := exists_param hP hz
    have hP' : ∀ w, HasStrictFDerivAt (fun x : ℂ × ℂ => P x.swap) ((fun x : ℂ × ℂ => Pb x.swap) w • ContinuousLinearMap.fst ℂ ℂ ℂ +
        (fun x : ℂ × ℂ => Pa x.swap) w • ContinuousLinearMap.snd ℂ ℂ ℂ) w := by
      intro w
      have := (hP w.swap).comp w (ContinuousLinearEquiv.prodComm ℂ ℂ ℂ : ℂ × ℂ →L[ℂ] ℂ × ℂ).hasStrictFDerivAt
      refine HasStrictFDerivAt.congr_fderiv this ?_
      ext <;> simp
    obtain ⟨O', hO', hzO', T', hT'⟩ := exists_param hP' (z := z.swap) ⟨hz.1, hz.2.2, hz.2.1⟩
    refine ⟨O ∩ Prod.swap ⁻¹' O', hO.inter (hO'.preimage continuous_swap), ⟨hzO, hzO'⟩, ?_, T, fun w hw => hT w ⟨hw.1, hw.2.1⟩⟩
    intro w hw w' hw' hww
    have k1 := (hT' w.swap ⟨⟨hw.1.1, hw.1.2.2, hw.1.2.1⟩, hw.2.2⟩).1
    have k2 := (hT' w'.swap ⟨⟨hw'.1.1, hw'.1.2.2, hw'.1.2.1⟩, hw'.2.2⟩).1
    simp only [Prod.snd_swap, Prod.fst_swap] at k1 k2
    exact Prod.ext hww (by rw [← k1, ← k2, hww])
  obtain ⟨B, hB, hp, hsub, hd, hU⟩ := exists_pieces hG (Piece Pa Pb) ⟨injOn_empty _, 0, by simp⟩
    (fun a b hab hb => ⟨hb.1.mono hab, hb.2.imp fun T hT z hz => hT z (hab hz)⟩) hloc
  have hma : Measurable fun z => ψ z / ‖Pa z‖ₑ ^ 2 := hψ.div (hPa.enorm.pow_const 2)
  have hmb : Measurable fun z => ψ z / ‖Pb z‖ₑ ^ 2 := hψ.div (hPb.enorm.pow_const 2)
  simp_rw [indicator_pieces hd hU, ENNReal.tsum_comm (α := ℂ)]
  rw [lintegral_tsum, lintegral_tsum]
  · exact tsum_congr fun i => piece_swap (hB i) (hp i) (hsub i) ψ
  · exact fun i => (measurable_fibre_sum_inj (hB i) (hp i).1 hmb).aemeasurable
  · intro i
    obtain ⟨T, hT⟩ := (hp i).2
    have h := measurable_fibre_sum_inj (X := ℂ) (Y := ℂ) (B := Prod.swap ⁻¹' B i) (h := fun z => ψ z.swap / ‖Pa z.swap‖ₑ ^ 2)
      (measurable_swap (hB i)) (by
        intro w hw w' hw' hww
        refine Prod.ext hww ?_
        have k1 := (hT _ hw).1
        have k2 := (hT _ hw').1
        simp only [Prod.snd_swap, Prod.fst_swap] at k1 k2
        rw [← k1, ← k2, hww]) (hma.comp measurable_swap)
    exact h.aemeasurable

end Cyjax
