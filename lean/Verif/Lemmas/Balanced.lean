import Verif.Lemmas.HermitianForms
import Mathlib.MeasureTheory.Integral.DominatedConvergence
import Mathlib.MeasureTheory.Integral.Bochner.ContinuousLinearMap
import Mathlib.Topology.Sequences
import Mathlib.Topology.Order.MonotoneConvergence

/-! # The iteration of the T operator for an abstract family of positive matrices (C139) -/

namespace Cyjax.Spec

open Matrix Filter Topology MeasureTheory
open scoped ComplexOrder

variable {N : ℕ} {X : Type*} [MeasurableSpace X] {ν : Measure X}

/-- Positive semi-definite matrices of trace one, depending on a parameter, such that no vector is in the kernel of many of
them. -/
structure TraceFamily (ν : Measure X) (B : X → Matrix (Fin N) (Fin N) ℂ) : Prop where
  meas : ∀ a b, Measurable fun x => B x a b
  psd : ∀ x, (B x).PosSemidef
  trace : ∀ x, (B x).trace = 1
  pos : ∀ u, u ≠ 0 → ∀ᵐ x ∂ν, 0 < qf (B x) u

noncomputable def den (B : X → Matrix (Fin N) (Fin N) ℂ) (H : Matrix (Fin N) (Fin N) ℂ) (x : X) : ℝ := (B x * H).trace.re

/-- `N ∫ B / tr(B H)`. -/
noncomputable def tMap (ν : Measure X) (B : X → Matrix (Fin N) (Fin N) ℂ) (H : Matrix (Fin N) (Fin N) ℂ) :
    Matrix (Fin N) (Fin N) ℂ := Matrix.of fun a b => (N : ℂ) * ∫ x, B x a b / (den B H x : ℂ) ∂ν

section General

variable {B : X → Matrix (Fin N) (Fin N) ℂ} (hB : TraceFamily ν B) {H K : Matrix (Fin N) (Fin N) ℂ}

theorem den_eq (H : Matrix (Fin N) (Fin N) ℂ) (x : X) : den B H x = (∑ a, ∑ b, B x a b * H b a).re := by
  simp [den, Matrix.trace, mul_apply]

theorem den_smul (c : ℝ) (x : X) : den B ((c : ℂ) • H) x = c * den B H x := by
  rw [den, Matrix.mul_smul, trace_smul, smul_eq_mul, Complex.re_ofReal_mul, den]

theorem den_vec (u : Fin N → ℂ) (x : X) : den B (vecMulVec u (star u)) x = qf (B x) u := (qf_trace _ _).symm

include hB

theorem den_one (x : X) : den B 1 x = 1 := by
  rw [den, Matrix.mul_one, hB.trace, Complex.one_re]

theorem den_mono (hH : H.IsHermitian) (hK : K.IsHermitian) (h : ∀ u, qf H u ≤ qf K u) (x : X) : den B H x ≤ den B K x :=
  trace_mul_mono (hB.psd x) hH hK h

theorem den_ge (hH : H.IsHermitian) {m : ℝ} (h : ∀ u, m * qf 1 u ≤ qf H u) (x : X) : m ≤ den B H x := by
  have h1 : ((m : ℂ) • (1 : Matrix (Fin N) (Fin N) ℂ)).IsHermitian := by
    rw [IsHermitian, conjTranspose_smul, conjTranspose_one, Complex.star_def, Complex.conj_ofReal]
  have := den_mono hB h1 hH (fun u => by rw [qf_smul]; exact h u) x
  rwa [den_smul, den_one hB, mul_one] at this

theorem den_le (hH : H.IsHermitian) {M : ℝ} (h : ∀ u, qf H u ≤ M * qf 1 u) (x : X) : den B H x ≤ M := by
  have h1 : ((M : ℂ) • (1 : Matrix (Fin N) (Fin N) ℂ)).IsHermitian := by
    rw [IsHermitian, conjTranspose_smul, conjTranspose_one, Complex.star_def, Complex.conj_ofReal]
  have := den_mono hB hH h1 (fun u => by rw [qf_smul]; exact h u) x
  rwa [den_smul, den_one hB, mul_one] at this

theorem measurable_den (H : Matrix (Fin N) (Fin N) ℂ) : Measurable (den B H) := by
  have : den B H = fun x => (∑ a, ∑ b, B x a b * H b a).re := funext fun x => den_eq H x
  rw [this]
  exact Complex.measurable_re.comp (Finset.measurable_fun_sum _ fun a _ => Finset.measurable_fun_sum _ fun b _ =>
    (hB.meas a b).mul_const _)

theorem norm_entry (x : X) (a b : Fin N) : ‖B x a b‖ ≤ 1 := by
  have := entry_le (hB.psd x) a b
  rwa [hB.trace, Complex.one_re] at this

theorem abs_den (K : Matrix (Fin N) (Fin N) ℂ) : ∃ C : ℝ, 0 ≤ C ∧ ∀ x, |den B K x| ≤ C := by
  refine ⟨∑ a, ∑ b, ‖K b a‖, by positivity, fun x => ?_⟩
  rw [den_eq]
  refine (Complex.abs_re_le_norm _).trans ((norm_sum_le _ _).trans (Finset.sum_le_sum fun a _ =>
    (norm_sum_le _ _).trans (Finset.sum_le_sum fun b _ => ?_)))
  rw [norm_mul]
  exact mul_le_of_le_one_left (norm_nonneg _) (norm_entry hB x a b)

/-- A non-zero positive semi-definite matrix gives a positive denominator almost everywhere. -/
theorem den_pos (hH : H.PosSemidef) (h0 : H ≠ 0) : ∀ᵐ x ∂ν, 0 < den B H x := by
  obtain ⟨C, rfl⟩ := exists_factor hH
  have : ∃ r, star (C r) ≠ 0 := by
    by_contra hcon
    push Not at hcon
    refine h0 ?_
    have : C = 0 := by
      ext r j
      have := congrFun (hcon r) j
      simpa using this
    rw [this, Matrix.mul_zero]
  obtain ⟨r, hr⟩ := this
  filter_upwards [hB.pos _ hr] with x hx
  rw [den, trace_mul_factor]
  exact hx.trans_le (Finset.single_le_sum (f := fun r => qf (B x) (star (C r)))
    (fun r _ => (hB.psd x).re_dotProduct_nonneg _) (Finset.mem_univ r))

variable [IsProbabilityMeasure ν] {m : ℝ} (hm : 0 < m) (hH : H.IsHermitian) (hlo : ∀ u, m * qf 1 u ≤ qf H u)

include hm hH hlo

theorem integrable_entry (a b : Fin N) : Integrable (fun x => B x a b / (den B H x : ℂ)) ν := by
  refine (integrable_const (1 / m)).mono' ((hB.meas a b).div
    (Complex.measurable_ofReal.comp (measurable_den hB H))).aestronglyMeasurable (ae_of_all _ fun x => ?_)
  have h1 := den_ge hB hH hlo x
  rw [norm_div, Complex.norm_real, Real.norm_eq_abs, abs_of_pos (hm.trans_le h1)]
  exact div_le_div₀ zero_le_one (norm_entry hB x a b) hm h1

theorem integrable_den (K : Matrix (Fin N) (Fin N) ℂ) : Integrable (fun x => den B K x / den B H x) ν := by
  obtain ⟨C, hC0, hC⟩ := abs_den hB K
  refine (integrable_const (C / m)).mono' ((measurable_den hB K).div (measurable_den hB H)).aestronglyMeasurable
    (ae_of_all _ fun x => ?_)
  have h1 := den_ge hB hH hlo x
  rw [Real.norm_eq_abs, abs_div, abs_of_pos (hm.trans_le h1)]
  exact div_le_div₀ hC0 (hC x) hm h1

theorem trace_tMap (K : Matrix (Fin N) (Fin N) ℂ) : (tMap ν B H * K).trace.re = N * ∫ x, den B K x / den B H x ∂ν := by
  have h1 : (tMap ν B H * K).trace = N * ∫ x, (B x * K).trace / (den B H x : ℂ) ∂ν := by
    have e : ∀ x, (B x * K).trace / (den B H x : ℂ) = ∑ a, ∑ b, B x a b / (den B H x : ℂ) * K b a := by
      intro x
      simp only [Matrix.trace, diag_apply, mul_apply, Finset.sum_div]
      refine Finset.sum_congr rfl fun a _ => Finset.sum_congr rfl fun b _ => ?_
      ring
    simp only [e]
    rw [integral_finsetSum _ fun a _ => integrable_finsetSum _ fun b _ => (integrable_entry hB hm hH hlo a b).mul_const _]
    simp only [Matrix.trace, diag_apply, mul_apply, Finset.mul_sum]
    refine Finset.sum_congr rfl fun a _ => ?_
    rw [integral_finsetSum _ fun b _ => (integrable_entry hB hm hH hlo a b).mul_const _, Finset.mul_sum]
    refine Finset.sum_congr rfl fun b _ => ?_
    rw [integral_mul_const, tMap, of_apply]
    ring
  have hint : Integrable (fun x => (B x * K).trace / (den B H x : ℂ)) ν := by
    have e : (fun x => (B x * K).trace / (den B H x : ℂ)) = fun x => ∑ a, ∑ b, B x a b / (den B H x : ℂ) * K b a := by
      funext x
      simp only [Matrix.trace, diag_apply, mul_apply, Finset.sum_div]
      refine Finset.sum_congr rfl fun a _ => Finset.sum_congr rfl fun b _ => ?_
      ring
    rw [e]
    exact integrable_finsetSum _ fun a _ => integrable_finsetSum _ fun b _ => (integrable_entry hB hm hH hlo a b).mul_const _
  rw [h1, ← Complex.ofReal_natCast, Complex.re_ofReal_mul]
  congr 1
  refine (integral_re hint).symm.trans (integral_congr_ae (ae_of_all _ fun x => ?_))
  exact Complex.div_ofReal_re _ _

theorem qf_tMap (u : Fin N → ℂ) : qf (tMap ν B H) u = N * ∫ x, qf (B x) u / den B H x ∂ν := by
  rw [qf_trace, trace_tMap hB hm hH hlo]
  simp only [den_vec]

theorem trace_self : (tMap ν B H * H).trace.re = N := by
  rw [trace_tMap hB hm hH hlo]
  have : ∀ x, den B H x / den B H x = 1 := fun x => div_self (hm.trans_le (den_ge hB hH hlo x)).ne'
  simp [this]

omit hm hH hlo in
theorem tMap_hermitian (H : Matrix (Fin N) (Fin N) ℂ) : (tMap ν B H).IsHermitian := by
  ext a b
  rw [conjTranspose_apply, tMap, of_apply, of_apply, star_mul', Complex.star_def, map_natCast, ← integral_conj]
  congr 1
  refine integral_congr_ae (ae_of_all _ fun x => ?_)
  have := congrFun (congrFun (hB.psd x).isHermitian.eq a) b
  rw [conjTranspose_apply, Complex.star_def] at this
  simp only [map_div₀, Complex.conj_ofReal, this]

theorem tMap_posDef (hN : N ≠ 0) : (tMap ν B H).PosDef := by
  refine (pd_iff (tMap_hermitian hB H)).2 fun u hu => ?_
  rw [qf_tMap hB hm hH hlo]
  have hNp : (0 : ℝ) < N := by positivity
  refine mul_pos hNp ?_
  have hint : Integrable (fun x => qf (B x) u / den B H x) ν := by
    have := integrable_den hB hm hH hlo (vecMulVec u (star u))
    simpa only [den_vec] using this
  have hnn : 0 ≤ᵐ[ν] fun x => qf (B x) u / den B H x := ae_of_all _ fun x =>
    div_nonneg ((hB.psd x).re_dotProduct_nonneg u) (hm.le.trans (den_ge hB hH hlo x))
  rw [integral_pos_iff_support_of_nonneg_ae hnn hint]
  have : ∀ᵐ x ∂ν, x ∈ Function.support fun x => qf (B x) u / den B H x := by
    filter_upwards [hB.pos u hu] with x hx
    exact (div_pos hx (hm.trans_le (den_ge hB hH hlo x))).ne'
  rw [measure_eq_measure_of_null_diff (Set.subset_univ _) (by
    rw [← Set.compl_eq_univ_diff]
    exact this), measure_univ]
  exact one_pos

omit hm hH hlo hB in
theorem tMap_smul {c : ℝ} (hc : c ≠ 0) : tMap ν B ((c : ℂ) • H) = ((c⁻¹ : ℝ) : ℂ) • tMap ν B H := by
  ext a b
  rw [Matrix.smul_apply, tMap, tMap, of_apply, of_apply, smul_eq_mul, mul_left_comm,
    ← integral_const_mul ((c⁻¹ : ℝ) : ℂ) (fun x => B x a b / (den B H x : ℂ))]
  congr 1
  refine integral_congr_ae (ae_of_all _ fun x => ?_)
  have h0 : (c : ℂ) ≠ 0 := by exact_mod_cast hc
  simp only [den_smul, Complex.ofReal_mul, Complex.ofReal_inv]
  field_simp

theorem tMap_anti (hK : K.IsHermitian) (h : ∀ u, qf H u ≤ qf K u) (u : Fin N → ℂ) : qf (tMap ν B K) u ≤ qf (tMap ν B H) u := by
  have hloK : ∀ u, m * qf 1 u ≤ qf K u := fun u => (hlo u).trans (h u)
  rw [qf_tMap hB hm hH hlo, qf_tMap hB hm hK hloK]
  refine mul_le_mul_of_nonneg_left (integral_mono ?_ ?_ fun x => ?_) (Nat.cast_nonneg _)
  · have := integrable_den hB hm hK hloK (vecMulVec u (star u))
    simpa only [den_vec] using this
  · have := integrable_den hB hm hH hlo (vecMulVec u (star u))
    simpa only [den_vec] using this
  · exact div_le_div_of_nonneg_left ((hB.psd x).re_dotProduct_nonneg u) (hm.trans_le (den_ge hB hH hlo x))
      (den_mono hB hH hK h x)

end General

end Cyjax.Spec
