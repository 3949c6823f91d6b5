import Mathlib.Analysis.Matrix.Order
import Mathlib.Analysis.Matrix.PosDef
import Mathlib.Analysis.SpecialFunctions.Log.Basic
import Mathlib.Analysis.Complex.Basic
import Mathlib.Topology.Instances.Matrix
import Mathlib.Topology.MetricSpace.ProperSpace

/-! # Hermitian matrices through their quadratic forms -/

namespace Cyjax.Spec

open Matrix Filter Topology
open scoped ComplexOrder MatrixOrder

variable {N : ℕ}

/-- The value `u† A u`, real for Hermitian `A`. -/
noncomputable def qf (A : Matrix (Fin N) (Fin N) ℂ) (u : Fin N → ℂ) : ℝ := (star u ⬝ᵥ A *ᵥ u).re

variable (A B : Matrix (Fin N) (Fin N) ℂ) (u : Fin N → ℂ)

theorem qf_add : qf (A + B) u = qf A u + qf B u := by
  simp [qf, add_mulVec, dotProduct_add]

theorem qf_sub : qf (A - B) u = qf A u - qf B u := by
  simp [qf, sub_mulVec, dotProduct_sub]

theorem qf_smul (c : ℝ) : qf ((c : ℂ) • A) u = c * qf A u := by
  simp [qf, smul_mulVec, dotProduct_smul]

theorem qf_one : qf (1 : Matrix (Fin N) (Fin N) ℂ) u = ∑ i, ‖u i‖ ^ 2 := by
  simp only [qf, one_mulVec, dotProduct, Pi.star_apply, Complex.re_sum]
  refine Finset.sum_congr rfl fun i _ => ?_
  rw [Complex.star_def, ← Complex.normSq_eq_conj_mul_self, Complex.ofReal_re, Complex.normSq_eq_norm_sq]

theorem qf_one_pos (hu : u ≠ 0) : 0 < qf (1 : Matrix (Fin N) (Fin N) ℂ) u := by
  rw [qf_one]
  obtain ⟨i, hi⟩ := Function.ne_iff.1 hu
  exact Finset.sum_pos' (fun i _ => by positivity) ⟨i, Finset.mem_univ _, by have := norm_pos_iff.2 hi; positivity⟩

theorem qf_eq_sum : qf A u = (∑ i, ∑ j, star (u i) * A i j * u j).re := by
  simp only [qf, dotProduct, mulVec, Pi.star_apply, Finset.mul_sum, mul_assoc]

theorem qf_trace : qf A u = (A * vecMulVec u (star u)).trace.re := by
  rw [qf, mul_vecMulVec, trace_vecMulVec, dotProduct_comm]

theorem continuous_qf_left : Continuous fun A : Matrix (Fin N) (Fin N) ℂ => qf A u := by
  unfold qf
  fun_prop

theorem continuous_qf_right : Continuous fun u => qf A u := by
  unfold qf
  fun_prop

variable {A B u}

theorem qf_hermitian (hA : A.IsHermitian) (u : Fin N → ℂ) : star u ⬝ᵥ A *ᵥ u = (qf A u : ℂ) := by
  have h1 : star (star u ⬝ᵥ A *ᵥ u) = star u ⬝ᵥ A *ᵥ u := by
    rw [← star_dotProduct, star_mulVec, hA.eq, ← dotProduct_mulVec]
  have := Complex.conj_eq_iff_re.1 h1
  rw [qf, this]

theorem psd_iff (hA : A.IsHermitian) : A.PosSemidef ↔ ∀ u, 0 ≤ qf A u := by
  refine ⟨fun h u => h.re_dotProduct_nonneg u, fun h => .of_dotProduct_mulVec_nonneg hA fun x => ?_⟩
  rw [qf_hermitian hA]
  exact_mod_cast h x

theorem pd_iff (hA : A.IsHermitian) : A.PosDef ↔ ∀ u, u ≠ 0 → 0 < qf A u := by
  refine ⟨fun h u hu => h.re_dotProduct_pos hu, fun h => .of_dotProduct_mulVec_pos hA fun x hx => ?_⟩
  rw [qf_hermitian hA]
  exact_mod_cast h x hx

theorem exists_factor (hA : A.PosSemidef) : ∃ C : Matrix (Fin N) (Fin N) ℂ, A = Cᴴ * C := by
  obtain ⟨C, hC⟩ := CStarAlgebra.nonneg_iff_eq_star_mul_self.mp hA.nonneg
  exact ⟨C, hC⟩

theorem trace_mul_factor (C : Matrix (Fin N) (Fin N) ℂ) : (A * (Cᴴ * C)).trace.re = ∑ r, qf A (star (C r)) := by
  rw [← Matrix.mul_assoc, trace_mul_comm, ← Matrix.mul_assoc, trace, Complex.re_sum]
  refine Finset.sum_congr rfl fun r _ => ?_
  rw [diag_apply, Matrix.mul_assoc, qf]
  congr 1
  simp [mul_apply, dotProduct, mulVec, conjTranspose_apply]

theorem trace_mul_nonneg (hA : A.PosSemidef) (hB : B.PosSemidef) : 0 ≤ (A * B).trace.re := by
  obtain ⟨C, rfl⟩ := exists_factor hB
  rw [trace_mul_factor]
  exact Finset.sum_nonneg fun r _ => hA.re_dotProduct_nonneg _

theorem trace_mul_mono {K : Matrix (Fin N) (Fin N) ℂ} (hK : K.PosSemidef) (hA : A.IsHermitian) (hB : B.IsHermitian)
    (h : ∀ u, qf A u ≤ qf B u) : (K * A).trace.re ≤ (K * B).trace.re := by
  have h1 : (B - A).PosSemidef := (psd_iff (hB.sub hA)).2 fun u => by
    rw [qf_sub]
    linarith [h u]
  have h2 := trace_mul_nonneg hK h1
  rw [Matrix.mul_sub, trace_sub, Complex.sub_re] at h2
  linarith

theorem entry_le (hA : A.PosSemidef) (a b : Fin N) : ‖A a b‖ ≤ A.trace.re := by
  obtain ⟨C, rfl⟩ := exists_factor hA
  have h1 : ((Cᴴ * C).trace).re = ∑ i, ∑ k, ‖C k i‖ ^ 2 := by
    rw [trace, Complex.re_sum]
    refine Finset.sum_congr rfl fun i _ => ?_
    rw [diag_apply, mul_apply, Complex.re_sum]
    refine Finset.sum_congr rfl fun k _ => ?_
    rw [conjTranspose_apply, Complex.star_def, ← Complex.normSq_eq_conj_mul_self, Complex.ofReal_re, Complex.normSq_eq_norm_sq]
  have h2 : ∀ i, ∑ k, ‖C k i‖ ^ 2 ≤ ∑ i, ∑ k, ‖C k i‖ ^ 2 := fun i =>
    Finset.single_le_sum (f := fun i => ∑ k, ‖C k i‖ ^ 2) (fun i _ => Finset.sum_nonneg fun k _ => by positivity)
      (Finset.mem_univ i)
  rw [h1, mul_apply]
  have h3 : ‖∑ k, Cᴴ a k * C k b‖ ≤ ∑ k, (‖C k a‖ ^ 2 / 2 + ‖C k b‖ ^ 2 / 2) := by
    refine (norm_sum_le _ _).trans (Finset.sum_le_sum fun k _ => ?_)
    rw [norm_mul, conjTranspose_apply, norm_star]
    nlinarith [sq_nonneg (‖C k a‖ - ‖C k b‖)]
  rw [Finset.sum_add_distrib, ← Finset.sum_div, ← Finset.sum_div] at h3
  linarith [h2 a, h2 b]

/-- Inversion reverses the order. -/
theorem inv_anti (hA : A.PosDef) (hB : B.PosDef) (h : ∀ u, qf A u ≤ qf B u) (u : Fin N → ℂ) : qf B⁻¹ u ≤ qf A⁻¹ u := by
  have hAu : A * A⁻¹ = 1 := mul_nonsing_inv _ (isUnit_iff_ne_zero.2 hA.det_pos.ne')
  have hBu : B * B⁻¹ = 1 := mul_nonsing_inv _ (isUnit_iff_ne_zero.2 hB.det_pos.ne')
  set w := B⁻¹ *ᵥ u with hw
  set v := A⁻¹ *ᵥ u with hv
  have eB : B *ᵥ w = u := by rw [hw, mulVec_mulVec, hBu, one_mulVec]
  have eA : A *ᵥ v = u := by rw [hv, mulVec_mulVec, hAu, one_mulVec]
  have hsymm : ∀ x y : Fin N → ℂ, (star x ⬝ᵥ y).re = (star y ⬝ᵥ x).re := fun x y => by
    rw [← Complex.conj_re, starRingEnd_apply, star_dotProduct, dotProduct_comm, star_star, dotProduct_comm]
  have h1 : 0 ≤ qf A (w - v) := hA.posSemidef.re_dotProduct_nonneg _
  have h2 : qf A (w - v) = qf A w - 2 * (star w ⬝ᵥ u).re + (star v ⬝ᵥ u).re := by
    have e1 : (star v ⬝ᵥ A *ᵥ w).re = (star w ⬝ᵥ u).re := by
      rw [dotProduct_mulVec, ← hA.isHermitian.eq, ← star_mulVec, eA, hsymm]
    simp only [qf, mulVec_sub, star_sub, dotProduct_sub, sub_dotProduct, eA, Complex.sub_re, e1]
    ring
  have h3 : qf B w = (star w ⬝ᵥ u).re := by rw [qf, eB]
  have h4 : qf B⁻¹ u = (star w ⬝ᵥ u).re := by rw [qf, ← hw, hsymm]
  have h5 : qf A⁻¹ u = (star v ⬝ᵥ u).re := by rw [qf, ← hv, hsymm]
  have h6 := h w
  linarith

/-- The largest eigenvalue of `A` with respect to `B`. -/
theorem exists_top (hN : N ≠ 0) (hA : A.IsHermitian) (hB : B.PosDef) :
    ∃ (M : ℝ) (u : Fin N → ℂ), u ≠ 0 ∧ (∀ w, qf A w ≤ M * qf B w) ∧ A *ᵥ u = (M : ℂ) • (B *ᵥ u) := by
  have : NeZero N := ⟨hN⟩
  have hpos : ∀ w ∈ Metric.sphere (0 : Fin N → ℂ) 1, 0 < qf B w := fun w hw =>
    (pd_iff hB.isHermitian).1 hB w (by rintro rfl; simp at hw)
  have hne : (Metric.sphere (0 : Fin N → ℂ) 1).Nonempty := NormedSpace.sphere_nonempty.2 zero_le_one
  obtain ⟨u, hu, hmax⟩ := (isCompact_sphere (0 : Fin N → ℂ) 1).exists_isMaxOn hne
    (f := fun w => qf A w / qf B w)
    ((continuous_qf_right A).continuousOn.div (continuous_qf_right B).continuousOn fun w hw => (hpos w hw).ne')
  have hu0 : u ≠ 0 := by rintro rfl; simp at hu
  have hscale : ∀ (C : Matrix (Fin N) (Fin N) ℂ) (c : ℝ) (w : Fin N → ℂ), qf C ((c : ℂ) • w) = c ^ 2 * qf C w := by
    intro C c w
    simp only [qf, mulVec_smul, star_smul, smul_dotProduct, dotProduct_smul, smul_eq_mul, Complex.star_def, Complex.conj_ofReal,
      Complex.re_ofReal_mul]
    ring
  set M := qf A u / qf B u with hM
  have hle : ∀ w, qf A w ≤ M * qf B w := by
    intro w
    by_cases hw : w = 0
    · subst hw
      simp [qf]
    have hn : 0 < ‖w‖ := norm_pos_iff.2 hw
    set w' : Fin N → ℂ := ((‖w‖⁻¹ : ℝ) : ℂ) • w with hw'
    have hmem : w' ∈ Metric.sphere (0 : Fin N → ℂ) 1 := by
      rw [mem_sphere_zero_iff_norm, hw', norm_smul, Complex.norm_real, norm_inv, norm_norm, inv_mul_cancel₀ hn.ne']
    have h1 := (div_le_iff₀ (hpos w' hmem)).1 (hmax hmem)
    rw [hw', hscale, hscale] at h1
    have h2 : 0 < (‖w‖⁻¹) ^ 2 := by positivity
    have h3 : (‖w‖⁻¹) ^ 2 * qf A w ≤ (‖w‖⁻¹) ^ 2 * (M * qf B w) := by linarith
    exact le_of_mul_le_mul_left h3 h2
  refine ⟨M, u, hu0, hle, ?_⟩
  have hherm : ((M : ℂ) • B - A).IsHermitian := by
    refine IsHermitian.sub ?_ hA
    rw [IsHermitian, conjTranspose_smul, hB.isHermitian.eq, Complex.star_def, Complex.conj_ofReal]
  have hpsd : ((M : ℂ) • B - A).PosSemidef := (psd_iff hherm).2 fun w => by
    rw [qf_sub, qf_smul]
    linarith [hle w]
  have h0 : star u ⬝ᵥ ((M : ℂ) • B - A) *ᵥ u = 0 := by
    rw [qf_hermitian hherm, qf_sub, qf_smul, hM, div_mul_cancel₀ _ (hpos u hu).ne', sub_self, Complex.ofReal_zero]
  have h1 := (hpsd.dotProduct_mulVec_zero_iff u).1 h0
  rw [sub_mulVec, smul_mulVec, sub_eq_zero] at h1
  exact h1.symm

/-- A positive definite matrix with trace `N` has determinant at most one, and one only if it is the identity. -/
theorem det_le_one (hA : A.PosDef) (ht : A.trace.re = N) : A.det.re ≤ 1 ∧ (A.det.re = 1 → A = 1) := by
  set e := hA.isHermitian.eigenvalues with he
  have hpos : ∀ i, 0 < e i := hA.eigenvalues_pos
  have h1 : A.det.re = ∏ i, e i := by
    rw [hA.isHermitian.det_eq_prod_eigenvalues]
    exact_mod_cast rfl
  have h2 : ∑ i, e i = N := by
    rw [← ht, hA.isHermitian.trace_eq_sum_eigenvalues]
    exact_mod_cast rfl
  have h3 : ∑ i, Real.log (e i) ≤ ∑ i, (e i - 1) := Finset.sum_le_sum fun i _ => Real.log_le_sub_one_of_pos (hpos i)
  have h4 : ∑ i, (e i - 1) = 0 := by
    rw [Finset.sum_sub_distrib, h2]
    simp
  have h5 : Real.log A.det.re = ∑ i, Real.log (e i) := by
    rw [h1, Real.log_prod fun i _ => (hpos i).ne']
  have hd : 0 < A.det.re := by rw [h1]; exact Finset.prod_pos fun i _ => hpos i
  refine ⟨(Real.log_nonpos_iff hd.le).1 (by rw [h5]; linarith), fun hone => ?_⟩
  have h6 : ∑ i, Real.log (e i) = ∑ i, (e i - 1) := by
    rw [h4, ← h5, hone, Real.log_one]
  have h7 := (Finset.sum_eq_sum_iff_of_le fun i _ => Real.log_le_sub_one_of_pos (hpos i)).1 h6
  have h8 : ∀ i, e i = 1 := by
    intro i
    by_contra hne
    exact (Real.log_lt_sub_one_of_pos (hpos i) hne).ne (h7 i (Finset.mem_univ i))
  rw [hA.isHermitian.spectral_theorem]
  have h9 : (RCLike.ofReal ∘ hA.isHermitian.eigenvalues : Fin N → ℂ) = fun _ => 1 := by
    funext i
    rw [Function.comp_apply, ← he, h8 i, RCLike.ofReal_one]
  rw [h9, diagonal_one, map_one]

theorem det_re (hA : A.PosDef) : (A.det.re : ℂ) = A.det := by
  have := Complex.pos_iff.1 hA.det_pos
  exact Complex.ext rfl (by simp [this.2])

theorem det_re_pos (hA : A.PosDef) : 0 < A.det.re := (Complex.pos_iff.1 hA.det_pos).1

theorem det_inv_re (hA : A.PosDef) : A.det.re * (A⁻¹).det.re = 1 := by
  have h1 : ((A.det.re * (A⁻¹).det.re : ℝ) : ℂ) = 1 := by
    rw [Complex.ofReal_mul, det_re hA, det_re hA.inv, ← det_mul, mul_nonsing_inv _ (isUnit_iff_ne_zero.2 hA.det_pos.ne'), det_one]
  exact_mod_cast h1

/-- The same for the product of two positive definite matrices. -/
theorem det_mul_le_one (hA : A.PosDef) (hB : B.PosDef) (ht : (A * B).trace.re = N) :
    A.det.re * B.det.re ≤ 1 ∧ (A.det.re * B.det.re = 1 → A * B = 1) := by
  obtain ⟨C, rfl⟩ := exists_factor hB.posSemidef
  have hdet : (Cᴴ * C).det ≠ 0 := hB.det_pos.ne'
  have hC : IsUnit C := by
    rw [isUnit_iff_isUnit_det, isUnit_iff_ne_zero]
    intro h0
    rw [det_mul, h0, mul_zero] at hdet
    exact hdet rfl
  have hCd : IsUnit C.det := (isUnit_iff_isUnit_det _).1 hC
  have hS : (C * A * Cᴴ).PosDef := hA.mul_mul_conjTranspose_same (vecMul_injective_of_isUnit hC)
  have htS : (C * A * Cᴴ).trace.re = N := by
    rw [← ht, ← Matrix.mul_assoc, trace_mul_comm (A * Cᴴ) C, Matrix.mul_assoc]
  have hdS : (C * A * Cᴴ).det.re = A.det.re * (Cᴴ * C).det.re := by
    have : ((C * A * Cᴴ).det.re : ℂ) = ((A.det.re * (Cᴴ * C).det.re : ℝ) : ℂ) := by
      rw [det_re hS, Complex.ofReal_mul, det_re hA, det_re hB, det_mul, det_mul, det_mul]
      ring
    exact_mod_cast this
  obtain ⟨h1, h2⟩ := det_le_one hS htS
  rw [hdS] at h1 h2
  refine ⟨h1, fun h => ?_⟩
  have h3 := h2 h
  calc A * (Cᴴ * C) = C⁻¹ * (C * A * Cᴴ) * C := by
        rw [Matrix.mul_assoc C, ← Matrix.mul_assoc C⁻¹, nonsing_inv_mul _ hCd, Matrix.one_mul, Matrix.mul_assoc]
    _ = 1 := by rw [h3, Matrix.mul_one, nonsing_inv_mul _ hCd]

theorem trace_eq_sum_qf : A.trace.re = ∑ i, qf A (Pi.single i 1) := by
  rw [trace, Complex.re_sum]
  refine Finset.sum_congr rfl fun i _ => ?_
  rw [qf, diag_apply]
  simp

theorem qf_one_single (i : Fin N) : qf (1 : Matrix (Fin N) (Fin N) ℂ) (Pi.single i 1) = 1 := by
  rw [qf_one, Finset.sum_eq_single i (fun j _ hj => by simp [hj]) (by simp)]
  simp

theorem trace_le (c : ℝ) (h : ∀ u, qf A u ≤ c * qf 1 u) : A.trace.re ≤ N * c := by
  rw [trace_eq_sum_qf]
  calc ∑ i, qf A (Pi.single i 1) ≤ ∑ _i : Fin N, c := Finset.sum_le_sum fun i _ => by
        have := h (Pi.single i 1)
        rwa [qf_one_single, mul_one] at this
    _ = N * c := by simp

/-- A matrix with entries bounded by `c` is at most `c N`. -/
theorem qf_le_entries (c : ℝ) (h : ∀ a b, ‖A a b‖ ≤ c) (u : Fin N → ℂ) : |qf A u| ≤ N * c * qf 1 u := by
  rw [qf_eq_sum, qf_one]
  refine (Complex.abs_re_le_norm _).trans ?_
  have h1 : ‖∑ i, ∑ j, star (u i) * A i j * u j‖ ≤ ∑ i, ∑ j, (c * (‖u i‖ ^ 2 / 2) + c * (‖u j‖ ^ 2 / 2)) := by
    refine (norm_sum_le _ _).trans (Finset.sum_le_sum fun i _ => (norm_sum_le _ _).trans (Finset.sum_le_sum fun j _ => ?_))
    rw [norm_mul, norm_mul, norm_star]
    have h2 := h i j
    have h3 : 0 ≤ ‖u i‖ * ‖u j‖ := by positivity
    have hc : 0 ≤ c := (norm_nonneg _).trans h2
    nlinarith [mul_le_mul_of_nonneg_right h2 h3, mul_nonneg hc (sq_nonneg (‖u i‖ - ‖u j‖))]
  refine h1.trans (le_of_eq ?_)
  simp only [Finset.sum_add_distrib, ← Finset.mul_sum, Finset.sum_const, Finset.card_univ, Fintype.card_fin, nsmul_eq_mul, ← Finset.sum_div]
  ring

theorem qf_le_one (hA : A.PosSemidef) (ht : A.trace.re = 1) (u : Fin N → ℂ) : qf A u ≤ N * qf 1 u := by
  have := qf_le_entries (A := A) 1 (fun a b => ht ▸ entry_le hA a b) u
  rw [mul_one] at this
  exact (le_abs_self _).trans this

theorem qf_inv_smul_one {c : ℝ} (hc : c ≠ 0) (u : Fin N → ℂ) :
    qf ((c : ℂ) • (1 : Matrix (Fin N) (Fin N) ℂ))⁻¹ u = c⁻¹ * qf 1 u := by
  have h0 : (c : ℂ) ≠ 0 := by exact_mod_cast hc
  have : ((c : ℂ) • (1 : Matrix (Fin N) (Fin N) ℂ))⁻¹ = ((c⁻¹ : ℝ) : ℂ) • 1 := by
    refine inv_eq_right_inv ?_
    rw [smul_mul_smul_comm, Matrix.one_mul, Complex.ofReal_inv, mul_inv_cancel₀ h0, one_smul]
  rw [this, qf_smul]

theorem posDef_smul_one {c : ℝ} (hc : 0 < c) : ((c : ℂ) • (1 : Matrix (Fin N) (Fin N) ℂ)).PosDef :=
  PosDef.one.smul (by exact_mod_cast hc)

theorem posDef_of_le (hA : A.IsHermitian) {m : ℝ} (hm : 0 < m) (h : ∀ u, m * qf 1 u ≤ qf A u) : A.PosDef :=
  (pd_iff hA).2 fun u hu => (mul_pos hm (qf_one_pos u hu)).trans_le (h u)

theorem exists_lower (hN : N ≠ 0) (hA : A.PosDef) : ∃ m : ℝ, 0 < m ∧ ∀ u, m * qf 1 u ≤ qf A u := by
  obtain ⟨M, u, hu, h1, -⟩ := exists_top hN isHermitian_one hA
  have hM : 0 < M := by
    have h2 := (qf_one_pos u hu).trans_le (h1 u)
    exact pos_of_mul_pos_left h2 ((pd_iff hA.isHermitian).1 hA u hu).le
  refine ⟨M⁻¹, by positivity, fun w => ?_⟩
  rw [inv_mul_le_iff₀ hM]
  exact h1 w

theorem det_le_trace (hN : N ≠ 0) (hA : A.PosDef) : A.det.re ≤ (A.trace.re / N) ^ N := by
  have hN' : (0 : ℝ) < N := by positivity
  have ht : 0 < A.trace.re := by
    have : NeZero N := ⟨hN⟩
    rw [trace_eq_sum_qf]
    refine Finset.sum_pos (fun i _ => (pd_iff hA.isHermitian).1 hA _ fun h0 => ?_) Finset.univ_nonempty
    have := congrFun h0 i
    simp at this
  set c : ℝ := N / A.trace.re with hc
  have hc0 : 0 < c := by positivity
  have h1 : ((c : ℂ) • A).PosDef := hA.smul (by exact_mod_cast hc0)
  have h2 : ((c : ℂ) • A).trace.re = N := by
    rw [trace_smul, smul_eq_mul, Complex.re_ofReal_mul, hc, div_mul_cancel₀ _ ht.ne']
  have h3 := (det_le_one h1 h2).1
  rw [det_smul, Fintype.card_fin, ← Complex.ofReal_pow, Complex.re_ofReal_mul] at h3
  rw [show A.trace.re / N = c⁻¹ by rw [hc, inv_div], inv_pow]
  rw [← one_div, le_div_iff₀ (by positivity)]
  linarith

/-- Positive semi-definite matrices of bounded trace form a compact set. -/
theorem isCompact_psd (M : ℝ) : IsCompact {A : Matrix (Fin N) (Fin N) ℂ | A.PosSemidef ∧ A.trace.re ≤ M} := by
  have hK : IsCompact {A : Matrix (Fin N) (Fin N) ℂ | ∀ a b, A a b ∈ Metric.closedBall (0 : ℂ) M} := by
    have h1 := isCompact_univ_pi (X := fun _ : Fin N => Fin N → ℂ) (s := fun _ => Set.univ.pi fun _ => Metric.closedBall (0 : ℂ) M)
      fun _ => isCompact_univ_pi fun _ => isCompact_closedBall 0 M
    have e : {A : Fin N → Fin N → ℂ | ∀ a b, A a b ∈ Metric.closedBall (0 : ℂ) M} =
        Set.univ.pi fun _ => Set.univ.pi fun _ => Metric.closedBall (0 : ℂ) M := by
      ext A
      simp [Set.mem_pi]
    rw [← e] at h1
    exact h1
  refine hK.of_isClosed_subset ?_ fun A hA a b => by
    rw [mem_closedBall_zero_iff]
    exact (entry_le hA.1 a b).trans hA.2
  have e : {A : Matrix (Fin N) (Fin N) ℂ | A.PosSemidef ∧ A.trace.re ≤ M} =
      ({A | Aᴴ = A} ∩ ⋂ u, {A | 0 ≤ qf A u}) ∩ {A | A.trace.re ≤ M} := by
    ext A
    simp only [Set.mem_inter_iff, Set.mem_iInter, Set.mem_ofPred_eq]
    exact ⟨fun h => ⟨⟨h.1.isHermitian, (psd_iff h.1.isHermitian).1 h.1⟩, h.2⟩, fun h => ⟨(psd_iff h.1.1).2 h.1.2, h.2⟩⟩
  rw [e]
  refine (IsClosed.inter (isClosed_eq (by fun_prop) continuous_id) (isClosed_iInter fun u =>
    isClosed_le continuous_const (continuous_qf_left u))).inter (isClosed_le ?_ continuous_const)
  exact Complex.continuous_re.comp (Continuous.matrix_trace continuous_id)

end Cyjax.Spec
