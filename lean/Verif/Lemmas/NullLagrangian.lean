import Verif.Lemmas.CurvatureChart
import Mathlib.Analysis.Calculus.LineDeriv.IntegrationByParts
import Mathlib.MeasureTheory.Measure.Lebesgue.Complex
import Mathlib.MeasureTheory.Constructions.Pi
import Mathlib.MeasureTheory.Measure.Haar.OfBasis
import Mathlib.LinearAlgebra.Matrix.Determinant.Basic
import Mathlib.Analysis.Calculus.FDeriv.Mul
import Mathlib.Analysis.Calculus.ContDiff.Operations

/-! # Determinants of holomorphic gradients integrate to zero (for C153)

If the functions `v_s` are twice differentiable and one of them has compact support, then the integral of the determinant
of `∂_r v_s` vanishes. -/

namespace Cyjax.Spec

open MeasureTheory Filter Topology Set
open scoped ComplexConjugate

variable {m : ℕ}

theorem dz_contDiff {f : (Fin m → ℂ) → ℂ} {z : Fin m → ℂ} {k l : WithTop ℕ∞} (hf : ContDiffAt ℝ l f z) (hl : k + 1 ≤ l) (a : Fin m) :
    ContDiffAt ℝ k (fun w => dz f a w) z ∧ ContDiffAt ℝ k (fun w => dzbar f a w) z := by
  have hd : ContDiffAt ℝ k (fderiv ℝ f) z := hf.fderiv_right hl
  have h1' : ContDiffAt ℝ 1 f z := hf.of_le (le_trans (by simp) hl)
  have hev : ∀ᶠ w in 𝓝 z, DifferentiableAt ℝ f w := by
    filter_upwards [h1'.eventually (by norm_num)] with w hw
    exact hw.differentiableAt (by norm_num)
  have h1 : ∀ c : Fin m → ℂ, ContDiffAt ℝ k (fun w => fderiv ℝ f w c) z := fun c => hd.clm_apply contDiffAt_const
  constructor
  · refine ContDiffAt.congr_of_eventuallyEq (((h1 (Pi.single a 1)).sub ((contDiffAt_const (c := Complex.I)).mul (h1 (Pi.single a Complex.I)))).mul
      (contDiffAt_const (c := (2 : ℂ)⁻¹))) ?_
    filter_upwards [hev] with w hw
    rw [dz_fderiv hw a, div_eq_mul_inv]
  · refine ContDiffAt.congr_of_eventuallyEq (((h1 (Pi.single a 1)).add ((contDiffAt_const (c := Complex.I)).mul (h1 (Pi.single a Complex.I)))).mul
      (contDiffAt_const (c := (2 : ℂ)⁻¹))) ?_
    filter_upwards [hev] with w hw
    rw [dzbar_fderiv hw a, div_eq_mul_inv]

/-- Holomorphic derivatives commute. -/
theorem dz_dz_comm {f : (Fin m → ℂ) → ℂ} {z : Fin m → ℂ} (hf : ContDiffAt ℝ 2 f z) (a b : Fin m) :
    dz (fun w => dz f a w) b z = dz (fun w => dz f b w) a z := by
  have hd : DifferentiableAt ℝ (fderiv ℝ f) z := (hf.fderiv_right (m := 1) (by norm_num)).differentiableAt (by norm_num)
  have hsymm : ∀ u v, fderiv ℝ (fderiv ℝ f) z u v = fderiv ℝ (fderiv ℝ f) z v u :=
    fun u v => (hf.isSymmSndFDerivAt (by simp)).eq u v
  have hev : ∀ᶠ w in 𝓝 z, DifferentiableAt ℝ f w := by
    filter_upwards [hf.eventually (by norm_num)] with w hw
    exact hw.differentiableAt (by norm_num)
  have h2 : ∀ c, HasFDerivAt (fun s => fderiv ℝ f s c) ((fderiv ℝ (fderiv ℝ f) z).flip c) z := by
    intro c
    have h := hd.hasFDerivAt.clm_apply (hasFDerivAt_const c z)
    simpa using h
  have h4 : ∀ a, HasFDerivAt (fun w => dz f a w)
      ((2 : ℂ)⁻¹ • ((fderiv ℝ (fderiv ℝ f) z).flip (Pi.single a 1) -
        Complex.I • (fderiv ℝ (fderiv ℝ f) z).flip (Pi.single a Complex.I))) z := by
    intro a
    refine (((h2 _).sub ((h2 _).const_mul Complex.I)).const_mul (2 : ℂ)⁻¹).congr_of_eventuallyEq ?_
    filter_upwards [hev] with w hw
    rw [dz_fderiv hw, div_eq_inv_mul]
    rfl
  rw [dz_fderiv (h4 a).differentiableAt, dz_fderiv (h4 b).differentiableAt, (h4 a).fderiv, (h4 b).fderiv]
  simp only [_root_.smul_apply, _root_.sub_apply, ContinuousLinearMap.flip_apply, smul_eq_mul]
  rw [hsymm (Pi.single b 1) (Pi.single a 1), hsymm (Pi.single b Complex.I) (Pi.single a 1),
    hsymm (Pi.single b 1) (Pi.single a Complex.I), hsymm (Pi.single b Complex.I) (Pi.single a Complex.I)]
  ring

/-- The integral of a derivative of a function with compact support vanishes. -/
theorem integral_dz_zero {f : (Fin m → ℂ) → ℂ} (hf : ContDiff ℝ 1 f) (hc : HasCompactSupport f) (r : Fin m) :
    Integrable (fun y => dz f r y) ∧ ∫ y, dz f r y = 0 := by
  have hd : ∀ y, DifferentiableAt ℝ f y := fun y => hf.contDiffAt.differentiableAt (by norm_num)
  have hint : ∀ v, Integrable (fun y => fderiv ℝ f y v) := fun v => by
    refine Continuous.integrable_of_hasCompactSupport ?_ ?_
    · exact (hf.continuous_fderiv (by norm_num)).clm_apply continuous_const
    · exact (hc.fderiv (𝕜 := ℝ)).comp_left (g := fun L : (Fin m → ℂ) →L[ℝ] ℂ => L v) (by simp)
  have hf0 : Integrable f := hf.continuous.integrable_of_hasCompactSupport hc
  have hzero : ∀ v, ∫ y, fderiv ℝ f y v = 0 := fun v => by
    have := integral_mul_fderiv_eq_neg_fderiv_mul_of_integrable (μ := (volume : Measure (Fin m → ℂ))) (𝕜 := ℂ)
      (f := fun _ => 1) (g := f) (v := v) (by simp) (by simpa using hint v) (by simpa using hf0)
      (fun x _ => differentiableAt_const _) (fun x _ => hd x)
    simpa using this
  have heq : (fun y => dz f r y) = fun y => (2 : ℂ)⁻¹ * (fderiv ℝ f y (Pi.single r 1) - Complex.I * fderiv ℝ f y (Pi.single r Complex.I)) := by
    funext y
    rw [dz_fderiv (hd y), div_eq_inv_mul]
  rw [heq]
  refine ⟨((hint _).sub ((hint _).const_mul _)).const_mul _, ?_⟩
  rw [integral_const_mul, integral_sub (hint _) ((hint _).const_mul _), integral_const_mul, hzero, hzero]
  simp

theorem dz_mul {f g : (Fin m → ℂ) → ℂ} {y : Fin m → ℂ} (hf : DifferentiableAt ℝ f y) (hg : DifferentiableAt ℝ g y) (r : Fin m) :
    dz (fun y => f y * g y) r y = dz f r y * g y + f y * dz g r y := by
  rw [dz_fderiv hf, dz_fderiv hg, dz_fderiv (f := fun y => f y * g y) (hf.mul hg), fderiv_fun_mul hf hg]
  simp only [_root_.add_apply, _root_.smul_apply, smul_eq_mul]
  ring

theorem dz_prod {ι : Type*} [DecidableEq ι] (S : Finset ι) {f : ι → (Fin m → ℂ) → ℂ} {y : Fin m → ℂ}
    (hf : ∀ i ∈ S, DifferentiableAt ℝ (f i) y) (r : Fin m) :
    DifferentiableAt ℝ (fun y => ∏ i ∈ S, f i y) y ∧
    dz (fun y => ∏ i ∈ S, f i y) r y = ∑ j ∈ S, dz (f j) r y * ∏ i ∈ S.erase j, f i y := by
  induction S using Finset.induction_on with
  | empty => simp [dz]
  | insert a S ha ih =>
    obtain ⟨h1, ih⟩ := ih fun i hi => hf i (Finset.mem_insert_of_mem hi)
    have h2 := hf a (Finset.mem_insert_self _ _)
    simp only [Finset.prod_insert ha]
    refine ⟨h2.mul h1, ?_⟩
    rw [dz_mul h2 h1, ih, Finset.sum_insert ha, Finset.erase_insert ha, Finset.mul_sum]
    congr 1
    refine Finset.sum_congr rfl fun j hj => ?_
    have hja : j ≠ a := fun h => ha (h ▸ hj)
    rw [Finset.erase_insert_of_ne hja.symm, Finset.prod_insert (by simp [ha])]
    ring

/-- The matrix of the holomorphic derivatives of the functions `v_s`. -/
noncomputable def gradMat (v : Fin m → (Fin m → ℂ) → ℂ) (y : Fin m → ℂ) : Matrix (Fin m) (Fin m) ℂ :=
  Matrix.of fun r s => dz (v s) r y

/-- The summand of the potential of the determinant. -/
noncomputable def gradTerm (v : Fin m → (Fin m → ℂ) → ℂ) (k : Fin m) (σ : Equiv.Perm (Fin m)) (y : Fin m → ℂ) : ℂ :=
  v k y * ∏ i ∈ Finset.univ.erase k, dz (v i) (σ i) y

theorem gradTerm_div {v : Fin m → (Fin m → ℂ) → ℂ} {y : Fin m → ℂ} (hv : ∀ i, ContDiffAt ℝ 2 (v i) y) (k : Fin m) :
    ∑ σ : Equiv.Perm (Fin m), ((Equiv.Perm.sign σ : ℤ) : ℂ) * dz (gradTerm v k σ) (σ k) y = (gradMat v y).det := by
  have hd : ∀ i a, DifferentiableAt ℝ (fun w => dz (v i) a w) y := fun i a => dz_differentiable (hv i) a
  have h1 : ∀ σ : Equiv.Perm (Fin m), dz (gradTerm v k σ) (σ k) y = ∏ i, dz (v i) (σ i) y +
      v k y * ∑ j ∈ Finset.univ.erase k, dz (fun w => dz (v j) (σ j) w) (σ k) y *
        ∏ i ∈ (Finset.univ.erase k).erase j, dz (v i) (σ i) y := by
    intro σ
    obtain ⟨h2, h3⟩ := dz_prod (Finset.univ.erase k) (f := fun i w => dz (v i) (σ i) w) (y := y) (fun i _ => hd i (σ i)) (σ k)
    unfold gradTerm
    rw [dz_mul ((hv k).differentiableAt (by norm_num)) h2, h3, ← Finset.mul_prod_erase Finset.univ _ (Finset.mem_univ k)]
  simp only [h1, mul_add, Finset.sum_add_distrib]
  have h2 : ∑ σ : Equiv.Perm (Fin m), ((Equiv.Perm.sign σ : ℤ) : ℂ) * (v k y * ∑ j ∈ Finset.univ.erase k,
      dz (fun w => dz (v j) (σ j) w) (σ k) y * ∏ i ∈ (Finset.univ.erase k).erase j, dz (v i) (σ i) y) = 0 := by
    simp only [Finset.mul_sum]
    rw [Finset.sum_comm]
    refine Finset.sum_eq_zero fun j hj => ?_
    have hjk : j ≠ k := Finset.ne_of_mem_erase hj
    set T : Equiv.Perm (Fin m) → ℂ := fun σ => ((Equiv.Perm.sign σ : ℤ) : ℂ) * (v k y *
      (dz (fun w => dz (v j) (σ j) w) (σ k) y * ∏ i ∈ (Finset.univ.erase k).erase j, dz (v i) (σ i) y)) with hT
    have h3 : ∑ σ, T σ = ∑ σ, T (σ * Equiv.swap j k) :=
      (Equiv.sum_comp (Equiv.mulRight (Equiv.swap j k)) T).symm
    have h4 : ∀ σ, T (σ * Equiv.swap j k) = -T σ := by
      intro σ
      simp only [hT]
      have e1 : ∏ i ∈ (Finset.univ.erase k).erase j, dz (v i) ((σ * Equiv.swap j k) i) y =
          ∏ i ∈ (Finset.univ.erase k).erase j, dz (v i) (σ i) y := by
        refine Finset.prod_congr rfl fun i hi => ?_
        have hij : i ≠ j := Finset.ne_of_mem_erase hi
        have hik : i ≠ k := Finset.ne_of_mem_erase (Finset.mem_of_mem_erase hi)
        rw [Equiv.Perm.mul_apply, Equiv.swap_apply_of_ne_of_ne hij hik]
      rw [e1, Equiv.Perm.mul_apply, Equiv.Perm.mul_apply, Equiv.swap_apply_left, Equiv.swap_apply_right,
        dz_dz_comm (hv j) (σ k) (σ j), Equiv.Perm.sign_mul, Equiv.Perm.sign_swap hjk]
      simp
    have h5 : ∑ σ, T σ = -∑ σ, T σ := by
      conv_lhs => rw [h3]
      rw [← Finset.sum_neg_distrib]
      exact Finset.sum_congr rfl fun σ _ => h4 σ
    have := self_eq_neg.1 h5
    exact this
  rw [h2, add_zero, gradMat, Matrix.det_apply']
  rfl

/-- The integral of the determinant vanishes. -/
theorem integral_gradMat {v : Fin m → (Fin m → ℂ) → ℂ} {U : Set (Fin m → ℂ)} (k : Fin m)
    (hv : ∀ i, ∀ y ∈ U, ContDiffAt ℝ 2 (v i) y) (hc : HasCompactSupport (v k)) (hU : tsupport (v k) ⊆ U) :
    Integrable (fun y => (gradMat v y).det) ∧ ∫ y, (gradMat v y).det = 0 := by
  have hout : ∀ y, y ∉ tsupport (v k) → v k =ᶠ[𝓝 y] fun _ => 0 := fun y hy => notMem_tsupport_iff_eventuallyEq.1 hy
  have hH : ∀ σ : Equiv.Perm (Fin m), ContDiff ℝ 1 (gradTerm v k σ) := by
    intro σ
    rw [contDiff_iff_contDiffAt]
    intro y
    by_cases hy : y ∈ tsupport (v k)
    · exact ((hv k y (hU hy)).of_le (by norm_num)).mul
        (contDiffAt_prod fun i _ => (dz_contDiff (k := 1) (hv i y (hU hy)) (by norm_num) (σ i)).1)
    · refine (contDiffAt_const (c := (0 : ℂ))).congr_of_eventuallyEq ?_
      filter_upwards [hout y hy] with w hw
      rw [gradTerm, hw, zero_mul]
  have hHc : ∀ σ : Equiv.Perm (Fin m), HasCompactSupport (gradTerm v k σ) := fun σ => hc.mul_right
  have heq : ∀ y, (gradMat v y).det = ∑ σ : Equiv.Perm (Fin m), ((Equiv.Perm.sign σ : ℤ) : ℂ) * dz (gradTerm v k σ) (σ k) y := by
    intro y
    by_cases hy : y ∈ tsupport (v k)
    · exact (gradTerm_div (fun i => hv i y (hU hy)) k).symm
    · have h0 : ∀ r, dz (v k) r y = 0 := fun r => by
        rw [(line_congr (hout y hy) r).1]
        simp [dz]
      rw [Matrix.det_eq_zero_of_column_eq_zero k fun r => h0 r]
      refine (Finset.sum_eq_zero fun σ _ => ?_).symm
      have h1 : gradTerm v k σ =ᶠ[𝓝 y] fun _ => 0 := by
        filter_upwards [hout y hy] with w hw
        rw [gradTerm, hw, zero_mul]
      rw [(line_congr h1 (σ k)).1]
      simp [dz]
  simp only [heq]
  have hi := fun σ : Equiv.Perm (Fin m) => integral_dz_zero (hH σ) (hHc σ) (σ k)
  refine ⟨integrable_finsetSum _ fun σ _ => (hi σ).1.const_mul _, ?_⟩
  rw [integral_finsetSum _ fun σ _ => (hi σ).1.const_mul _]
  refine Finset.sum_eq_zero fun σ _ => ?_
  rw [integral_const_mul, (hi σ).2, mul_zero]

/-- The first columns of one matrix and the others of another one. -/
def mixCols (A B : Matrix (Fin m) (Fin m) ℂ) (j : ℕ) : Matrix (Fin m) (Fin m) ℂ :=
  Matrix.of fun r s => if (s : ℕ) < j then A r s else B r s

theorem det_mixCols (A B : Matrix (Fin m) (Fin m) ℂ) :
    A.det - B.det = ∑ k : Fin m, (Matrix.of fun r s => if s < k then A r s else if s = k then A r s - B r s else B r s).det := by
  have h1 : A = mixCols A B m := by
    ext r s
    simp [mixCols]
  have h2 : B = mixCols A B 0 := by
    ext r s
    simp [mixCols]
  have h3 : ∀ k : Fin m, (mixCols A B ((k : ℕ) + 1)).det - (mixCols A B k).det =
      (Matrix.of fun r s => if s < k then A r s else if s = k then A r s - B r s else B r s).det := by
    intro k
    have e1 : mixCols A B ((k : ℕ) + 1) = (mixCols A B k).updateCol k fun r => A r k := by
      ext r s
      rcases lt_trichotomy s k with h | rfl | h
      · simp [mixCols, h.ne, h, h.le]
      · simp [mixCols]
      · simp [mixCols, h.ne', not_le.2 h, not_lt.2 h.le]
    have e2 : mixCols A B k = (mixCols A B k).updateCol k fun r => B r k := by
      ext r s
      rcases eq_or_ne s k with rfl | h
      · simp [mixCols]
      · simp [h]
    have e3 : (Matrix.of fun r s => if s < k then A r s else if s = k then A r s - B r s else B r s) =
        (mixCols A B k).updateCol k fun r => A r k - B r k := by
      ext r s
      rcases lt_trichotomy s k with h | rfl | h
      · simp [mixCols, h.ne, h]
      · simp
      · simp [mixCols, h.ne', not_lt.2 h.le]
    have e4 := Matrix.det_updateCol_add (mixCols A B k) k (fun r => A r k - B r k) (fun r => B r k)
    rw [show ((fun r => A r k - B r k) + fun r => B r k) = fun r => A r k by funext r; simp] at e4
    rw [e1, e3, e4]
    conv_lhs => rw [show (mixCols A B k).det = ((mixCols A B k).updateCol k fun r => B r k).det by rw [← e2]]
    ring
  rw [← Finset.sum_congr rfl fun k _ => h3 k, Fin.sum_univ_eq_sum_range (fun k => (mixCols A B (k + 1)).det - (mixCols A B k).det),
    Finset.sum_range_sub fun k => (mixCols A B k).det, ← h1, ← h2]

/-- The integral of the determinant of the mixed derivatives of a potential does not change if the potential is changed in a
compact set. -/
theorem integral_levi_change {κ u : (Fin m → ℂ) → ℂ} {U : Set (Fin m → ℂ)}
    (hκ : ∀ y ∈ U, ContDiffAt ℝ 3 κ y) (hu : ∀ y ∈ U, ContDiffAt ℝ 3 u y) (hc : HasCompactSupport u) (hU : tsupport u ⊆ U) :
    Integrable (U.indicator fun y => (levi (fun y => κ y + u y) y).det - (levi κ y).det) ∧
    ∫ y, U.indicator (fun y => (levi (fun y => κ y + u y) y).det - (levi κ y).det) y = 0 := by
  set v : Fin m → Fin m → (Fin m → ℂ) → ℂ := fun k s =>
    if s < k then (fun y => dzbar (fun y => κ y + u y) s y) else if s = k then (fun y => dzbar u s y) else fun y => dzbar κ s y with hv
  have hout : ∀ y, y ∉ tsupport u → u =ᶠ[𝓝 y] fun _ => 0 := fun y hy => notMem_tsupport_iff_eventuallyEq.1 hy
  have hvk : ∀ k, v k k = fun y => dzbar u k y := fun k => by simp [hv]
  have hz : ∀ y, y ∉ tsupport u → ∀ k, dzbar u k y = 0 := fun y hy k => by
    rw [(line_congr (hout y hy) k).2]
    simp [dzbar]
  have hsub : ∀ k, tsupport (v k k) ⊆ tsupport u := by
    intro k
    rw [hvk]
    refine closure_minimal (fun y hy => ?_) (isClosed_tsupport u)
    by_contra hcon
    exact hy (hz y hcon k)
  have hcs : ∀ k, HasCompactSupport (v k k) := fun k => hc.of_isClosed_subset (isClosed_tsupport _) (hsub k)
  have h2 : ∀ y ∈ U, ∀ f : (Fin m → ℂ) → ℂ, ContDiffAt ℝ 3 f y → ∀ s, ContDiffAt ℝ 2 (fun y => dzbar f s y) y :=
    fun y _ f hf s => (dz_contDiff (k := 2) hf (by norm_num) s).2
  have hsm : ∀ k i, ∀ y ∈ U, ContDiffAt ℝ 2 (v k i) y := by
    intro k i y hy
    simp only [hv]
    split_ifs
    · exact h2 y hy _ ((hκ y hy).add (hu y hy)) i
    · exact h2 y hy _ (hu y hy) i
    · exact h2 y hy _ (hκ y hy) i
  have heq : (U.indicator fun y => (levi (fun y => κ y + u y) y).det - (levi κ y).det) =
      fun y => ∑ k, (gradMat (v k) y).det := by
    funext y
    by_cases hy : y ∈ U
    · rw [indicator_of_mem hy, det_mixCols]
      have hc2 : ∀ {f : (Fin m → ℂ) → ℂ}, ContDiffAt ℝ 3 f y → ∀ r s, levi f y r s = dz (fun w => dzbar f s w) r y :=
        fun {f} hf r s => (dz_dzbar_comm (hf.of_le (by norm_num)) r s).symm
      have hadd := levi_add ((hκ y hy).of_le (m := 2) (by norm_num)) ((hu y hy).of_le (m := 2) (by norm_num))
      refine Finset.sum_congr rfl fun k _ => ?_
      congr 1
      ext r s
      simp only [Matrix.of_apply, gradMat, hv]
      split_ifs with a b
      · exact hc2 ((hκ y hy).add (hu y hy)) r s
      · rw [hadd, Matrix.add_apply, add_sub_cancel_left]
        exact hc2 (hu y hy) r s
      · exact hc2 (hκ y hy) r s
    · rw [indicator_of_notMem hy]
      refine (Finset.sum_eq_zero fun k _ => ?_).symm
      refine Matrix.det_eq_zero_of_column_eq_zero k fun r => ?_
      have h3 : v k k =ᶠ[𝓝 y] fun _ => 0 := notMem_tsupport_iff_eventuallyEq.1 fun h => hy (hU (hsub k h))
      simp only [gradMat, Matrix.of_apply]
      rw [(line_congr h3 r).1]
      simp [dz]
  have hi := fun k => integral_gradMat (v := v k) (U := U) k (hsm k) (hcs k) ((hsub k).trans hU)
  rw [heq]
  refine ⟨integrable_finsetSum _ fun k _ => (hi k).1, ?_⟩
  rw [integral_finsetSum _ fun k _ => (hi k).1]
  exact Finset.sum_eq_zero fun k _ => (hi k).2

end Cyjax.Spec
