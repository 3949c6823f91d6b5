import Verif.Lemmas.LossNormal
import Mathlib.Analysis.Calculus.FDeriv.Mul
import Mathlib.Analysis.Calculus.FDeriv.Comp
import Mathlib.Analysis.Matrix.Normed

/-! # The delta method, and the derivative of the inverse of a matrix -/

namespace Cyjax

open MeasureTheory ProbabilityTheory Set Filter Topology
open scoped ENNReal NNReal

section Delta

variable {Ω : Type*} [MeasurableSpace Ω] {P : Measure Ω} [IsProbabilityMeasure P] {ι : Type*} [Fintype ι]

/-- A differentiable function of means that are asymptotically normal, to first order. -/
theorem delta_method {Y : ℕ → Ω → ι → ℝ} {r : ℕ → ℝ} {m : ι → ℝ} {f : (ι → ℝ) → ℝ} {f' : (ι → ℝ) →L[ℝ] ℝ} (hfm : Measurable f)
    (hf : HasFDerivAt f f' m) (hYm : ∀ b, AEMeasurable (Y b) P) (hYt : ∀ᵐ ω ∂P, Tendsto (fun b => Y b ω) atTop (𝓝 m))
    (hU : ∀ i, ∃ v, TendstoInDistribution (fun b ω => r b * (Y b ω i - m i)) atTop id (fun _ => P) (gaussianReal 0 v)) {v : ℝ≥0}
    (hL : TendstoInDistribution (fun b ω => r b * f' (Y b ω - m)) atTop id (fun _ => P) (gaussianReal 0 v)) :
    TendstoInDistribution (fun b ω => r b * (f (Y b ω) - f m)) atTop id (fun _ => P) (gaussianReal 0 v) := by
  obtain ⟨B, hB⟩ : ∃ B : ι → (ι → ℝ) → ℝ, B = fun i y =>
    (f y - f m - f' (y - m)) * (y i - m i) / ∑ j, (y j - m j) ^ 2 := ⟨_, rfl⟩
  have hBm : ∀ i, Measurable (B i) := fun i => by
    rw [hB]
    have h1 : Measurable fun y : ι → ℝ => f' (y - m) := f'.measurable.comp (measurable_id.sub_const m)
    have h2 : Measurable fun y : ι → ℝ => ∑ j, (y j - m j) ^ 2 :=
      Finset.measurable_sum _ fun j _ => ((measurable_pi_apply j).sub_const _).pow_const 2
    exact (((hfm.sub_const _).sub h1).mul ((measurable_pi_apply i).sub_const _)).div h2
  have hBt : ∀ i, Tendsto (B i) (𝓝 m) (𝓝 0) := fun i => by
    rw [Metric.tendsto_nhds]
    intro ε hε
    have ho := (hf.isLittleO.def (half_pos hε))
    filter_upwards [ho] with y hy
    rw [Real.dist_eq, sub_zero, hB]
    have hS : ‖y - m‖ ^ 2 ≤ ∑ j, (y j - m j) ^ 2 := by
      by_cases h0 : ‖y - m‖ = 0
      · rw [h0]
        simpa using Finset.sum_nonneg fun j _ => sq_nonneg _
      have : Nonempty ι := ⟨i⟩
      obtain ⟨j, -, hj⟩ := Finset.exists_mem_eq_sup' (s := Finset.univ) Finset.univ_nonempty fun j => ‖(y - m) j‖₊
      have hj2 : ‖y - m‖ = ‖(y - m) j‖ := by
        refine le_antisymm ((pi_norm_le_iff_of_nonneg (norm_nonneg _)).2 fun k => ?_) (norm_le_pi_norm _ j)
        have : ‖(y - m) k‖₊ ≤ ‖(y - m) j‖₊ := by
          rw [← hj]
          exact Finset.le_sup' (fun j => ‖(y - m) j‖₊) (Finset.mem_univ k)
        exact_mod_cast this
      rw [hj2, Real.norm_eq_abs, sq_abs]
      exact Finset.single_le_sum (f := fun j => (y j - m j) ^ 2) (fun j _ => sq_nonneg _) (Finset.mem_univ j)
    by_cases h0 : ‖y - m‖ = 0
    · have : y = m := sub_eq_zero.1 (norm_eq_zero.1 h0)
      subst this
      simpa using hε
    have hpos : 0 < ‖y - m‖ := lt_of_le_of_ne (norm_nonneg _) (Ne.symm h0)
    have hSp : 0 < ∑ j, (y j - m j) ^ 2 := (pow_pos hpos 2).trans_le hS
    simp only
    rw [abs_div, abs_mul, abs_of_pos hSp, div_lt_iff₀ hSp]
    have h1 : |f y - f m - f' (y - m)| ≤ ε / 2 * ‖y - m‖ := hy
    have h2 : |y i - m i| ≤ ‖y - m‖ := norm_le_pi_norm (y - m) i
    calc _ ≤ (ε / 2 * ‖y - m‖) * ‖y - m‖ := mul_le_mul h1 h2 (abs_nonneg _) (by positivity)
      _ = ε / 2 * ‖y - m‖ ^ 2 := by ring
      _ ≤ ε / 2 * ∑ j, (y j - m j) ^ 2 := mul_le_mul_of_nonneg_left hS (half_pos hε).le
      _ < _ := mul_lt_mul_of_pos_right (half_lt_self hε) hSp
  have hstep : ∀ s : Finset ι, TendstoInDistribution (fun b ω => r b * f' (Y b ω - m) +
      ∑ i ∈ s, r b * (Y b ω i - m i) * B i (Y b ω)) atTop id (fun _ => P) (gaussianReal 0 v) := by
    classical
    intro s
    induction s using Finset.induction_on with
    | empty => simpa using hL
    | insert i s hi ih =>
      obtain ⟨vi, hvi⟩ := hU i
      have hBi : TendstoInMeasure P (fun b ω => B i (Y b ω)) atTop fun _ => 0 :=
        tendstoInMeasure_of_tendsto_ae (fun b => ((hBm i).comp_aemeasurable (hYm b)).aestronglyMeasurable)
          (hYt.mono fun ω hω => (hBt i).comp hω)
      have hz := slutsky_zero hvi hBi fun b => (hBm i).comp_aemeasurable (hYm b)
      have hsum := ih.add_of_tendstoInMeasure_const hz fun b =>
        (hvi.forall_aemeasurable b).mul ((hBm i).comp_aemeasurable (hYm b))
      refine hsum.congr (fun b => ?_) (Filter.Eventually.of_forall fun x => by simp)
      refine Filter.Eventually.of_forall fun ω => ?_
      simp only [Pi.add_apply]
      rw [Finset.sum_insert hi]
      ring
  refine (hstep Finset.univ).congr (fun b => ?_) EventuallyEq.rfl
  refine Filter.Eventually.of_forall fun ω => ?_
  simp only
  generalize Y b ω = y
  by_cases h0 : ∑ j, (y j - m j) ^ 2 = 0
  · have : y = m := by
      funext j
      have := (Finset.sum_eq_zero_iff_of_nonneg fun j _ => sq_nonneg (y j - m j)).1 h0 j (Finset.mem_univ j)
      exact sub_eq_zero.1 (pow_eq_zero_iff two_ne_zero |>.1 this)
    subst this
    simp
  · have e : ∀ i, r b * (y i - m i) * B i y = r b * (f y - f m - f' (y - m)) * ((y i - m i) ^ 2 / ∑ j, (y j - m j) ^ 2) := fun i => by
      rw [hB]
      ring
    simp only [e]
    rw [← Finset.mul_sum, ← Finset.sum_div, div_self h0]
    ring

/-- The delta method for the means over `b + 1` independent batches of `k` values each. -/
theorem delta_batches {T : ℕ → Ω → ι → ℝ} {k : ℕ} (hk : k ≠ 0) {m : ι → ℝ} (hT : ∀ j, MemLp (fun ω => T 0 ω j) 2 P)
    (hind : iIndepFun T P) (hid : ∀ i, IdentDistrib (T i) (T 0) P P) (hm : ∀ j, ∫ ω, T 0 ω j ∂P = k * m j)
    {f : (ι → ℝ) → ℝ} {f' : (ι → ℝ) →L[ℝ] ℝ} (hfm : Measurable f) (hf : HasFDerivAt f f' m) :
    TendstoInDistribution (fun (b : ℕ) ω => √((b + 1) * k : ℕ) *
        (f (fun j => (∑ i ∈ Finset.range (b + 1), T i ω j) / ((b + 1) * k : ℕ)) - f m)) atTop id
      (fun _ => P) (gaussianReal 0 (Var[fun ω => f' (T 0 ω); P] / k).toNNReal) := by
  classical
  have hk0 : (k : ℝ) ≠ 0 := by exact_mod_cast hk
  have hf'e : ∀ y : ι → ℝ, f' y = ∑ j, y j * f' (Pi.single j 1) := fun y => by
    conv_lhs => rw [pi_eq_sum_univ' y, map_sum]
    refine Finset.sum_congr rfl fun j _ => ?_
    rw [map_smul, smul_eq_mul]
  have hcomp : ∀ j, iIndepFun (fun i ω => T i ω j) P := fun j =>
    hind.comp (fun _ y => y j) fun _ => measurable_pi_apply j
  have hidj : ∀ j i, IdentDistrib (fun ω => T i ω j) (fun ω => T 0 ω j) P P := fun j i => (hid i).comp (measurable_pi_apply j)
  refine delta_method (Y := fun b ω j => (∑ i ∈ Finset.range (b + 1), T i ω j) / ((b + 1) * k : ℕ))
    (r := fun b => √((b + 1) * k : ℕ)) hfm hf (fun b => ?_) ?_
    (fun j => ⟨_, clt_batches hk (hT j) (hcomp j) (hidj j) (hm j)⟩) ?_
  · refine aemeasurable_pi_lambda _ fun j => ?_
    exact (Finset.aemeasurable_fun_sum _ fun i _ => (hidj j i).aemeasurable_fst).div_const _
  · have : ∀ᵐ ω ∂P, ∀ j, Tendsto (fun b : ℕ => (∑ i ∈ Finset.range (b + 1), T i ω j) / ((b + 1) * k : ℕ)) atTop (𝓝 (m j)) := by
      rw [ae_all_iff]
      intro j
      have hl := strong_law_ae_real (fun i ω => T i ω j) ((hT j).integrable one_le_two) (fun i i' h => (hcomp j).indepFun h) (hidj j)
      filter_upwards [hl] with ω hω
      rw [hm j] at hω
      have h2 := (hω.comp (tendsto_add_atTop_nat 1)).div_const (k : ℝ)
      rw [mul_div_cancel_left₀ _ hk0] at h2
      refine h2.congr fun b => ?_
      simp only [Function.comp_apply, Nat.cast_mul]
      rw [div_div]
    filter_upwards [this] with ω hω
    exact tendsto_pi_nhds.2 hω
  · have hl2 : MemLp (fun ω => f' (T 0 ω)) 2 P := by
      have : (fun ω => f' (T 0 ω)) = fun ω => ∑ j, T 0 ω j * f' (Pi.single j 1) := funext fun ω => hf'e _
      rw [this]
      exact memLp_finsetSum _ fun j _ => (hT j).mul_const _
    have hmean : ∫ ω, f' (T 0 ω) ∂P = k * f' m := by
      rw [hf'e m, integral_congr_ae (Filter.Eventually.of_forall fun ω => hf'e (T 0 ω)), integral_finsetSum _ fun j _ => ((hT j).integrable one_le_two).mul_const _, Finset.mul_sum]
      refine Finset.sum_congr rfl fun j _ => ?_
      rw [integral_mul_const, hm j]
      ring
    refine (clt_batches hk hl2 (hind.comp (fun _ y => f' y) fun _ => f'.measurable)
      (fun i => (hid i).comp f'.measurable) hmean).congr (fun b => ?_) EventuallyEq.rfl
    refine Filter.Eventually.of_forall fun ω => ?_
    simp only
    congr 1
    rw [map_sub]
    congr 1
    have : (fun j => (∑ i ∈ Finset.range (b + 1), T i ω j) / ((b + 1) * k : ℕ)) =
        (((b + 1) * k : ℕ) : ℝ)⁻¹ • ∑ i ∈ Finset.range (b + 1), T i ω := by
      funext j
      rw [Pi.smul_apply, Finset.sum_apply, smul_eq_mul, div_eq_inv_mul]
    rw [this, map_smul, map_sum, smul_eq_mul, div_eq_inv_mul]
    rfl

end Delta

section Inverse

variable {N : ℕ}

/-- The complex matrix with the given real and imaginary parts. -/
noncomputable def entryMatrix (N : ℕ) : (Fin N × Fin N × Bool → ℝ) →ₗ[ℝ] Matrix (Fin N) (Fin N) ℂ where
  toFun y := Matrix.of fun a c => (y (a, c, true) : ℂ) + (y (a, c, false) : ℂ) * Complex.I
  map_add' y z := by
    ext a c
    simp only [Pi.add_apply, Matrix.of_apply, Matrix.add_apply]
    push_cast
    ring
  map_smul' r y := by
    ext a c
    simp only [Pi.smul_apply, Matrix.of_apply, Matrix.smul_apply, smul_eq_mul, RingHom.id_apply, Complex.real_smul]
    push_cast
    ring

theorem entryMatrix_apply (y : Fin N × Fin N × Bool → ℝ) (a c : Fin N) :
    entryMatrix N y a c = (y (a, c, true) : ℂ) + (y (a, c, false) : ℂ) * Complex.I := rfl

/-- A real linear function of the transposed inverse of a matrix. -/
noncomputable def inverseFun (κ : ℂ) (M : Matrix (Fin N) (Fin N) ℂ) (y : Fin N × Fin N × Bool → ℝ) : ℝ :=
  (M * (κ • entryMatrix N y)⁻¹.transpose).trace.re

theorem measurable_inverseFun (κ : ℂ) (M : Matrix (Fin N) (Fin N) ℂ) : Measurable (inverseFun κ M) := by
  have hc : Continuous fun y => κ • entryMatrix N y :=
    continuous_pi fun a => continuous_pi fun c => by
      simp only [Matrix.smul_apply, entryMatrix_apply]
      fun_prop
  have e : inverseFun κ M = fun y => (∑ a, ∑ c, M a c *
      ((κ • entryMatrix N y).det⁻¹ * (κ • entryMatrix N y).adjugate a c)).re := by
    funext y
    unfold inverseFun
    rw [Matrix.trace]
    simp only [Matrix.diag_apply, Matrix.mul_apply, Matrix.transpose_apply, Matrix.inv_def, Ring.inverse_eq_inv', Matrix.smul_apply,
      smul_eq_mul]
  rw [e]
  refine Complex.measurable_re.comp (Finset.measurable_sum _ fun a _ => Finset.measurable_sum _ fun c _ => ?_)
  have h1 : Measurable fun y => (κ • entryMatrix N y).det := (Continuous.matrix_det hc).measurable
  have h2 : Measurable fun y => (κ • entryMatrix N y).adjugate a c :=
    ((Continuous.matrix_adjugate hc).matrix_elem a c).measurable
  exact (h1.inv.mul h2).const_mul _

open scoped Matrix.Norms.Operator in
theorem hasFDerivAt_inverseFun (κ : ℂ) (M : Matrix (Fin N) (Fin N) ℂ) (m : Fin N × Fin N × Bool → ℝ)
    (hdet : (κ • entryMatrix N m).det ≠ 0) :
    ∃ f' : (Fin N × Fin N × Bool → ℝ) →L[ℝ] ℝ, HasFDerivAt (inverseFun κ M) f' m ∧
      ∀ y, f' y = -(M * ((κ • entryMatrix N m)⁻¹.transpose * (κ • entryMatrix N y).transpose *
        (κ • entryMatrix N m)⁻¹.transpose)).trace.re := by
  obtain ⟨E, hE⟩ : ∃ E : (Fin N × Fin N × Bool → ℝ) →L[ℝ] Matrix (Fin N) (Fin N) ℂ, ∀ y, E y = κ • entryMatrix N y :=
    ⟨LinearMap.toContinuousLinearMap ((κ • LinearMap.id (R := ℂ) (M := Matrix (Fin N) (Fin N) ℂ)).restrictScalars ℝ ∘ₗ entryMatrix N),
      fun y => rfl⟩
  obtain ⟨R, hR⟩ : ∃ R : Matrix (Fin N) (Fin N) ℂ →L[ℝ] ℝ, ∀ A, R A = (M * A.transpose).trace.re :=
    ⟨LinearMap.toContinuousLinearMap
      { toFun := fun A => (M * A.transpose).trace.re
        map_add' := fun A B => by simp [Matrix.mul_add]
        map_smul' := fun r A => by
          rw [Matrix.transpose_smul, Matrix.mul_smul, Matrix.trace_smul, RingHom.id_apply, Complex.real_smul, Complex.re_ofReal_mul,
            smul_eq_mul] }, fun A => rfl⟩
  obtain ⟨u, hu⟩ := (Matrix.isUnit_iff_isUnit_det _).2 (isUnit_iff_ne_zero.2 hdet)
  have hui : (↑u⁻¹ : Matrix (Fin N) (Fin N) ℂ) = (κ • entryMatrix N m)⁻¹ := by
    rw [← hu, Matrix.coe_units_inv]
  have h1 := hasFDerivAt_ringInverse (𝕜 := ℝ) u
  have h2 : HasFDerivAt (fun y => E y) E m := E.hasFDerivAt
  rw [hu, ← hE] at h1
  have h3 := HasFDerivAt.comp m h1 h2
  have h4 := R.hasFDerivAt.comp m h3
  refine ⟨_, h4.congr_of_eventuallyEq (Filter.Eventually.of_forall fun y => ?_), fun y => ?_⟩
  · simp only [Function.comp_apply]
    rw [hR, hE, ← Matrix.nonsing_inv_eq_ringInverse]
    rfl
  · change R (-((↑u⁻¹ : Matrix (Fin N) (Fin N) ℂ) * E y * (↑u⁻¹ : Matrix (Fin N) (Fin N) ℂ))) = _
    rw [map_neg, hR, hE, hui, Matrix.transpose_mul, Matrix.transpose_mul, Matrix.mul_assoc]

end Inverse

end Cyjax
