import Verif.Lemmas.SphereLaw
import Verif.Props.Sphere
import Mathlib.MeasureTheory.Constructions.HaarToSphere
import Mathlib.MeasureTheory.Measure.Haar.InnerProductSpace

/-! # Property C145: `real_sphere` and `complex_sphere` are uniform on the sphere -/

namespace Cyjax

open MeasureTheory ProbabilityTheory Cyjax.Spec Cyjax.Random Set
open scoped ENNReal Pointwise

private theorem measurable_unitRow (n : ℕ) : Measurable (realSphere (n := n)) := by
  unfold realSphere
  fun_prop

/-- **C145.** The probability that a row of `real_sphere` lies in `A` is the share, in the volume of the unit
ball, of the vectors with direction in `A`. -/
theorem C145_real {n : ℕ} {A : Set (Fin n → ℝ)} (hA : MeasurableSet A) :
    (normalRow n).map realSphere A =
      volume {x : Fin n → ℝ | ∑ i, x i ^ 2 < 1 ∧ (fun i => x i / Real.sqrt (∑ j, x j ^ 2)) ∈ A} /
        volume {x : Fin n → ℝ | ∑ i, x i ^ 2 < 1} := by
  have hm := measurable_unitRow n hA
  have hc : IsConeSet (realSphere ⁻¹' A) := by
    intro r hr x
    have : realSphere (r • x) = realSphere x := by
      funext i
      simp only [realSphere, Pi.smul_apply, smul_eq_mul, mul_pow, ← Finset.mul_sum]
      rw [Real.sqrt_mul (sq_nonneg r), Real.sqrt_sq hr.le, mul_div_mul_left _ _ hr.ne']
    rw [mem_preimage, mem_preimage, this]
  rw [Measure.map_apply (measurable_unitRow n) hA, normalRow_cone_ratio hm hc, inter_comm]
  rfl

private theorem sphere_cvec {n : ℕ} (x : Fin (2 * n) → ℝ) :
    complexSphere x = fun i => cvec x i / (Real.sqrt (∑ j, ‖cvec x j‖ ^ 2) : ℂ) := by
  funext i
  rw [sum_cvec]
  simp only [complexSphere, realSphere, cvec]
  push_cast
  ring

/-- **C145.** The same for `complex_sphere` (and the homogeneous coordinates of `uniform_projective`). -/
theorem C145_complex {n : ℕ} {A : Set (Fin n → ℂ)} (hA : MeasurableSet A) :
    (normalRow (2 * n)).map complexSphere A =
      volume {z : Fin n → ℂ | ∑ i, ‖z i‖ ^ 2 < 1 ∧ (fun i => z i / (Real.sqrt (∑ j, ‖z j‖ ^ 2) : ℂ)) ∈ A} /
        volume {z : Fin n → ℂ | ∑ i, ‖z i‖ ^ 2 < 1} := by
  have hcv : Measurable (cvec (m := n)) := (continuous_cvec n).measurable
  have hcs : (complexSphere (n := n)) = cvec ∘ realSphere := rfl
  have hball : MeasurableSet {z : Fin n → ℂ | ∑ i, ‖z i‖ ^ 2 < 1} :=
    measurableSet_lt (by fun_prop) measurable_const
  have hdir : Measurable fun z : Fin n → ℂ => fun i => z i / (Real.sqrt (∑ j, ‖z j‖ ^ 2) : ℂ) := by
    fun_prop
  have hset : {z : Fin n → ℂ | ∑ i, ‖z i‖ ^ 2 < 1 ∧ (fun i => z i / (Real.sqrt (∑ j, ‖z j‖ ^ 2) : ℂ)) ∈ A} =
      {z : Fin n → ℂ | ∑ i, ‖z i‖ ^ 2 < 1} ∩ (fun z i => z i / (Real.sqrt (∑ j, ‖z j‖ ^ 2) : ℂ)) ⁻¹' A := rfl
  rw [hset, hcs, ← Measure.map_map hcv (measurable_unitRow _), Measure.map_apply hcv hA, C145_real (hcv hA),
    ← (volume_preserving_cvec n).measure_preimage hball.nullMeasurableSet,
    ← (volume_preserving_cvec n).measure_preimage (hball.inter (hdir hA)).nullMeasurableSet]
  congr 2
  · ext x
    simp only [mem_preimage, mem_inter_iff, Set.mem_ofPred_eq, sum_cvec]
    refine and_congr_right fun _ => ?_
    have h := sphere_cvec x
    rw [sum_cvec] at h
    rw [← h]
    rfl
  · ext x
    simp only [mem_preimage, Set.mem_ofPred_eq, sum_cvec]

/-- **C145.** In terms of the surface measure of the sphere: a row of `real_sphere` lies in the region `S` of the unit
sphere with probability area of `S` divided by the area of the sphere. -/
theorem C145_surface {n : ℕ} (hn : 0 < n) {S : Set (Metric.sphere (0 : EuclideanSpace ℝ (Fin n)) 1)}
    (hS : MeasurableSet S) :
    (normalRow n) {x | WithLp.toLp 2 (realSphere x) ∈ ((↑) '' S : Set (EuclideanSpace ℝ (Fin n)))} =
      (volume : Measure (EuclideanSpace ℝ (Fin n))).toSphere S /
        (volume : Measure (EuclideanSpace ℝ (Fin n))).toSphere univ := by
  have hA : MeasurableSet {y : Fin n → ℝ | WithLp.toLp 2 y ∈ ((↑) '' S : Set (EuclideanSpace ℝ (Fin n)))} := by
    have h1 : MeasurableSet ((↑) '' S : Set (EuclideanSpace ℝ (Fin n))) :=
      (MeasurableEmbedding.subtype_coe Metric.isClosed_sphere.measurableSet).measurableSet_image.2 hS
    exact (PiLp.volume_preserving_toLp (Fin n)).measurable h1
  have hlaw := C145_real hA
  rw [Measure.map_apply (measurable_unitRow n) hA] at hlaw
  have hnorm : ∀ x : Fin n → ℝ, ‖WithLp.toLp 2 x‖ = Real.sqrt (∑ i, x i ^ 2) := by
    intro x
    rw [EuclideanSpace.norm_eq]
    simp
  have hlt : ∀ x : Fin n → ℝ, ∑ i, x i ^ 2 < 1 ↔ ‖WithLp.toLp 2 x‖ < 1 := by
    intro x
    rw [hnorm, Real.sqrt_lt' one_pos, one_pow]
  have hball : WithLp.toLp 2 ⁻¹' Metric.ball (0 : EuclideanSpace ℝ (Fin n)) 1 = {x : Fin n → ℝ | ∑ i, x i ^ 2 < 1} := by
    ext x
    rw [mem_preimage, mem_ball_zero_iff, Set.mem_ofPred_eq, hlt]
  have hcone : WithLp.toLp 2 ⁻¹' (Ioo (0 : ℝ) 1 • ((↑) '' S : Set (EuclideanSpace ℝ (Fin n)))) =
      {x : Fin n → ℝ | ∑ i, x i ^ 2 < 1 ∧ (fun i => x i / Real.sqrt (∑ j, x j ^ 2)) ∈
        {y : Fin n → ℝ | WithLp.toLp 2 y ∈ ((↑) '' S : Set (EuclideanSpace ℝ (Fin n)))}} := by
    have hdir : ∀ x : Fin n → ℝ, WithLp.toLp 2 (fun i => x i / Real.sqrt (∑ j, x j ^ 2)) =
        ‖WithLp.toLp 2 x‖⁻¹ • WithLp.toLp 2 x := by
      intro x
      ext i
      simp [hnorm, div_eq_inv_mul]
    ext x
    rw [mem_preimage, Set.mem_ofPred_eq, Set.mem_ofPred_eq, hlt, hdir, Set.mem_smul]
    constructor
    · rintro ⟨r, hr, s, hs, h⟩
      obtain ⟨s', hs', rfl⟩ := hs
      have h1 : ‖(s' : EuclideanSpace ℝ (Fin n))‖ = 1 := by simp
      have h2 : ‖WithLp.toLp 2 x‖ = r := by
        rw [← h, norm_smul, h1, mul_one, Real.norm_of_nonneg hr.1.le]
      refine ⟨h2 ▸ hr.2, ?_⟩
      rw [h2, ← h, smul_smul, inv_mul_cancel₀ hr.1.ne', one_smul]
      exact ⟨s', hs', rfl⟩
    · rintro ⟨h1, h2⟩
      have h0 : ‖WithLp.toLp 2 x‖ ≠ 0 := by
        intro h0
        obtain ⟨s', -, h⟩ := h2
        have h3 : ‖(s' : EuclideanSpace ℝ (Fin n))‖ = 1 := by simp
        rw [h, h0] at h3
        simp at h3
      exact ⟨‖WithLp.toLp 2 x‖, ⟨lt_of_le_of_ne (norm_nonneg _) h0.symm, h1⟩, _, h2, by
        rw [smul_smul, mul_inv_cancel₀ h0, one_smul]⟩
  have hmc : MeasurableSet (Ioo (0 : ℝ) 1 • ((↑) '' S : Set (EuclideanSpace ℝ (Fin n)))) := by
    have h1 : MeasurableSet {x : Fin n → ℝ | ∑ i, x i ^ 2 < 1 ∧ (fun i => x i / Real.sqrt (∑ j, x j ^ 2)) ∈
        {y : Fin n → ℝ | WithLp.toLp 2 y ∈ ((↑) '' S : Set (EuclideanSpace ℝ (Fin n)))}} :=
      MeasurableSet.inter (s₁ := {x : Fin n → ℝ | ∑ i, x i ^ 2 < 1})
        (measurableSet_lt (f := fun x : Fin n → ℝ => ∑ i, x i ^ 2) (by fun_prop) measurable_const) (measurable_unitRow n hA)
    rw [← hcone] at h1
    exact (PiLp.volume_preserving_ofLp (Fin n)).measurable h1
  have hpre : {x : Fin n → ℝ | WithLp.toLp 2 (realSphere x) ∈ ((↑) '' S : Set (EuclideanSpace ℝ (Fin n)))} =
      realSphere ⁻¹' {y : Fin n → ℝ | WithLp.toLp 2 y ∈ ((↑) '' S : Set (EuclideanSpace ℝ (Fin n)))} := rfl
  rw [hpre, hlaw, Measure.toSphere_apply' _ hS, Measure.toSphere_apply_univ,
    ENNReal.mul_div_mul_left _ _ (by simp [hn.ne']) (by simp), ← hcone, ← hball,
    (PiLp.volume_preserving_toLp (Fin n)).measure_preimage hmc.nullMeasurableSet,
    (PiLp.volume_preserving_toLp (Fin n)).measure_preimage measurableSet_ball.nullMeasurableSet]

/-- In three dimensions a row lies in the upper half space and in the lower one with the same probability, which is not zero. -/
example : (normalRow 3).map realSphere {x | 0 < x 0} = (normalRow 3).map realSphere {x | x 0 < 0} ∧
    (normalRow 3).map realSphere {x | 0 < x 0} ≠ 0 := by
  have h1 : MeasurableSet {x : Fin 3 → ℝ | 0 < x 0} := measurableSet_lt measurable_const (measurable_pi_apply 0)
  have h2 : MeasurableSet {x : Fin 3 → ℝ | x 0 < 0} := measurableSet_lt (measurable_pi_apply 0) measurable_const
  have hs : ∀ x : Fin 3 → ℝ, x ≠ 0 → 0 < Real.sqrt (∑ j, x j ^ 2) := by
    intro x hx
    obtain ⟨k, hk⟩ := Function.ne_iff.mp hx
    exact Real.sqrt_pos.2 (Finset.sum_pos' (fun i _ => sq_nonneg _)
      ⟨k, Finset.mem_univ k, by have : x k ≠ 0 := hk; positivity⟩)
  have hp : {x : Fin 3 → ℝ | ∑ i, x i ^ 2 < 1 ∧ (fun i => x i / Real.sqrt (∑ j, x j ^ 2)) ∈ {x : Fin 3 → ℝ | 0 < x 0}} =
      {x | ∑ i, x i ^ 2 < 1} ∩ {x | 0 < x 0} := by
    ext x
    refine and_congr_right fun _ => ?_
    by_cases hx : x = 0
    · simp [hx]
    · exact div_pos_iff_of_pos_right (hs x hx)
  have hm : {x : Fin 3 → ℝ | ∑ i, x i ^ 2 < 1 ∧ (fun i => x i / Real.sqrt (∑ j, x j ^ 2)) ∈ {x : Fin 3 → ℝ | x 0 < 0}} =
      -({x | ∑ i, x i ^ 2 < 1} ∩ {x | 0 < x 0}) := by
    ext x
    simp only [Set.mem_neg, mem_inter_iff, Set.mem_ofPred_eq, Pi.neg_apply, neg_sq, Left.neg_pos_iff]
    refine and_congr_right fun _ => ?_
    by_cases hx : x = 0
    · simp [hx]
    · rw [div_lt_iff₀ (hs x hx), zero_mul]
  rw [C145_real h1, C145_real h2, hp, hm, Measure.measure_neg]
  refine ⟨rfl, ?_⟩
  have ho : IsOpen ({x : Fin 3 → ℝ | ∑ i, x i ^ 2 < 1} ∩ {x | 0 < x 0}) :=
    (isOpen_lt (by fun_prop) continuous_const).inter (isOpen_lt continuous_const (continuous_apply 0))
  have hpos := ho.measure_pos volume ⟨fun _ => 1 / 2, by simp [Fin.sum_univ_three]; norm_num⟩
  exact (ENNReal.div_pos hpos.ne' (volume_ball_lt_top 3).ne).ne'

end Cyjax
