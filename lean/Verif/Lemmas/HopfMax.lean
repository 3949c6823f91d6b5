import Mathlib.Analysis.Calculus.ContDiff.Operations
import Mathlib.Analysis.Calculus.DerivativeTest
import Mathlib.Analysis.Calculus.FDeriv.Mul
import Mathlib.Analysis.SpecialFunctions.ExpDeriv
import Mathlib.Analysis.Calculus.LocalExtr.Basic
import Mathlib.Analysis.Normed.Module.FiniteDimension
import Mathlib.Analysis.Normed.Operator.Mul
import Mathlib.Analysis.Normed.Operator.BoundedLinearMaps
import Mathlib.Topology.MetricSpace.ProperSpace.Lemmas

/-! # The strong maximum principle for elliptic operators of second order (for C151) -/

namespace Cyjax.Spec

open Filter Topology Set

/-- The second derivative at a local maximum. -/
theorem deriv2_nonpos {h : ℝ → ℝ} (hc : ContinuousAt h 0) (hm : IsLocalMax h 0) :
    deriv (deriv h) 0 ≤ 0 := by
  by_contra hpos
  rw [not_le] at hpos
  have h1 := isLocalMin_of_deriv_deriv_pos hpos hm.deriv_eq_zero hc
  have h2 : h =ᶠ[𝓝 0] fun _ => h 0 := by
    filter_upwards [hm, h1] with t h3 h4
    exact le_antisymm h3 h4
  have h3 : deriv h =ᶠ[𝓝 0] fun _ => 0 := by
    filter_upwards [h2.eventuallyEq_nhds] with t ht
    rw [ht.deriv_eq, deriv_const]
  rw [h3.deriv_eq, deriv_const] at hpos
  exact lt_irrefl _ hpos

variable {V : Type*} [NormedAddCommGroup V] [NormedSpace ℝ V]

theorem hessian_nonpos {f : V → ℝ} {w : V} (hf : ContDiffAt ℝ 2 f w) (hm : IsLocalMax f w) (a : V) :
    fderiv ℝ (fderiv ℝ f) w a a ≤ 0 := by
  have hline : ∀ t : ℝ, HasDerivAt (fun t : ℝ => w + t • a) a t := by
    intro t
    have := ((hasDerivAt_id t).smul_const a).const_add w
    simpa using this
  have hcont : ContinuousAt (fun t : ℝ => w + t • a) 0 := (hline 0).continuousAt
  have h0 : w + (0 : ℝ) • a = w := by simp
  have hd : DifferentiableAt ℝ (fderiv ℝ f) w := (hf.fderiv_right (m := 1) (by norm_num)).differentiableAt (by norm_num)
  have hev : ∀ᶠ t in 𝓝 (0 : ℝ), ContDiffAt ℝ 2 f (w + t • a) := by
    have h1 : ∀ᶠ z in 𝓝 (w + (0 : ℝ) • a), ContDiffAt ℝ 2 f z := by
      rw [h0]
      exact hf.eventually (by norm_num)
    exact hcont.eventually h1
  have hderiv : deriv (fun t : ℝ => f (w + t • a)) =ᶠ[𝓝 0] fun t => fderiv ℝ f (w + t • a) a := by
    filter_upwards [hev] with t ht
    exact ((ht.differentiableAt (by norm_num)).hasFDerivAt.comp_hasDerivAt t (hline t)).deriv
  have h2 : HasDerivAt (fun t : ℝ => fderiv ℝ f (w + t • a) a) (fderiv ℝ (fderiv ℝ f) w a a) 0 := by
    have h3 : HasFDerivAt (fun z => fderiv ℝ f z a) ((fderiv ℝ (fderiv ℝ f) w).flip a) (w + (0 : ℝ) • a) := by
      rw [h0]
      have h := hd.hasFDerivAt.clm_apply (hasFDerivAt_const a w)
      simpa using h
    exact h3.comp_hasDerivAt (0 : ℝ) (hline 0)
  have h3 : HasDerivAt (deriv fun t : ℝ => f (w + t • a)) (fderiv ℝ (fderiv ℝ f) w a a) 0 :=
    h2.congr_of_eventuallyEq hderiv
  rw [← h3.deriv]
  refine deriv2_nonpos ?_ ?_
  · exact ContinuousAt.comp (g := f) (f := fun t : ℝ => w + t • a) (by rw [h0]; exact hf.continuousAt) hcont
  · have h4 : ∀ᶠ z in 𝓝 (w + (0 : ℝ) • a), f z ≤ f w := by
      rw [h0]
      exact hm
    filter_upwards [hcont.eventually h4] with t ht
    simpa using ht

/-- The barrier. -/
noncomputable def barrier (q : V →L[ℝ] V →L[ℝ] ℝ) (α : ℝ) (y z : V) : ℝ := Real.exp (-α * q (z - y) (z - y))

section Barrier

variable (q : V →L[ℝ] V →L[ℝ] ℝ) (hsym : ∀ a b, q a b = q b a) (α : ℝ) (y : V)

theorem hasFDerivAt_quad (z : V) : HasFDerivAt (fun z => q (z - y) (z - y)) (q (z - y) + q.flip (z - y)) z := by
  have h1 : HasFDerivAt (fun z => z - y) (ContinuousLinearMap.id ℝ V) z := (hasFDerivAt_id z).sub_const y
  have h2 : HasFDerivAt (fun z => q (z - y)) q z := by
    have := q.hasFDerivAt.comp z h1
    rw [ContinuousLinearMap.comp_id] at this
    exact this
  have h3 := h2.clm_apply h1
  simpa using h3

include hsym

theorem fderiv_barrier (z : V) :
    HasFDerivAt (barrier q α y) ((-2 * α * barrier q α y z) • q (z - y)) z := by
  have h1 := ((hasFDerivAt_quad q y z).const_mul (-α)).exp
  refine h1.congr_fderiv ?_
  ext a
  simp only [_root_.smul_apply, _root_.add_apply, ContinuousLinearMap.flip_apply, smul_eq_mul,
    hsym a (z - y), barrier]
  ring

theorem fderiv2_barrier (z : V) : fderiv ℝ (fderiv ℝ (barrier q α y)) z =
    barrier q α y z • ((4 * α ^ 2) • (q (z - y)).smulRight (q (z - y)) - (2 * α) • q) := by
  have h0 : fderiv ℝ (barrier q α y) = fun z => (-2 * α * barrier q α y z) • q (z - y) :=
    funext fun z => (fderiv_barrier q hsym α y z).fderiv
  have h1 : HasFDerivAt (fun z => z - y) (ContinuousLinearMap.id ℝ V) z := (hasFDerivAt_id z).sub_const y
  have h2 : HasFDerivAt (fun z => q (z - y)) q z := by
    have := q.hasFDerivAt.comp z h1
    rw [ContinuousLinearMap.comp_id] at this
    exact this
  have h3 := ((fderiv_barrier q hsym α y z).const_mul (-2 * α)).smul h2
  rw [h0]
  refine Eq.trans h3.fderiv ?_
  ext a b
  simp only [_root_.smul_apply, _root_.add_apply, _root_.sub_apply, smul_eq_mul,
    ContinuousLinearMap.smulRight_apply]
  ring

omit hsym in
theorem contDiff_barrier : ContDiff ℝ 2 (barrier q α y) := by
  unfold barrier
  have h1 : ContDiff ℝ 2 fun z : V => z - y := contDiff_id.sub contDiff_const
  exact (contDiff_const.mul ((q.contDiff.comp h1).clm_apply h1)).exp

end Barrier

/-- An operator of second order without lower terms: a linear combination of entries of the second derivative. -/
noncomputable def traceForm {ι : Type*} [Fintype ι] (c : ι → ℝ) (a b : ι → V) (B : V →L[ℝ] V →L[ℝ] ℝ) : ℝ := ∑ i, c i * B (a i) (b i)

variable {ι : Type*} [Fintype ι]

theorem traceForm_comb (c : ι → ℝ) (a b : ι → V) (s t : ℝ) (B B' : V →L[ℝ] V →L[ℝ] ℝ) :
    traceForm c a b (s • B + t • B') = s * traceForm c a b B + t * traceForm c a b B' := by
  simp only [traceForm, Finset.mul_sum, ← Finset.sum_add_distrib]
  refine Finset.sum_congr rfl fun i _ => ?_
  simp only [_root_.add_apply, _root_.smul_apply, smul_eq_mul]
  ring

theorem choose_exponent {S Q : ℝ} (hS : 0 < S) : ∃ α : ℝ, 0 < α ∧ 0 < 4 * α ^ 2 * S - 2 * α * Q := by
  refine ⟨(|Q| + 1) / S, by positivity, ?_⟩
  have h1 : 4 * ((|Q| + 1) / S) ^ 2 * S - 2 * ((|Q| + 1) / S) * Q = 2 * ((|Q| + 1) / S) * (2 * (|Q| + 1) - Q) := by
    field_simp
    ring
  rw [h1]
  have h2 : 0 < 2 * (|Q| + 1) - Q := by
    have := le_abs_self Q
    have := abs_nonneg Q
    linarith
  positivity

/-- The strong maximum principle (Hopf). The operator is `u ↦ ∑ i, c z i * D²u z (a i) (b i)`. -/
theorem strong_max [FiniteDimensional ℝ V] (q : V →L[ℝ] V →L[ℝ] ℝ) (hsym : ∀ a b, q a b = q b a) (C : ℝ)
    (hq1 : ∀ a, ‖a‖ ^ 2 ≤ q a a) (hq2 : ∀ a, q a a ≤ C * ‖a‖ ^ 2) (c : V → ι → ℝ) (e f : ι → V) {u : V → ℝ} {x : V}
    (hs : ∀ᶠ y in 𝓝 x, ContDiffAt ℝ 2 u y) (hc : ∀ᶠ y in 𝓝 x, ∀ i, ContinuousAt (fun z => c z i) y)
    (hneg : ∀ᶠ y in 𝓝 x, ∀ B, (∀ a, B a a ≤ 0) → traceForm (c y) e f B ≤ 0)
    (hpos : ∀ᶠ y in 𝓝 x, ∀ g : V →L[ℝ] ℝ, g ≠ 0 → 0 < traceForm (c y) e f (g.smulRight g))
    (hL : ∀ᶠ y in 𝓝 x, 0 ≤ traceForm (c y) e f (fderiv ℝ (fderiv ℝ u) y)) (hm : ∀ᶠ y in 𝓝 x, u y ≤ u x) :
    ∀ᶠ y in 𝓝 x, u y = u x := by
  have hprop : ProperSpace V := FiniteDimensional.proper_real V
  obtain ⟨R, hR, hball⟩ := Metric.eventually_nhds_iff.1 (hs.and (hc.and (hneg.and (hpos.and (hL.and hm)))))
  set M := u x with hM
  have hqnn : ∀ a, 0 ≤ q a a := fun a => (sq_nonneg _).trans (hq1 a)
  have hqpos : ∀ a, a ≠ 0 → 0 < q a a := fun a ha => lt_of_lt_of_le (by have := norm_pos_iff.2 ha; positivity) (hq1 a)
  set C' := max C 1 with hC'
  have hC1 : 1 ≤ C' := le_max_right _ _
  have hq2' : ∀ a, q a a ≤ C' ^ 2 * ‖a‖ ^ 2 := fun a => (hq2 a).trans (by
    refine mul_le_mul_of_nonneg_right ?_ (sq_nonneg _)
    exact (le_max_left C 1).trans (by nlinarith))
  -- the radius in which `u` is shown to be constant
  set r := R / (4 * C') with hr
  have hr0 : 0 < r := by positivity
  have hrR : C' * r = R / 4 := by rw [hr]; field_simp
  refine Metric.eventually_nhds_iff.2 ⟨r, hr0, fun y hy => ?_⟩
  by_contra hne
  have hrR' : r ≤ R / 4 := by rw [← hrR]; nlinarith
  have huc : ContinuousOn u (Metric.closedBall x (R / 2)) := fun z hz =>
    ((hball (y := z) (by rw [Metric.mem_closedBall] at hz; linarith)).1.continuousAt).continuousWithinAt
  -- the nearest point where the maximum is attained
  set K := Metric.closedBall x (R / 2) ∩ {z | u z = M} with hK
  have hKc : IsCompact K := by
    refine (isCompact_closedBall x (R / 2)).of_isClosed_subset ?_ inter_subset_left
    exact huc.preimage_isClosed_of_isClosed Metric.isClosed_closedBall isClosed_singleton
  have hxK : x ∈ K := ⟨Metric.mem_closedBall_self (by positivity), rfl⟩
  have hcq : ∀ p : V, Continuous fun z => q (z - p) (z - p) := fun p =>
    (q.continuous.comp (continuous_id.sub continuous_const)).clm_apply (continuous_id.sub continuous_const)
  obtain ⟨w, hwK, hwmin⟩ := hKc.exists_isMinOn ⟨x, hxK⟩ (hcq y).continuousOn
  have hwy : w ≠ y := fun h => hne (by rw [← h]; exact hwK.2)
  have hdist : ‖w - y‖ ≤ R / 4 := by
    have h1 : q (w - y) (w - y) ≤ q (x - y) (x - y) := hwmin hxK
    have h2 : ‖w - y‖ ^ 2 ≤ (C' * ‖x - y‖) ^ 2 := by
      rw [mul_pow]
      exact (hq1 _).trans (h1.trans (hq2' _))
    have h3 : ‖w - y‖ ≤ C' * ‖x - y‖ := by
      exact le_of_abs_le (abs_le_of_sq_le_sq h2 (by positivity))
    rw [dist_comm, dist_eq_norm] at hy
    refine h3.trans ?_
    rw [← hrR]
    exact mul_le_mul_of_nonneg_left hy.le (by linarith)
  have hwx : dist w x < R / 2 := by
    calc dist w x ≤ dist w y + dist y x := dist_triangle _ _ _
      _ < R / 4 + R / 4 := by
        rw [dist_eq_norm w y]
        linarith
      _ = R / 2 := by ring
  -- the centre of the barrier
  set y' := (2 : ℝ)⁻¹ • (y + w) with hy'
  set a := w - y' with ha
  have ha2 : w - y = (2 : ℝ) • a := by
    rw [ha, hy', smul_sub, smul_smul]
    norm_num
    rw [two_smul]
    abel
  have ha0 : a ≠ 0 := fun h => hwy (sub_eq_zero.1 (by rw [ha2, h, smul_zero]))
  have hinside : ∀ z, dist z x ≤ R / 2 → z ≠ w → q (z - y') (z - y') ≤ q a a → u z < M := by
    intro z hz hzw hqz
    have hle : u z ≤ M := (hball (y := z) (by linarith)).2.2.2.2.2
    refine lt_of_le_of_ne hle fun heq => ?_
    have h1 : q (w - y) (w - y) ≤ q (z - y) (z - y) := hwmin ⟨Metric.mem_closedBall.2 hz, heq⟩
    set b := z - y' with hb
    have hzy : z - y = b + a := by
      have : z - y = b - a + (w - y) := by rw [hb, ha]; abel
      rw [this, ha2, two_smul]
      abel
    have hab : a - b ≠ 0 := by
      rw [ha, hb]
      intro h
      apply hzw
      have : w - z = 0 := by rw [← h]; abel
      exact (sub_eq_zero.1 this).symm
    have h2 := hqpos _ hab
    rw [ha2, hzy] at h1
    simp only [map_add, map_sub, map_smul, _root_.add_apply, _root_.sub_apply,
      _root_.smul_apply, smul_eq_mul, hsym b a] at h1 h2
    linarith
  -- parameters
  obtain ⟨hws, hwc, hwneg, hwpos, -⟩ := hball (y := w) (by linarith)
  have hqa : q (w - y') ≠ 0 := fun h => by
    have := hqpos a ha0
    rw [ha, h] at this
    simp at this
  have htens := hwpos _ hqa
  obtain ⟨α, hα0, hα⟩ := choose_exponent (Q := traceForm (c w) e f q) htens
  have hcontL : ContinuousAt (fun z => 4 * α ^ 2 * traceForm (c z) e f ((q (z - y')).smulRight (q (z - y'))) -
      2 * α * traceForm (c z) e f q) w := by
    have h1 : Continuous fun z => q (z - y') := q.continuous.comp (continuous_id.sub continuous_const)
    have h2 : ∀ p : V, Continuous fun z => q (z - y') p := fun p => h1.clm_apply continuous_const
    simp only [traceForm, ContinuousLinearMap.smulRight_apply, _root_.smul_apply, smul_eq_mul]
    refine (continuousAt_const.mul (tendsto_finsetSum _ fun i _ => ?_)).sub
      (continuousAt_const.mul (tendsto_finsetSum _ fun i _ => ?_))
    · exact (hwc i).mul ((h2 _).continuousAt.mul (h2 _).continuousAt)
    · exact (hwc i).mul continuousAt_const
  have hnear : ∀ᶠ z in 𝓝 w, dist z x < R / 2 ∧
      0 < traceForm (c z) e f (fderiv ℝ (fderiv ℝ (barrier q α y')) z) := by
    have h1 : ∀ᶠ z in 𝓝 w, dist z x < R / 2 := (continuous_id.dist continuous_const).continuousAt.eventually_lt
      continuousAt_const hwx
    filter_upwards [h1, hcontL.eventually_const_lt hα] with z h2 h3
    refine ⟨h2, ?_⟩
    have h4 : fderiv ℝ (fderiv ℝ (barrier q α y')) z =
        (barrier q α y' z * (4 * α ^ 2)) • (q (z - y')).smulRight (q (z - y')) + (-(barrier q α y' z * (2 * α))) • q := by
      rw [fderiv2_barrier q hsym]
      ext a b
      simp only [_root_.smul_apply, _root_.add_apply, _root_.sub_apply, smul_eq_mul, ContinuousLinearMap.smulRight_apply]
      ring
    rw [h4, traceForm_comb]
    have h5 := mul_pos (Real.exp_pos (-α * q (z - y') (z - y'))) h3
    rw [← barrier] at h5
    linarith
  obtain ⟨δ₀, hδ₀, hδ⟩ := Metric.eventually_nhds_iff.1 hnear
  set δ := δ₀ / 2 with hδdef
  have hδ0 : 0 < δ := by positivity
  have hcl : ∀ z ∈ Metric.closedBall w δ, dist z x < R / 2 ∧ 0 < traceForm (c z) e f (fderiv ℝ (fderiv ℝ (barrier q α y')) z) :=
    fun z hz => hδ (by rw [Metric.mem_closedBall] at hz; linarith)
  set v := fun z => barrier q α y' z - barrier q α y' w with hv
  have hvcont : Continuous v := ((contDiff_barrier q α y').continuous).sub continuous_const
  have hucl : ContinuousOn u (Metric.closedBall w δ) := huc.mono fun z hz => (hcl z hz).1.le
  -- the size of the perturbation
  set S₁ := Metric.sphere w δ ∩ {z | q (z - y') (z - y') ≤ q a a} with hS₁
  have hS₁c : IsCompact S₁ := (isCompact_sphere w δ).inter_right (isClosed_le (hcq y') continuous_const)
  have hb1 : ∀ z, barrier q α y' z ≤ 1 := by
    intro z
    rw [barrier, Real.exp_le_one_iff]
    nlinarith [hqnn (z - y')]
  have hvle : ∀ z, v z ≤ 1 := by
    intro z
    have := hb1 z
    have h2 : 0 < barrier q α y' w := Real.exp_pos _
    simp only [hv]
    linarith
  obtain ⟨ε, hε, hε1⟩ : ∃ ε > 0, ∀ z ∈ S₁, u z + ε * v z < M := by
    rcases S₁.eq_empty_or_nonempty with he | hne'
    · exact ⟨1, one_pos, fun z hz => by rw [he] at hz; exact absurd hz (notMem_empty z)⟩
    · obtain ⟨z₁, hz₁, hmax⟩ := hS₁c.exists_isMaxOn hne'
        (hucl.mono (inter_subset_left.trans Metric.sphere_subset_closedBall))
      have h1 : u z₁ < M := hinside z₁ (hcl z₁ (Metric.sphere_subset_closedBall hz₁.1)).1.le
        (fun h => by
          have h3 := hz₁.1
          rw [h, Metric.mem_sphere, dist_self] at h3
          linarith) hz₁.2
      refine ⟨(M - u z₁) / 2, by linarith, fun z hz => ?_⟩
      have h2 : u z ≤ u z₁ := hmax hz
      have h3 := mul_le_mul_of_nonneg_left (hvle z) (show 0 ≤ (M - u z₁) / 2 by linarith)
      linarith
  have hsphere : ∀ z ∈ Metric.sphere w δ, u z + ε * v z < M := by
    intro z hz
    by_cases hqz : q (z - y') (z - y') ≤ q a a
    · exact hε1 z ⟨hz, hqz⟩
    · rw [not_le] at hqz
      have h1 : v z < 0 := by
        simp only [hv, barrier, sub_neg, Real.exp_lt_exp]
        rw [← ha]
        nlinarith
      have h2 : u z ≤ M := (hball (y := z) (by linarith [(hcl z (Metric.sphere_subset_closedBall hz)).1])).2.2.2.2.2
      nlinarith
  obtain ⟨w₁, hw₁, hmax⟩ := (isCompact_closedBall w δ).exists_isMaxOn ⟨w, Metric.mem_closedBall_self hδ0.le⟩
    (hucl.add (continuous_const.mul hvcont).continuousOn : ContinuousOn (fun z => u z + ε * v z) _)
  have hval : M ≤ u w₁ + ε * v w₁ := by
    have h1 : u w + ε * v w ≤ u w₁ + ε * v w₁ := hmax (Metric.mem_closedBall_self hδ0.le)
    have h2 : u w = M := hwK.2
    rw [h2] at h1
    simpa [hv] using h1
  have hw₁b : w₁ ∈ Metric.ball w δ := by
    rw [Metric.mem_ball]
    refine lt_of_le_of_ne (Metric.mem_closedBall.1 hw₁) fun h => ?_
    exact absurd hval (not_le.2 (hsphere w₁ (Metric.mem_sphere.2 h)))
  have hlocal : IsLocalMax (fun z => u z + ε * v z) w₁ := by
    filter_upwards [Metric.isOpen_ball.mem_nhds hw₁b] with z hz
    exact hmax (Metric.ball_subset_closedBall hz)
  obtain ⟨hd1, -, hn1, -, hL1, -⟩ := hball (y := w₁) (by linarith [(hcl w₁ hw₁).1])
  have hvs : ContDiffAt ℝ 2 v w₁ := (contDiff_barrier q α y').contDiffAt.sub contDiffAt_const
  have hf : ContDiffAt ℝ 2 (fun z => u z + ε * v z) w₁ := hd1.add (contDiffAt_const.mul hvs)
  have hfd : fderiv ℝ (fderiv ℝ (fun z => u z + ε * v z)) w₁ =
      fderiv ℝ (fderiv ℝ u) w₁ + ε • fderiv ℝ (fderiv ℝ (barrier q α y')) w₁ := by
    have h1 : fderiv ℝ (fun z => u z + ε * v z) =ᶠ[𝓝 w₁] fun z => fderiv ℝ u z + ε • fderiv ℝ (barrier q α y') z := by
      filter_upwards [hd1.eventually (by norm_num)] with z hz
      have h2 : HasFDerivAt v (fderiv ℝ (barrier q α y') z) z :=
        (((contDiff_barrier q α y').differentiable (by norm_num)) z).hasFDerivAt.sub_const _
      exact ((hz.differentiableAt (by norm_num)).hasFDerivAt.add (h2.const_mul ε)).fderiv
    rw [h1.fderiv_eq]
    have h3 : DifferentiableAt ℝ (fderiv ℝ u) w₁ := (hd1.fderiv_right (m := 1) (by norm_num)).differentiableAt (by norm_num)
    have h4 : DifferentiableAt ℝ (fderiv ℝ (barrier q α y')) w₁ :=
      (((contDiff_barrier q α y').contDiffAt (x := w₁)).fderiv_right (m := 1) (by norm_num)).differentiableAt (by norm_num)
    exact (h3.hasFDerivAt.add (h4.hasFDerivAt.const_smul ε)).fderiv
  have h1 := hn1 _ (hessian_nonpos hf hlocal)
  rw [hfd] at h1
  have h3 := traceForm_comb (c w₁) e f 1 ε (fderiv ℝ (fderiv ℝ u) w₁) (fderiv ℝ (fderiv ℝ (barrier q α y')) w₁)
  rw [one_smul, one_mul] at h3
  rw [h3] at h1
  have h2 := (hcl w₁ hw₁).2
  nlinarith

end Cyjax.Spec
