import Verif.Lemmas.ProjectiveLaw
import Verif.Lemmas.EtaMeasure

/-! # C135: the distribution of `uniform_projective` -/

namespace Cyjax

open MeasureTheory Cyjax.Projective Cyjax.Random Cyjax.Spec Set
open scoped ENNReal

variable {n : ℕ}

private theorem measurable_density : Measurable fun z : Fin n → ℂ =>
    ENNReal.ofReal (n.factorial / Real.pi ^ n * (fsMetricAt z).det.re) := by
  simp only [fsMetricAt_det, Complex.ofReal_re]
  fun_prop

private theorem cnormal_ne (m : ℕ) : ∀ᵐ x ∂normalRow (2 * (m + 1)), cvec x ≠ 0 := by
  have h := cnormal_ne_zero (MvPolynomial.X (0 : Fin (m + 1)) : MvPolynomial (Fin (m + 1)) ℂ) (MvPolynomial.X_ne_zero _)
  filter_upwards [ae_of_ae_map (continuous_cvec (m + 1)).measurable.aemeasurable h] with x hx h0
  rw [h0] at hx
  simp at hx

private theorem law_core (p : Fin (n + 1)) {φ : (Fin n → ℂ) → ℝ≥0∞} (hφ : Measurable φ) :
    ∫⁻ x, φ (homToAffine (uniformProjectiveHom x) (p : ℕ)) ∂normalRow (2 * (n + 1)) =
      ∫⁻ z, φ z * ENNReal.ofReal (n.factorial / Real.pi ^ n * (fsMetricAt z).det.re) := by
  simp only [fsMetricAt_det, Complex.ofReal_re]
  have hm : Measurable fun Z : Fin (n + 1) → ℂ => φ fun k => Z (p.succAbove k) / Z p :=
    hφ.comp (f := fun (Z : Fin (n + 1) → ℂ) k => Z (p.succAbove k) / Z p) (by fun_prop)
  rw [← lintegral_quotients p hφ, cnormal, lintegral_map hm (continuous_cvec (n + 1)).measurable]
  refine lintegral_congr_ae ?_
  filter_upwards [cnormal_ne n] with x hx
  congr 1
  funext k
  obtain ⟨r, hr, hs⟩ := complexSphere_eq x hx
  rw [homToAffine_apply]
  unfold uniformProjectiveHom
  rw [hs, mul_div_mul_left _ _ hr]

private theorem measurable_sphere (m : ℕ) : Measurable (complexSphere (n := m)) := by
  unfold complexSphere realSphere
  fun_prop

private theorem measurable_affine (p : Fin (n + 1)) :
    Measurable fun x : Fin (2 * (n + 1)) → ℝ => homToAffine (uniformProjectiveHom x) (p : ℕ) := by
  refine measurable_pi_iff.2 fun k => ?_
  simp only [homToAffine_apply]
  have h := measurable_sphere (n + 1)
  exact ((measurable_pi_apply _).comp h).div ((measurable_pi_apply _).comp h)

/-- **C135.** The points of `uniform_projective` are uniform with respect to the Fubini–Study metric: in every affine patch
their coordinates have the density `n!/π^n det g`, with the metric `g` that `fs_metric` returns. -/
theorem C135_density (p : Fin (n + 1)) :
    (normalRow (2 * (n + 1))).map (fun x => homToAffine (uniformProjectiveHom x) (p : ℕ)) =
      volume.withDensity fun z => ENNReal.ofReal (n.factorial / Real.pi ^ n * (fsMetricAt z).det.re) := by
  have hm : Measurable fun x : Fin (2 * (n + 1)) → ℝ => homToAffine (uniformProjectiveHom x) (p : ℕ) :=
    measurable_affine p
  ext S hS
  rw [Measure.map_apply hm hS, withDensity_apply _ hS, ← lintegral_indicator_one (hm hS), ← lintegral_indicator hS]
  have := law_core p (φ := S.indicator 1) (measurable_one.indicator hS)
  refine this.trans (lintegral_congr fun z => ?_)
  by_cases hz : z ∈ S
  · simp [hz]
  · simp [hz]

/-- **C135.** With `affine=True` the patch is that of the largest coordinate: in each patch the returned coordinates have
the same density, restricted to the polydisc `|z_k| ≤ 1`. -/
theorem C135_patch (p : Fin (n + 1)) {S : Set (Fin n → ℂ)} (hS : MeasurableSet S) :
    normalRow (2 * (n + 1)) {x | (uniformProjective x).2 = p ∧ (uniformProjective x).1 ∈ S} =
      ∫⁻ z in {z | z ∈ S ∧ ∀ k, ‖z k‖ ≤ 1}, ENNReal.ofReal (n.factorial / Real.pi ^ n * (fsMetricAt z).det.re) := by
  have hB : MeasurableSet {z : Fin n → ℂ | z ∈ S ∧ ∀ k, ‖z k‖ ≤ 1} := by
    have h1 : MeasurableSet (⋂ k, {z : Fin n → ℂ | ‖z k‖ ≤ 1}) := MeasurableSet.iInter fun k =>
      measurableSet_le (measurable_pi_apply k).norm measurable_const
    have h2 : {z : Fin n → ℂ | z ∈ S ∧ ∀ k, ‖z k‖ ≤ 1} = S ∩ ⋂ k, {z : Fin n → ℂ | ‖z k‖ ≤ 1} := by
      ext z
      simp
    rw [h2]
    exact hS.inter h1
  have hm := measurable_affine p
  rw [← withDensity_apply _ hB, ← C135_density p, Measure.map_apply hm hB]
  have hvol : ∀ᵐ z : Fin n → ℂ, ∀ k, ‖z k‖ ≠ 1 := by
    rw [ae_all_iff]
    intro k
    have h1 : ∀ᵐ w : ℂ, ‖w‖ ≠ 1 := by
      rw [ae_iff]
      have : {w : ℂ | ¬ ‖w‖ ≠ 1} = Metric.sphere 0 1 := by
        ext w
        simp
      rw [this]
      exact Measure.addHaar_sphere _ _ _
    exact (Measure.quasiMeasurePreserving_eval (fun _ : Fin n => (volume : Measure ℂ)) k).ae h1
  have hties : ∀ᵐ x ∂normalRow (2 * (n + 1)), ∀ k, ‖homToAffine (uniformProjectiveHom x) (p : ℕ) k‖ ≠ 1 := by
    refine ae_of_ae_map (f := fun x => homToAffine (uniformProjectiveHom x) (p : ℕ)) (p := fun z => ∀ k, ‖z k‖ ≠ 1)
      hm.aemeasurable ?_
    rw [C135_density p]
    exact (withDensity_absolutelyContinuous _ _).ae_le hvol
  have hcoord : ∀ᵐ x ∂normalRow (2 * (n + 1)), cvec x p ≠ 0 := by
    have h := cnormal_ne_zero (MvPolynomial.X p : MvPolynomial (Fin (n + 1)) ℂ) (MvPolynomial.X_ne_zero _)
    filter_upwards [ae_of_ae_map (continuous_cvec (n + 1)).measurable.aemeasurable h] with x hx
    simpa using hx
  refine measure_congr ?_
  filter_upwards [hties, hcoord] with x h1 h2
  have hx : cvec x ≠ 0 := fun h0 => h2 (by rw [h0]; rfl)
  obtain ⟨r, hr, hs⟩ := complexSphere_eq x hx
  set Z := complexSphere x with hZ
  have hp0 : Z p ≠ 0 := by
    rw [hs]
    exact mul_ne_zero hr h2
  have hZ0 : Z ≠ 0 := fun h0 => hp0 (by rw [h0]; rfl)
  refine propext ?_
  change ((homToAffineAuto Z).2 = p ∧ (homToAffineAuto Z).1 ∈ S) ↔
    (homToAffine Z (p : ℕ) ∈ S ∧ ∀ k, ‖homToAffine Z (p : ℕ) k‖ ≤ 1)
  obtain ⟨c1, -, c3⟩ := C17_patch Z
  constructor
  · rintro ⟨rfl, h4⟩
    rw [← c3]
    exact ⟨h4, fun k => (C17_bounded Z hZ0 k).2⟩
  · rintro ⟨h4, h5⟩
    have hpat : (homToAffineAuto Z).2 = p := by
      by_contra hne
      obtain ⟨k, hk⟩ := Fin.exists_succAbove_eq hne
      have h6 : ‖homToAffine Z (p : ℕ) k‖ < 1 := lt_of_le_of_ne (h5 k) (h1 k)
      rw [homToAffine_apply, hk, norm_div, div_lt_one (norm_pos_iff.2 hp0)] at h6
      exact absurd (c1 p) (not_le.2 h6)
    refine ⟨hpat, ?_⟩
    rw [c3, hpat]
    exact h4

/-- **C135.** All patches are equally likely. -/
theorem C135_uniform (p : Fin (n + 1)) :
    normalRow (2 * (n + 1)) {x | (uniformProjective x).2 = p} = 1 / (n + 1) := by
  have h1 : ∀ q : Fin (n + 1), normalRow (2 * (n + 1)) {x | (uniformProjective x).2 = q} =
      ∫⁻ z in {z : Fin n → ℂ | z ∈ univ ∧ ∀ k, ‖z k‖ ≤ 1},
        ENNReal.ofReal (n.factorial / Real.pi ^ n * (fsMetricAt z).det.re) := fun q => by
    rw [← C135_patch q MeasurableSet.univ]
    simp
  have hm : Measurable fun x : Fin (2 * (n + 1)) → ℝ => (uniformProjective x).2 := by
    have h := measurable_sphere (n + 1)
    exact measurable_argmax fun i => ((measurable_pi_apply i).comp h).norm
  have h2 : ∑ q : Fin (n + 1), normalRow (2 * (n + 1)) {x | (uniformProjective x).2 = q} = 1 := by
    have := sum_measure_preimage_singleton (μ := normalRow (2 * (n + 1))) (Finset.univ : Finset (Fin (n + 1)))
      (f := fun x : Fin (2 * (n + 1)) → ℝ => (uniformProjective x).2) fun q _ => hm (measurableSet_singleton q)
    rw [Finset.coe_univ, preimage_univ, measure_univ] at this
    exact this
  rw [Finset.sum_congr rfl fun q _ => (h1 q).trans (h1 p).symm, Finset.sum_const, Finset.card_univ, Fintype.card_fin,
    nsmul_eq_mul] at h2
  rw [ENNReal.eq_div_iff (by positivity) (by finiteness)]
  exact_mod_cast h2

/-- For the projective line: the density `1 / (π (1 + |z|²)²)` of the stereographic projection of the sphere. -/
example (p : Fin 2) : (normalRow 4).map (fun x => homToAffine (uniformProjectiveHom (n := 1) x) (p : ℕ)) =
    volume.withDensity fun z => ENNReal.ofReal (1 / Real.pi * (1 / (1 + ‖z 0‖ ^ 2) ^ 2)) := by
  rw [C135_density (n := 1) p]
  congr 1
  funext z
  rw [fsMetricAt_det, Complex.ofReal_re]
  simp

end Cyjax
