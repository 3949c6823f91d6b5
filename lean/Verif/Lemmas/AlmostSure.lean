import Verif.Lemmas.GenericPoints
import Verif.Spec.LineLaw
import Verif.Spec.Samplable
import Verif.Model.Pipeline
import Verif.Lemmas.Samplable
import Mathlib.Probability.HasLaw

/-! # Properties that hold for almost all random lines -/

namespace Cyjax

open MeasureTheory MvPolynomial Cyjax.Spec Cyjax.Variety

variable {m : ℕ}

/-- The lines before normalisation. -/
noncomputable def rawLines {count : ℕ} (x : Fin 2 → Fin count → Fin (2 * m) → ℝ) :
    Fin count → (Fin m → ℂ) × (Fin m → ℂ) := fun j => (cvec (x 0 j), cvec (x 1 j))

theorem rawLines_preserving (m count : ℕ) :
    MeasurePreserving (rawLines (m := m) (count := count)) (normalsLaw m count) (Measure.pi fun _ => lineLaw m) := by
  have h1 := measurePreserving_finTwoArrow (Measure.pi fun _ : Fin count => normalRow (2 * m))
  have h2 := (measurePreserving_arrowProdEquivProdArrow (Fin (2 * m) → ℝ) (Fin (2 * m) → ℝ) (Fin count)
    (fun _ => normalRow (2 * m)) fun _ => normalRow (2 * m)).symm
  have hc : MeasurePreserving (cvec (m := m)) (normalRow (2 * m)) (cnormal m) := ⟨(continuous_cvec m).measurable, rfl⟩
  have h3 := measurePreserving_pi (fun _ : Fin count => (normalRow (2 * m)).prod (normalRow (2 * m)))
    (fun _ : Fin count => lineLaw m) (f := fun _ => Prod.map cvec cvec) fun _ => hc.prod hc
  exact h3.comp (h2.comp h1)

/-- All lines of all batches. -/
theorem batches_preserving (m b count : ℕ) :
    MeasurePreserving (fun (x : Fin b → Fin 2 → Fin count → Fin (2 * m) → ℝ) (k : Fin (b * count)) =>
        rawLines (x (finProdFinEquiv.symm k).1) (finProdFinEquiv.symm k).2)
      (Measure.pi fun _ => normalsLaw m count) (Measure.pi fun _ => lineLaw m) := by
  have h1 := measurePreserving_pi (fun _ : Fin b => normalsLaw m count) (fun _ : Fin b => Measure.pi fun _ => lineLaw m)
    (f := fun _ => rawLines) fun _ => rawLines_preserving m count
  have h2 : MeasurePreserving (fun (y : Fin b → Fin count → (Fin m → ℂ) × (Fin m → ℂ)) (k : Fin b × Fin count) =>
      y k.1 k.2) (Measure.pi fun _ => Measure.pi fun _ => lineLaw m) (Measure.pi fun _ => lineLaw m) := by
    have hm : Measurable (fun (y : Fin b → Fin count → (Fin m → ℂ) × (Fin m → ℂ)) (k : Fin b × Fin count) => y k.1 k.2) := by
      fun_prop
    refine ⟨hm, (Measure.pi_eq fun s hs => ?_).symm⟩
    rw [Measure.map_apply hm (MeasurableSet.univ_pi hs)]
    have e : (fun (y : Fin b → Fin count → (Fin m → ℂ) × (Fin m → ℂ)) (k : Fin b × Fin count) => y k.1 k.2) ⁻¹'
        Set.univ.pi s = Set.univ.pi fun i => Set.univ.pi fun j => s (i, j) := by
      ext y
      simp
    rw [e, Measure.pi_pi, Fintype.prod_prod_type]
    exact Finset.prod_congr rfl fun i _ => Measure.pi_pi _ _
  have h3 := measurePreserving_piCongrLeft (fun _ : Fin (b * count) => lineLaw m) finProdFinEquiv
  convert h3.comp (h2.comp h1) using 1
  funext x k
  obtain ⟨k, rfl⟩ := finProdFinEquiv.surjective k
  simp only [Function.comp_apply, MeasurableEquiv.coe_piCongrLeft, Equiv.piCongrLeft_apply_apply, Equiv.symm_apply_apply]

theorem complexSphere_eq (x : Fin (2 * m) → ℝ) (hx : cvec x ≠ 0) :
    ∃ r : ℂ, r ≠ 0 ∧ Random.complexSphere x = fun i => r * cvec x i := by
  have hne : ∃ j, x j ≠ 0 := by
    by_contra hcon
    push Not at hcon
    apply hx
    funext i
    simp [cvec, hcon]
  obtain ⟨j, hj⟩ := hne
  have hpos : 0 < ∑ j, x j ^ 2 :=
    Finset.sum_pos' (fun j _ => sq_nonneg _) ⟨j, Finset.mem_univ _, by positivity⟩
  refine ⟨((Real.sqrt (∑ j, x j ^ 2))⁻¹ : ℝ), by exact_mod_cast (inv_pos.2 (Real.sqrt_pos.2 hpos)).ne', ?_⟩
  funext i
  simp only [Random.complexSphere, Random.realSphere, cvec]
  push_cast
  ring

theorem Spec.Admissible.smul {F : MvPolynomial (Fin m) ℂ} {e : ℕ} (hom : F.IsHomogeneous e)
    {x : (Fin m → ℂ) × (Fin m → ℂ)} (h : Admissible F x) {a b : ℂ} (ha : a ≠ 0) (hb : b ≠ 0) :
    Admissible F (fun i => a * x.1 i, fun i => b * x.2 i) := by
  refine ⟨?_, ?_⟩
  · rw [LinearIndependent.pair_iff]
    intro s t hst
    obtain ⟨h1, h2⟩ := LinearIndependent.pair_iff.1 h.1 (s * a) (t * b) (by
      rw [← hst]
      funext i
      simp only [Pi.add_apply, Pi.smul_apply, smul_eq_mul]
      ring)
    exact ⟨(mul_eq_zero.1 h1).resolve_right ha, (mul_eq_zero.1 h2).resolve_right hb⟩
  · rw [eval_smul_homogeneous hom]
    exact mul_ne_zero (pow_ne_zero _ hb) h.2

/-- Almost all pairs are admissible. -/
theorem ae_admissible_line {k : ℕ} (F : MvPolynomial (Fin (k + 2)) ℂ) (hF : F ≠ 0) :
    ∀ᵐ x ∂lineLaw (k + 2), Admissible F x := by
  have hq := cnormal_ne_zero F hF
  have hq0 := cnormal_ne_zero (X 0 : MvPolynomial (Fin (k + 2)) ℂ) (X_ne_zero _)
  have hmeas : MeasurableSet {x : (Fin (k + 2) → ℂ) × (Fin (k + 2) → ℂ) | eval x.2 F = 0 ∨ x.2 0 * x.1 1 - x.2 1 * x.1 0 = 0} := by
    refine MeasurableSet.union ?_ ?_
    · exact (isClosed_singleton.preimage ((MvPolynomial.continuous_eval F).comp continuous_snd)).measurableSet
    · exact (isClosed_singleton.preimage (f := fun x : (Fin (k + 2) → ℂ) × (Fin (k + 2) → ℂ) =>
        x.2 0 * x.1 1 - x.2 1 * x.1 0) (by fun_prop)).measurableSet
  have hnull : lineLaw (k + 2) {x : (Fin (k + 2) → ℂ) × (Fin (k + 2) → ℂ) |
      eval x.2 F = 0 ∨ x.2 0 * x.1 1 - x.2 1 * x.1 0 = 0} = 0 := by
    unfold lineLaw
    rw [← Measure.prod_swap, Measure.map_apply measurable_swap hmeas, Measure.measure_prod_null (measurable_swap hmeas)]
    filter_upwards [hq, hq0] with q h1 h2
    rw [eval_X] at h2
    have hD : (C (q 0) * X 1 - C (q 1) * X 0 : MvPolynomial (Fin (k + 2)) ℂ) ≠ 0 := by
      intro h0
      have := congrArg (eval fun i : Fin (k + 2) => if i = 1 then (1 : ℂ) else 0) h0
      simp at this
      exact h2 this
    have := cnormal_ne_zero _ hD
    rw [ae_iff] at this
    refine measure_mono_null ?_ this
    rintro p (h3 | h3)
    · exact absurd h3 h1
    · simpa using h3
  rw [ae_iff]
  refine measure_mono_null ?_ hnull
  intro x hx
  by_contra hcon
  simp only [Set.mem_setOf_eq, not_or] at hcon
  refine hx ⟨?_, hcon.1⟩
  rw [LinearIndependent.pair_iff]
  intro s t hst
  have e0 := congrFun hst 0
  have e1 := congrFun hst 1
  simp only [Pi.add_apply, Pi.smul_apply, smul_eq_mul, Pi.zero_apply] at e0 e1
  constructor
  · refine (mul_eq_zero.1 (show s * (x.2 0 * x.1 1 - x.2 1 * x.1 0) = 0 by linear_combination x.2 0 * e1 - x.2 1 * e0)).resolve_right
      hcon.2
  · refine (mul_eq_zero.1 (show t * (x.2 0 * x.1 1 - x.2 1 * x.1 0) = 0 by linear_combination x.1 1 * e0 - x.1 0 * e1)).resolve_right
      hcon.2

/-- Normalising does not matter. -/
theorem admissible_lineDraws {e count : ℕ} {F : MvPolynomial (Fin m) ℂ} (hom : F.IsHomogeneous e)
    {x : Fin 2 → Fin count → Fin (2 * m) → ℝ} (hx : ∀ j, Admissible F (rawLines x j)) : ∀ y ∈ lineDraws x, Admissible F y := by
  intro y hy
  obtain ⟨j, rfl⟩ := List.mem_ofFn.1 hy
  obtain ⟨r, hr, e1⟩ := complexSphere_eq (x 0 j) (by
    have := (hx j).1.ne_zero 0
    simpa [rawLines] using this)
  obtain ⟨s, hs, e2⟩ := complexSphere_eq (x 1 j) (by
    have := (hx j).1.ne_zero 1
    simpa [rawLines] using this)
  simp only [e1, e2]
  exact (hx j).smul hom hr hs

/-- Almost surely all lines are admissible. -/
theorem ae_admissible {k e count : ℕ} (F : MvPolynomial (Fin (k + 2)) ℂ) (hF : F ≠ 0) (hom : F.IsHomogeneous e) :
    ∀ᵐ x ∂normalsLaw (k + 2) count, (∀ j, Admissible F (rawLines x j)) ∧ ∀ y ∈ lineDraws x, Admissible F y := by
  have h1 : ∀ᵐ y ∂Measure.pi fun _ : Fin count => lineLaw (k + 2), ∀ j, Admissible F (y j) := by
    rw [ae_all_iff]
    intro j
    exact (measurePreserving_eval (fun _ : Fin count => lineLaw (k + 2)) j).quasiMeasurePreserving.ae (ae_admissible_line F hF)
  filter_upwards [(rawLines_preserving (k + 2) count).quasiMeasurePreserving.ae h1] with x hx
  exact ⟨hx, admissible_lineDraws hom hx⟩

/-- Almost surely, the points of intersection impose independent conditions on homogeneous sections. -/
theorem ae_batches {k e d N b count : ℕ} {F : MvPolynomial (Fin (k + 2)) ℂ} (hF : Irreducible F) (hom : F.IsHomogeneous e)
    (s : Fin N → MvPolynomial (Fin (k + 2)) ℂ) (hsd : ∀ a, (s a).IsHomogeneous d)
    (hs : ∀ c : Fin N → ℂ, F ∣ ∑ a, C (c a) * s a → c = 0) (hN : N ≤ b * count) :
    ∀ᵐ x ∂Measure.pi fun _ : Fin b => normalsLaw (k + 2) count,
      (∀ i, ∀ y ∈ lineDraws (x i), Admissible F y) ∧
      ∀ Z : Fin b → Fin count → Fin (k + 2) → ℂ,
        (∀ i j, eval (Z i j) F = 0 ∧ ∃ r : ℂ, Z i j = fun l =>
          Random.complexSphere (x i 0 j) l + r * Random.complexSphere (x i 1 j) l) →
        ∀ c : Fin N → ℂ, (∀ i j, ∑ a, c a * eval (Z i j) (s a) = 0) → c = 0 := by
  have h1 : ∀ᵐ x ∂Measure.pi fun _ : Fin b => normalsLaw (k + 2) count, ∀ i,
      (∀ j, Admissible F (rawLines (x i) j)) ∧ ∀ y ∈ lineDraws (x i), Admissible F y := by
    rw [ae_all_iff]
    intro i
    exact (measurePreserving_eval (fun _ : Fin b => normalsLaw (k + 2) count) i).quasiMeasurePreserving.ae
      (ae_admissible F hF.ne_zero hom)
  filter_upwards [h1, (batches_preserving (k + 2) b count).quasiMeasurePreserving.ae
    (ae_independent hF hom s hs (b * count) hN)] with x hx hind
  refine ⟨fun i => (hx i).2, fun Z hZ c hc => ?_⟩
  have key : ∀ i j, ∃ (α t : ℂ), α ≠ 0 ∧ Z i j = fun l => α * linePoint (rawLines (x i) j) t l := by
    intro i j
    obtain ⟨α, hα, e1⟩ := complexSphere_eq (x i 0 j) (by
      have := ((hx i).1 j).1.ne_zero 0
      simpa [rawLines] using this)
    obtain ⟨β, hβ, e2⟩ := complexSphere_eq (x i 1 j) (by
      have := ((hx i).1 j).1.ne_zero 1
      simpa [rawLines] using this)
    obtain ⟨-, r, hr⟩ := hZ i j
    refine ⟨α, α⁻¹ * r * β, hα, ?_⟩
    rw [hr, e1, e2]
    funext l
    simp only [linePoint, rawLines]
    field_simp
  choose α t hα hZt using key
  refine hind (fun q => t (finProdFinEquiv.symm q).1 (finProdFinEquiv.symm q).2) (fun q => ?_) c fun q => ?_
  · have := (hZ (finProdFinEquiv.symm q).1 (finProdFinEquiv.symm q).2).1
    rw [hZt, eval_smul_homogeneous hom] at this
    exact (mul_eq_zero.1 this).resolve_left (pow_ne_zero _ (hα _ _))
  · have := hc (finProdFinEquiv.symm q).1 (finProdFinEquiv.symm q).2
    have e : ∀ a, eval (Z (finProdFinEquiv.symm q).1 (finProdFinEquiv.symm q).2) (s a) =
        α (finProdFinEquiv.symm q).1 (finProdFinEquiv.symm q).2 ^ d * eval (linePoint (rawLines
          (x (finProdFinEquiv.symm q).1) (finProdFinEquiv.symm q).2)
            (t (finProdFinEquiv.symm q).1 (finProdFinEquiv.symm q).2)) (s a) := by
      intro a
      rw [hZt, eval_smul_homogeneous (hsd a)]
    simp only [e, mul_left_comm (c _)] at this
    rw [← Finset.mul_sum] at this
    exact (mul_eq_zero.1 this).resolve_left (pow_ne_zero _ (hα _ _))

theorem smooth_ne_zero {n : ℕ} {F : MvPolynomial (Fin (n + 2)) ℂ} (hsm : SmoothHypersurface F) : F ≠ 0 := by
  rintro rfl
  obtain ⟨i, hi⟩ := hsm (fun _ => 1) (fun h => by
    have := congrFun h 0
    simp at this) (map_zero _)
  simp at hi

end Cyjax
