import Verif.Lemmas.RandomLaw

/-! # Distribution of points in the overlap of two patches (C88) -/

namespace Cyjax

open MeasureTheory Cyjax.Random Cyjax.Spec Cyjax.Projective
open scoped BigOperators

/-- Changing the chart turns the distribution of `projective_overlap(p, q)` into that of `projective_overlap(q, p)`. -/
def ChartSymmetric {n : ℕ} (p q : Fin (n + 2)) (s : ℝ) : Prop :=
  (overlapLaw (dim := n + 1) (p : ℕ) (q : ℕ) s).map (fun z => changeChart z (p : ℕ) (q : ℕ)) =
    overlapLaw (dim := n + 1) (q : ℕ) (p : ℕ) s

private theorem law01 {n : ℕ} (s : ℝ) :
    overlapLaw (dim := n + 1) 0 1 s = (drawLaw (n + 1)).map (fun x => point 0 s x.1 x.2) ∧
      overlapLaw (dim := n + 1) 1 0 s = (drawLaw (n + 1)).map (fun x => point 0 s x.1 x.2) := by
  have e0 : (((0 : Fin (n + 2)) : ℕ) : ℤ) = 0 := by simp
  have e1 : (((1 : Fin (n + 2)) : ℕ) : ℤ) = 1 := by simp
  have h01 : (0 : Fin (n + 2)).succAbove 0 = 1 := by simp
  have h10 : (1 : Fin (n + 2)).succAbove 0 = 0 := Fin.succAbove_ne_zero_zero (by simp)
  have a := overlapLaw_eq (n := n) 0 0 s
  have b := overlapLaw_eq (n := n) 1 0 s
  rw [h01, e0, e1] at a
  rw [h10, e0, e1] at b
  exact ⟨a, b⟩

/-- **C88.** For the first two patches, in every dimension and for every patch size, the distribution is
invariant under `change_chart`, in both directions. -/
theorem C88_first_patches_partial (n : ℕ) (s : ℝ) :
    ChartSymmetric (0 : Fin (n + 2)) 1 s ∧ ChartSymmetric (1 : Fin (n + 2)) 0 s := by
  have e0 : (((0 : Fin (n + 2)) : ℕ) : ℤ) = 0 := by simp
  have e1 : (((1 : Fin (n + 2)) : ℕ) : ℤ) = 1 := by simp
  have key : ∀ f : (Fin (n + 1) → ℂ) → (Fin (n + 1) → ℂ), Measurable f →
      (∀ z, f z = fun i => if i = 0 then 1 / z 0 else z i / z 0) →
      ((drawLaw (n + 1)).map fun x => point 0 s x.1 x.2).map f = (drawLaw (n + 1)).map fun x => point 0 s x.1 x.2 := by
    intro f hf h
    rw [Measure.map_map hf (measurable_point 0 s)]
    conv_rhs => rw [← (draw_preserving n).map_eq, Measure.map_map (measurable_point 0 s) (draw_preserving n).measurable]
    congr 1
    funext x
    simp only [Function.comp, h]
    exact point_flip s x.1 x.2
  have m01 := measurable_changeChart (0 : Fin (n + 2)) 1 (by simp)
  have m10 := measurable_changeChart (1 : Fin (n + 2)) 0 (by simp)
  unfold ChartSymmetric
  rw [e0, e1] at *
  rw [(law01 s).1, (law01 s).2]
  exact ⟨key _ m01 fun z => (changeChart01 z).1, key _ m10 fun z => (changeChart01 z).2⟩

private theorem point_norm {n : ℕ} (o : Fin (n + 1)) (s : ℝ) (hs : 0 ≤ s) (r : Fin (n + 1) → ℝ)
    (t : Fin (n + 1) → UnitAddCircle) (i : Fin (n + 1)) : ‖point o s r t i‖ = radius o s r i := by
  unfold point
  rw [norm_mul, Circle.norm_coe, mul_one, Complex.norm_real, Real.norm_of_nonneg]
  unfold radius
  by_cases h : i = o
  · rw [if_pos h]; exact Real.exp_nonneg _
  · rw [if_neg h]
    exact mul_nonneg (le_min (mul_nonneg hs (Real.exp_nonneg _)) hs) (Real.sqrt_nonneg _)

private theorem inverse {n : ℕ} (p q : Fin (n + 2)) (hpq : p ≠ q) (s : ℝ) (hs : 0 < s) (h : ChartSymmetric p q s) :
    ChartSymmetric q p s := by
  unfold ChartSymmetric at h ⊢
  rw [← h, Measure.map_map (measurable_changeChart q p hpq.symm) (measurable_changeChart p q hpq)]
  obtain ⟨o, rfl⟩ := Fin.exists_succAbove_eq hpq.symm
  rw [overlapLaw_eq, Measure.map_map ((measurable_changeChart _ p hpq.symm).comp (measurable_changeChart p _ hpq))
    (measurable_point o s)]
  congr 1
  funext x
  simp only [Function.comp]
  refine C20_inverse _ p (p.succAbove o) hpq ?_
  rw [affineToHom_succAbove, ← norm_pos_iff, point_norm o s hs.le]
  unfold radius
  rw [if_pos rfl]
  exact Real.exp_pos _

private theorem not_symmetric {n : ℕ} (p q : Fin (n + 2)) (hpq : p < q) (h2 : 2 ≤ (q : ℕ)) (s : ℝ) (hs : 1 < s) :
    ¬ ChartSymmetric p q s := by
  have hne : p ≠ q := ne_of_lt hpq
  have hs0 : 0 < s := by linarith
  have hlog : 0 < Real.log s := Real.log_pos hs
  obtain ⟨o, ho⟩ := Fin.exists_succAbove_eq hne.symm
  obtain ⟨o', ho'⟩ := Fin.exists_succAbove_eq hne
  have hcq : p.succAbove 0 ≠ q := by
    intro h
    have : (p.succAbove 0 : ℕ) ≤ 1 := by
      by_cases hp : p = 0
      · subst hp; simp
      · rw [Fin.succAbove_ne_zero_zero hp]; simp
    rw [h] at this
    omega
  obtain ⟨k, hk⟩ := Fin.exists_succAbove_eq hcq
  have ho0 : o ≠ 0 := by rintro rfl; exact hcq ho
  have hko' : k ≠ o' := by
    rintro rfl
    exact Fin.succAbove_ne p 0 (hk.symm.trans ho')
  intro hsym
  unfold ChartSymmetric at hsym
  set E : Set (Fin (n + 1) → ℂ) := {w | 1 < ‖w o'‖ ∧ s * Real.sqrt (1 / 2) < ‖w k‖} with hE
  have hEm : MeasurableSet E := by
    refine MeasurableSet.inter ?_ ?_
    · exact measurableSet_lt measurable_const ((measurable_pi_apply o').norm)
    · exact measurableSet_lt measurable_const ((measurable_pi_apply k).norm)
  have h0 : (overlapLaw (dim := n + 1) (p : ℕ) (q : ℕ) s).map (fun z => changeChart z (p : ℕ) (q : ℕ)) E = 0 := by
    have hm := measurable_changeChart p q hne
    rw [Measure.map_apply hm hEm]
    have hlaw := overlapLaw_eq p o s
    rw [ho] at hlaw
    rw [hlaw, Measure.map_apply (measurable_point o s) (hm hEm)]
    suffices hempty : (fun x : (Fin (n + 1) → ℝ) × (Fin (n + 1) → UnitAddCircle) => point o s x.1 x.2) ⁻¹'
        ((fun z => changeChart z (p : ℕ) (q : ℕ)) ⁻¹' E) = ∅ by rw [hempty, measure_empty]
    rw [Set.eq_empty_iff_forall_notMem]
    rintro ⟨r, t⟩ ⟨h1, h2⟩
    simp only [C19_change_chart _ p q hne, homToAffine_apply, ho', hk, affineToHom_same, affineToHom_succAbove] at h1 h2
    have hq : affineToHom (point o s r t) (p : ℕ) q = point o s r t o := by rw [← ho, affineToHom_succAbove]
    rw [hq, norm_div, point_norm o s hs0.le] at h1 h2
    rw [norm_one] at h1
    rw [point_norm o s hs0.le] at h2
    have hrad : radius o s r o = Real.exp (Real.log s * (2 * r 0 - 1)) := if_pos rfl
    have hr0 : radius o s r 0 = min (s * radius o s r o) s * Real.sqrt (r 0) := by
      rw [hrad]
      unfold radius
      rw [if_neg (Ne.symm ho0)]
    have hpos : 0 < radius o s r o := by rw [hrad]; exact Real.exp_pos _
    rw [lt_div_iff₀ hpos, one_mul] at h1
    rw [lt_div_iff₀ hpos, hr0] at h2
    have hr : r 0 < 1 / 2 := by
      rw [hrad, Real.exp_lt_one_iff] at h1
      by_contra hc
      push Not at hc
      nlinarith
    have hsq : Real.sqrt (r 0) ≤ Real.sqrt (1 / 2) := Real.sqrt_le_sqrt hr.le
    have hle : min (s * radius o s r o) s * Real.sqrt (r 0) ≤ (s * radius o s r o) * Real.sqrt (1 / 2) :=
      mul_le_mul (min_le_left _ _) hsq (Real.sqrt_nonneg _) (by positivity)
    nlinarith
  have h1 : 0 < overlapLaw (dim := n + 1) (q : ℕ) (p : ℕ) s E := by
    have hlaw := overlapLaw_eq q o' s
    rw [ho'] at hlaw
    rw [hlaw, Measure.map_apply (measurable_point o' s) hEm]
    have hsub : (Set.univ.pi fun _ : Fin (n + 1) => Set.Ioo (1 / 2 : ℝ) 1) ×ˢ
        (Set.univ : Set (Fin (n + 1) → UnitAddCircle)) ⊆ (fun x => point o' s x.1 x.2) ⁻¹' E := by
      rintro ⟨r, t⟩ ⟨hr, -⟩
      have hr' : ∀ i, 1 / 2 < r i := fun i => (hr i (Set.mem_univ i)).1
      have hrad : 1 < Real.exp (Real.log s * (2 * r 0 - 1)) :=
        Real.one_lt_exp_iff.mpr (mul_pos hlog (by have := hr' 0; linarith))
      refine ⟨?_, ?_⟩
      · simp only
        rw [point_norm o' s hs0.le]
        unfold radius
        rw [if_pos rfl]
        exact hrad
      · simp only
        rw [point_norm o' s hs0.le]
        unfold radius
        rw [if_neg hko', min_eq_right (by nlinarith)]
        exact mul_lt_mul_of_pos_left (Real.sqrt_lt_sqrt (by norm_num) (hr' k)) hs0
    refine lt_of_lt_of_le ?_ (measure_mono hsub)
    unfold drawLaw unifRow
    have hu : (Measure.pi fun _ : Fin (n + 1) => (volume : Measure UnitAddCircle)) Set.univ = 1 := by
      rw [Measure.pi_univ]; simp
    rw [Measure.prod_prod, Measure.pi_pi, hu, mul_one]
    refine pos_iff_ne_zero.mpr (Finset.prod_ne_zero_iff.mpr fun i _ => ?_)
    unfold unifDraw
    rw [Measure.restrict_apply measurableSet_Ioo, Set.inter_eq_left.mpr, Real.volume_Ioo]
    · norm_num
    · intro x hx
      exact ⟨by linarith [hx.1], hx.2⟩
  rw [hsym] at h0
  exact h1.ne' h0

/-- **C88** holds for no other pair of patches: for patch size larger than one the distribution is invariant under
`change_chart` exactly for the first two patches. (The radius draw of column zero is used twice unless the coordinate of
the other patch is the first one.) -/
theorem C88_other_patches_violated {n : ℕ} (p q : Fin (n + 2)) (hpq : p ≠ q) (s : ℝ) (hs : 1 < s) :
    ChartSymmetric p q s ↔ (p = 0 ∧ q = 1) ∨ (p = 1 ∧ q = 0) := by
  constructor
  · intro h
    by_contra hc
    push Not at hc
    have hval : ∀ x : Fin (n + 2), (x : ℕ) = 0 → x = 0 := fun x hx => Fin.ext (by simpa using hx)
    have hval1 : ∀ x : Fin (n + 2), (x : ℕ) = 1 → x = 1 := fun x hx => Fin.ext (by simpa using hx)
    rcases lt_or_gt_of_ne hpq with hlt | hlt
    · refine not_symmetric p q hlt ?_ s hs h
      by_contra h2
      have hl : (p : ℕ) < q := hlt
      exact hc.1 (hval p (by omega)) (hval1 q (by omega))
    · refine not_symmetric q p hlt ?_ s hs (inverse p q hpq s (by linarith) h)
      by_contra h2
      have hl : (q : ℕ) < p := hlt
      exact hc.2 (hval1 p (by omega)) (hval q (by omega))
  · rintro (⟨rfl, rfl⟩ | ⟨rfl, rfl⟩)
    · exact (C88_first_patches_partial n s).1
    · exact (C88_first_patches_partial n s).2

/-- For instance for patches 0 and 2 in dimension two with patch size two. -/
example : ¬ ChartSymmetric (0 : Fin 3) 2 2 := by
  rw [C88_other_patches_violated 0 2 (by decide) 2 (by norm_num)]
  decide

end Cyjax
