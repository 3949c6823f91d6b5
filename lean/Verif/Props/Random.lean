import Verif.Model.Random
import Verif.Props.Projective
import Mathlib.Tactic.Positivity
import Mathlib.Algebra.BigOperators.Field

/-! # Random points: ranges (C85 - C87) -/

namespace Cyjax

open Cyjax.Random Cyjax.Projective
open scoped BigOperators

private theorem norm_exp_angle (a : ℝ) : ‖Complex.exp (2 * Complex.I * Real.pi * a)‖ = 1 := by
  have : (2 * Complex.I * Real.pi * a : ℂ) = ((2 * Real.pi * a : ℝ) : ℂ) * Complex.I := by push_cast; ring
  rw [this, Complex.norm_exp_ofReal_mul_I]

/-! ## C85 -/

/-- **C85.** Real and imaginary part of `uniform_components` are the two draws, which are in `[-1, 1)`. -/
theorem C85_components (r i : ℝ) (hr : r ∈ Set.Ico (-1) 1) (hi : i ∈ Set.Ico (-1) 1) :
    (uniformComponents r i).re = r ∧ (uniformComponents r i).im = i ∧
      (uniformComponents r i).re ∈ Set.Ico (-1) 1 ∧ (uniformComponents r i).im ∈ Set.Ico (-1) 1 := by
  have h1 : (uniformComponents r i).re = r := by simp [uniformComponents]
  have h2 : (uniformComponents r i).im = i := by simp [uniformComponents]
  rw [h1, h2]
  exact ⟨rfl, rfl, hr, hi⟩

/-- The documentation of `uniform_components` promises parts between zero and one, which is not the case. -/
theorem C85_documented_violated : ∃ r ∈ Set.Ico (-1 : ℝ) 1, ∃ i ∈ Set.Ico (-1 : ℝ) 1,
    (uniformComponents r i).re < 0 ∧ (uniformComponents r i).im < 0 := by
  refine ⟨-1, by norm_num, -1, by norm_num, ?_⟩
  simp [uniformComponents]

/-- **C85.** The modulus of `uniform_angle` is between the two radii, and smaller than the larger if they differ. -/
theorem C85_angle (minrad maxrad a r : ℝ) (h0 : 0 ≤ minrad) (h1 : minrad ≤ maxrad) (hr : r ∈ Set.Ico (0 : ℝ) 1) :
    minrad ≤ ‖uniformAngle minrad maxrad a r‖ ∧ ‖uniformAngle minrad maxrad a r‖ ≤ maxrad ∧
      (minrad < maxrad → ‖uniformAngle minrad maxrad a r‖ < maxrad) := by
  have hd : 0 ≤ maxrad ^ 2 - minrad ^ 2 := by nlinarith
  have hn : ‖uniformAngle minrad maxrad a r‖ = Real.sqrt (minrad ^ 2 + r * (maxrad ^ 2 - minrad ^ 2)) := by
    unfold uniformAngle
    rw [norm_mul, norm_exp_angle, mul_one, Complex.norm_real, Real.norm_of_nonneg (Real.sqrt_nonneg _)]
  rw [hn]
  obtain ⟨r0, r1⟩ := hr
  refine ⟨?_, ?_, ?_⟩
  · exact Real.le_sqrt_of_sq_le (by nlinarith [mul_nonneg r0 hd])
  · rw [Real.sqrt_le_left (h0.trans h1)]
    nlinarith
  · intro hlt
    have hd' : 0 < maxrad ^ 2 - minrad ^ 2 := by nlinarith
    rw [Real.sqrt_lt' (by linarith)]
    nlinarith

/-- **C85.** Every modulus in the range and every angle is hit. -/
theorem C85_angle_onto (minrad maxrad : ℝ) (h0 : 0 ≤ minrad) (h1 : minrad < maxrad) (z : ℂ) (hz : minrad ≤ ‖z‖)
    (hz' : ‖z‖ < maxrad) :
    ∃ a ∈ Set.Ico (0 : ℝ) 1, ∃ r ∈ Set.Ico (0 : ℝ) 1, uniformAngle minrad maxrad a r = z := by
  have hd : 0 < maxrad ^ 2 - minrad ^ 2 := by nlinarith
  refine ⟨Int.fract (Complex.arg z / (2 * Real.pi)), ⟨Int.fract_nonneg _, Int.fract_lt_one _⟩,
    (‖z‖ ^ 2 - minrad ^ 2) / (maxrad ^ 2 - minrad ^ 2), ⟨?_, ?_⟩, ?_⟩
  · exact div_nonneg (by nlinarith) hd.le
  · rw [div_lt_one hd]; nlinarith [norm_nonneg z]
  · unfold uniformAngle
    rw [div_mul_cancel₀ _ hd.ne', add_sub_cancel, Real.sqrt_sq (norm_nonneg z)]
    have he : Complex.exp (2 * Complex.I * Real.pi * (Int.fract (Complex.arg z / (2 * Real.pi)) : ℝ)) =
        Complex.exp (Complex.arg z * Complex.I) := by
      rw [Complex.exp_eq_exp_iff_exists_int]
      refine ⟨-⌊Complex.arg z / (2 * Real.pi)⌋, ?_⟩
      have hpi : (Real.pi : ℂ) ≠ 0 := by exact_mod_cast Real.pi_ne_zero
      rw [Int.fract]
      push_cast
      field_simp
      ring
    rw [he]
    exact Complex.norm_mul_exp_arg_mul_I z

/-- **C85.** `uniform_angle_unit` has modulus one. -/
theorem C85_unit (a : ℝ) : ‖uniformAngleUnit a‖ = 1 := norm_exp_angle a

example : 1 ≤ ‖uniformAngle 1 2 (1 / 3) (1 / 2)‖ ∧ ‖uniformAngle 1 2 (1 / 3) (1 / 2)‖ < 2 := by
  obtain ⟨h1, _, h2⟩ := C85_angle 1 2 (1 / 3) (1 / 2) (by norm_num) (by norm_num) (by norm_num)
  exact ⟨h1, h2 (by norm_num)⟩

/-! ## C86 -/

/-- **C86.** `real_sphere` rows have norm one unless all draws are zero. -/
theorem C86_real {n : ℕ} (x : Fin n → ℝ) (hx : x ≠ 0) : ∑ i, realSphere x i ^ 2 = 1 := by
  obtain ⟨k, hk⟩ := Function.ne_iff.mp hx
  have hpos : 0 < ∑ j, x j ^ 2 :=
    Finset.sum_pos' (fun i _ => sq_nonneg _) ⟨k, Finset.mem_univ k, by have : x k ≠ 0 := hk; positivity⟩
  unfold realSphere
  simp only [div_pow, Real.sq_sqrt hpos.le]
  rw [← Finset.sum_div, div_self hpos.ne']

/-- **C86.** The direction is that of the draws. -/
theorem C86_direction {n : ℕ} (x : Fin n → ℝ) (hx : x ≠ 0) : ∃ c > 0, ∀ i, x i = c * realSphere x i := by
  obtain ⟨k, hk⟩ := Function.ne_iff.mp hx
  have hpos : 0 < ∑ j, x j ^ 2 :=
    Finset.sum_pos' (fun i _ => sq_nonneg _) ⟨k, Finset.mem_univ k, by have : x k ≠ 0 := hk; positivity⟩
  refine ⟨Real.sqrt (∑ j, x j ^ 2), Real.sqrt_pos.mpr hpos, fun i => ?_⟩
  unfold realSphere
  rw [mul_div_cancel₀ _ (Real.sqrt_pos.mpr hpos).ne']

/-- **C86.** `complex_sphere` rows have norm one unless all draws are zero. -/
theorem C86_complex {n : ℕ} (x : Fin (2 * n) → ℝ) (hx : x ≠ 0) : ∑ i, ‖complexSphere x i‖ ^ 2 = 1 := by
  rw [← C86_real x hx]
  have hsum : ∀ f : Fin (2 * n) → ℝ, ∑ i, f i =
      ∑ i : Fin n, f ⟨i, by omega⟩ + ∑ i : Fin n, f ⟨n + i, by omega⟩ := by
    intro f
    rw [← Fin.sum_congr' f (by omega : n + n = 2 * n), Fin.sum_univ_add]
    rfl
  rw [hsum, ← Finset.sum_add_distrib]
  refine Finset.sum_congr rfl fun i _ => ?_
  unfold complexSphere
  rw [← Complex.normSq_eq_norm_sq, Complex.normSq_apply]
  simp
  ring

/-- **C86.** The empty shape gives a number of modulus one. -/
theorem C86_scalar : ‖realSphereScalar‖ = 1 ∧ ‖complexSphereScalar‖ = 1 := by
  simp [realSphereScalar, complexSphereScalar]

/-- **C86.** `uniform_projective` gives affine coordinates of modulus at most one, of the point with the homogeneous
coordinates `complex_sphere`. -/
theorem C86_projective {n : ℕ} (x : Fin (2 * (n + 1)) → ℝ) (hx : x ≠ 0) :
    (∀ k, ‖(uniformProjective x).1 k‖ ≤ 1) ∧
      ∃ c : ℂ, c ≠ 0 ∧ ∀ i, affineToHom (uniformProjective x).1 ((uniformProjective x).2 : ℕ) i =
        c * uniformProjectiveHom x i := by
  have hne : complexSphere x ≠ 0 := by
    intro h
    have := C86_complex x hx
    rw [h] at this
    simp at this
  exact ⟨fun k => (C17_bounded _ hne k).2, C17_same_point _ hne⟩

example : ∑ i, ‖complexSphere (n := 2) ![3, 0, 0, 4] i‖ ^ 2 = 1 :=
  C86_complex _ fun h => by simpa using congrFun h 0

/-! ## C87 -/

/-- The point is within `size` in the affine coordinates of patch `p`. -/
def WithinSize {n : ℕ} (size : ℝ) (z : Fin n → ℂ) : Prop := ∀ i, ‖z i‖ ≤ size

theorem overlap_index {n : ℕ} (p : Fin (n + 2)) (o : Fin (n + 1)) :
    indexHomToAffine ((p : ℕ) : ℤ) ((p.succAbove o : Fin (n + 2)) : ℕ) = ((o : ℕ) : ℤ) := by
  unfold indexHomToAffine
  by_cases h : o.castSucc < p
  · rw [Fin.succAbove_of_castSucc_lt _ _ h]
    have h' : (o : ℕ) < p := by simpa [Fin.lt_def] using h
    rw [if_neg (by simp; omega)]
    simp
  · have h1 : p ≤ o.castSucc := not_lt.mp h
    rw [Fin.succAbove_of_le_castSucc _ _ h1]
    have h' : (p : ℕ) ≤ o := by simpa [Fin.le_def] using h1
    rw [if_pos (by simp; omega)]
    simp

/-- Moduli of the coordinates produced by `projective_overlap`. -/
theorem overlap_norm {n : ℕ} (p : Fin (n + 2)) (o : Fin (n + 1)) (s : ℝ) (hs : 1 ≤ s) (r a : Fin (n + 1) → ℝ) :
    ∃ rad : ℝ, rad = Real.exp (Real.log s * (2 * r 0 - 1)) ∧ ∀ i,
      ‖projectiveOverlap ((p : ℕ) : ℤ) ((p.succAbove o : Fin (n + 2)) : ℕ) s r a i‖ =
        if i = o then rad else min (s * rad) s * Real.sqrt (r i) := by
  refine ⟨_, rfl, fun i => ?_⟩
  have hrad : Real.exp (Real.log (1 / s) + (Real.log s - Real.log (1 / s)) * r 0) =
      Real.exp (Real.log s * (2 * r 0 - 1)) := by
    rw [one_div, Real.log_inv]
    congr 1
    ring
  unfold projectiveOverlap
  simp only
  rw [norm_mul, norm_exp_angle, mul_one, Complex.norm_real, overlap_index, hrad]
  unfold setAt
  have hneg : ¬ ((o : ℕ) : ℤ) < 0 := by omega
  rw [if_neg hneg]
  have hs0 : 0 ≤ s := by linarith
  by_cases h : i = o
  · subst h
    rw [if_pos rfl, if_pos rfl, Real.norm_of_nonneg (Real.exp_nonneg _)]
  · have h' : ¬ ((o : ℕ) : ℤ) = (i : ℕ) := fun h' => h (Fin.ext (by exact_mod_cast h'.symm))
    rw [if_neg h', if_neg h, Real.norm_of_nonneg]
    exact mul_nonneg (le_min (mul_nonneg hs0 (Real.exp_nonneg _)) hs0) (Real.sqrt_nonneg _)

/-- **C87.** For patch size at least one, the points of `projective_overlap` are within the patch size in the
coordinates of `this_patch`, the coordinate of the other patch is not zero, and `change_chart` gives coordinates within
the patch size. -/
theorem C87_overlap {n : ℕ} (p q : Fin (n + 2)) (hpq : p ≠ q) (s : ℝ) (hs : 1 ≤ s) (r a : Fin (n + 1) → ℝ)
    (hr : ∀ i, r i ∈ Set.Ico (0 : ℝ) 1) :
    WithinSize s (projectiveOverlap (p : ℕ) (q : ℕ) s r a) ∧
      affineToHom (projectiveOverlap (p : ℕ) (q : ℕ) s r a) (p : ℕ) q ≠ 0 ∧
      WithinSize s (changeChart (projectiveOverlap (p : ℕ) (q : ℕ) s r a) (p : ℕ) (q : ℕ)) := by
  obtain ⟨o, rfl⟩ := Fin.exists_succAbove_eq hpq.symm
  obtain ⟨rad, hrad, hnorm⟩ := overlap_norm p o s hs r a
  set z := projectiveOverlap ((p : ℕ) : ℤ) ((p.succAbove o : Fin (n + 2)) : ℕ) s r a with hz
  have hs0 : 0 < s := by linarith
  have hlog : 0 ≤ Real.log s := Real.log_nonneg hs
  have hlo : 1 / s ≤ rad := by
    rw [hrad, one_div, ← Real.exp_log hs0, ← Real.exp_neg, Real.log_exp]
    exact Real.exp_le_exp.mpr (by nlinarith [(hr 0).1])
  have hhi : rad ≤ s := by
    have : Real.exp (Real.log s * (2 * r 0 - 1)) ≤ Real.exp (Real.log s) :=
      Real.exp_le_exp.mpr (by nlinarith [(hr 0).2])
    rwa [Real.exp_log hs0, ← hrad] at this
  have hpos : 0 < rad := by rw [hrad]; exact Real.exp_pos _
  have hone : 1 ≤ s * rad := by rwa [div_le_iff₀' hs0] at hlo
  have hsq : ∀ i, Real.sqrt (r i) ≤ 1 := fun i => by
    rw [Real.sqrt_le_left zero_le_one, one_pow]
    exact (hr i).2.le
  have hmin : 0 ≤ min (s * rad) s := le_min (by positivity) hs0.le
  have hb : ∀ i, i ≠ o → ‖z i‖ ≤ min (s * rad) s := by
    intro i hi
    rw [hnorm, if_neg hi]
    calc _ ≤ min (s * rad) s * 1 := mul_le_mul_of_nonneg_left (hsq i) hmin
      _ = _ := mul_one _
  have hzo : ‖z o‖ = rad := by rw [hnorm, if_pos rfl]
  have hq : affineToHom z (p : ℕ) (p.succAbove o) = z o := by
    rw [affineToHom_eq, Fin.insertNth_apply_succAbove]
  refine ⟨?_, ?_, ?_⟩
  · intro i
    by_cases hi : i = o
    · rw [hi, hzo]; exact hhi
    · exact (hb i hi).trans (min_le_right _ _)
  · rw [hq, ← norm_pos_iff, hzo]; exact hpos
  · intro k
    rw [C19_change_chart z p _ hpq, homToAffine_apply, hq, norm_div, hzo, div_le_iff₀ hpos, affineToHom_eq]
    by_cases hk : (p.succAbove o).succAbove k = p
    · rw [hk, Fin.insertNth_apply_same, norm_one]; exact hone
    · obtain ⟨i, hi⟩ := Fin.exists_succAbove_eq hk
      rw [← hi, Fin.insertNth_apply_succAbove]
      have hio : i ≠ o := by
        rintro rfl
        exact Fin.succAbove_ne _ _ hi.symm
      exact (hb i hio).trans (min_le_left _ _)

/-- Points of the overlap of patches 0 and 2 of a threefold's ambient space, with patch size two. -/
example : WithinSize 2 (projectiveOverlap (dim := 4) 0 2 2 (fun _ => 1 / 2) fun _ => 1 / 4) ∧
    WithinSize 2 (changeChart (projectiveOverlap (dim := 4) 0 2 2 (fun _ => 1 / 2) fun _ => 1 / 4) 0 2) := by
  obtain ⟨h1, _, h2⟩ := C87_overlap (0 : Fin 5) 2 (by decide) 2 (by norm_num) (fun _ => 1 / 2) (fun _ => 1 / 4)
    (fun _ => by norm_num)
  exact ⟨h1, h2⟩

end Cyjax
