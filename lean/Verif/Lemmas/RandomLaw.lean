import Verif.Spec.RandomLaw
import Verif.Props.Random
import Mathlib.MeasureTheory.Integral.IntervalIntegral.Periodic
import Mathlib.MeasureTheory.Measure.Haar.Unique
import Mathlib.Analysis.SpecialFunctions.Complex.Circle
import Mathlib.MeasureTheory.Constructions.BorelSpace.Real
import Mathlib.MeasureTheory.Function.SpecialFunctions.Basic

/-! # Laws of random points (helpers for C88, C95) -/

namespace Cyjax.Random

open MeasureTheory Cyjax.Spec Cyjax.Projective
open scoped BigOperators

instance : IsProbabilityMeasure unifDraw := ⟨by simp [unifDraw]⟩

instance (n : ℕ) : IsProbabilityMeasure (unifRow n) := by unfold unifRow; infer_instance

/-- The angle draws are uniform on the circle. -/
theorem mk_unifDraw : MeasurePreserving (fun a : ℝ => (a : UnitAddCircle)) unifDraw volume := by
  have := UnitAddCircle.measurePreserving_mk 0
  rw [zero_add, ← Measure.restrict_congr_set (Ico_ae_eq_Ioc (μ := volume) (a := (0 : ℝ)) (b := 1))] at this
  exact this

theorem refl_unifDraw : MeasurePreserving (fun r : ℝ => 1 - r) unifDraw unifDraw := by
  have h := (Measure.measurePreserving_sub_left (volume : Measure ℝ) 1).restrict_preimage
    (s := Set.Ico 0 1) measurableSet_Ico
  have hpre : (fun r : ℝ => 1 - r) ⁻¹' Set.Ico 0 1 = Set.Ioc 0 1 := by
    ext x
    simp only [Set.mem_preimage, Set.mem_Ico, Set.mem_Ioc]
    constructor <;> rintro ⟨h1, h2⟩ <;> constructor <;> linarith
  rw [hpre, ← Measure.restrict_congr_set (Ico_ae_eq_Ioc (μ := volume) (a := (0 : ℝ)) (b := 1))] at h
  exact h

/-- Radii of `projective_overlap`. -/
noncomputable def radius {n : ℕ} (o : Fin (n + 1)) (s : ℝ) (r : Fin (n + 1) → ℝ) (i : Fin (n + 1)) : ℝ :=
  if i = o then Real.exp (Real.log s * (2 * r 0 - 1))
  else min (s * Real.exp (Real.log s * (2 * r 0 - 1))) s * Real.sqrt (r i)

/-- The point with the given radii and angles. -/
noncomputable def point {n : ℕ} (o : Fin (n + 1)) (s : ℝ) (r : Fin (n + 1) → ℝ) (t : Fin (n + 1) → UnitAddCircle)
    (i : Fin (n + 1)) : ℂ := (radius o s r i : ℂ) * (AddCircle.toCircle (t i) : ℂ)

theorem coe_toCircle (a : ℝ) : (AddCircle.toCircle ((a : ℝ) : UnitAddCircle) : ℂ) =
    Complex.exp (2 * Complex.I * Real.pi * a) := by
  rw [AddCircle.toCircle_apply_mk, Circle.coe_exp]
  congr 1
  push_cast
  ring

theorem overlap_eq {n : ℕ} (p : Fin (n + 2)) (o : Fin (n + 1)) (s : ℝ) (r a : Fin (n + 1) → ℝ) :
    projectiveOverlap ((p : ℕ) : ℤ) ((p.succAbove o : Fin (n + 2)) : ℕ) s r a =
      point o s r fun i => (a i : UnitAddCircle) := by
  funext i
  have hrad : Real.exp (Real.log (1 / s) + (Real.log s - Real.log (1 / s)) * r 0) =
      Real.exp (Real.log s * (2 * r 0 - 1)) := by
    rw [one_div, Real.log_inv]
    congr 1
    ring
  unfold projectiveOverlap point radius setAt
  simp only
  rw [overlap_index, hrad, coe_toCircle, if_neg (by omega : ¬ ((o : ℕ) : ℤ) < 0)]
  by_cases h : i = o
  · subst h
    rw [if_pos rfl, if_pos rfl]
  · have h' : ¬ ((o : ℕ) : ℤ) = (i : ℕ) := fun h' => h (Fin.ext (by exact_mod_cast h'.symm))
    rw [if_neg h', if_neg h]

theorem measurable_radius {n : ℕ} (o : Fin (n + 1)) (s : ℝ) (i : Fin (n + 1)) :
    Measurable fun r : Fin (n + 1) → ℝ => radius o s r i := by
  unfold radius
  by_cases h : i = o
  · simp only [h, if_true]
    fun_prop
  · simp only [h, if_false]
    fun_prop

theorem measurable_point {n : ℕ} (o : Fin (n + 1)) (s : ℝ) :
    Measurable fun x : (Fin (n + 1) → ℝ) × (Fin (n + 1) → UnitAddCircle) => point o s x.1 x.2 := by
  rw [measurable_pi_iff]
  intro i
  unfold point
  refine Measurable.mul ?_ ?_
  · exact Complex.measurable_ofReal.comp ((measurable_radius o s i).comp measurable_fst)
  · have h : Continuous fun t : UnitAddCircle => (AddCircle.toCircle t : ℂ) :=
      continuous_subtype_val.comp AddCircle.continuous_toCircle
    exact h.measurable.comp ((measurable_pi_apply i).comp measurable_snd)

/-- Law of radii draws and angles. -/
noncomputable def drawLaw (n : ℕ) : Measure ((Fin n → ℝ) × (Fin n → UnitAddCircle)) :=
  (unifRow n).prod (Measure.pi fun _ => volume)

theorem mk_row (n : ℕ) : MeasurePreserving
    (fun x : (Fin n → ℝ) × (Fin n → ℝ) => (x.1, fun i => (x.2 i : UnitAddCircle)))
    ((unifRow n).prod (unifRow n)) (drawLaw n) :=
  (MeasurePreserving.id _).prod (measurePreserving_pi (fun _ => unifDraw) (fun _ => volume) fun _ => mk_unifDraw)

theorem overlapLaw_eq {n : ℕ} (p : Fin (n + 2)) (o : Fin (n + 1)) (s : ℝ) :
    overlapLaw ((p : ℕ) : ℤ) ((p.succAbove o : Fin (n + 2)) : ℕ) s =
      (drawLaw (n + 1)).map fun x => point o s x.1 x.2 := by
  unfold overlapLaw
  rw [← (mk_row (n + 1)).map_eq, Measure.map_map (measurable_point o s) (mk_row (n + 1)).measurable]
  congr 1
  funext x
  exact overlap_eq p o s x.1 x.2

/-- Change of chart between the first two patches on the angles. -/
def shiftAngles (n : ℕ) : (Fin (n + 1) → UnitAddCircle) →+ (Fin (n + 1) → UnitAddCircle) where
  toFun t i := if i = 0 then - t 0 else t i - t 0
  map_zero' := by funext i; simp
  map_add' t u := by
    funext i
    by_cases h : i = 0
    · simp [h, add_comm]
    · simp [h]; abel

theorem shiftAngles_preserving (n : ℕ) : MeasurePreserving (shiftAngles n)
    (Measure.pi fun _ => (volume : Measure UnitAddCircle)) (Measure.pi fun _ => volume) := by
  refine (shiftAngles n).measurePreserving ?_ ?_ rfl
  · refine continuous_pi fun i => ?_
    change Continuous fun t : Fin (n + 1) → UnitAddCircle => if i = 0 then - t 0 else t i - t 0
    by_cases h : i = 0
    · simp only [h, if_true]; fun_prop
    · simp only [h, if_false]; fun_prop
  · intro t
    refine ⟨shiftAngles n t, ?_⟩
    funext i
    change (if i = 0 then - (if (0 : Fin (n + 1)) = 0 then - t 0 else t 0 - t 0) else
      (if i = 0 then - t 0 else t i - t 0) - (if (0 : Fin (n + 1)) = 0 then - t 0 else t 0 - t 0)) = t i
    by_cases h : i = 0
    · simp [h]
    · simp [h]

/-- The same on the radii draws. -/
def flipRadius (n : ℕ) (r : Fin (n + 1) → ℝ) : Fin (n + 1) → ℝ := fun i => if i = 0 then 1 - r i else r i

theorem flipRadius_preserving (n : ℕ) : MeasurePreserving (flipRadius n) (unifRow (n + 1)) (unifRow (n + 1)) := by
  have := measurePreserving_pi (fun _ : Fin (n + 1) => unifDraw) (fun _ => unifDraw)
    (f := fun i r => if i = 0 then 1 - r else r) fun i => by
      by_cases h : i = 0
      · simp only [h, if_true]; exact refl_unifDraw
      · simp only [h, if_false]; exact MeasurePreserving.id _
  exact this

theorem draw_preserving (n : ℕ) : MeasurePreserving
    (fun x : (Fin (n + 1) → ℝ) × (Fin (n + 1) → UnitAddCircle) => (flipRadius n x.1, shiftAngles n x.2))
    (drawLaw (n + 1)) (drawLaw (n + 1)) := (flipRadius_preserving n).prod (shiftAngles_preserving n)

/-- Change of chart between the first two patches. -/
theorem changeChart01 {n : ℕ} (z : Fin (n + 1) → ℂ) :
    changeChart z 0 1 = (fun i => if i = 0 then 1 / z 0 else z i / z 0) ∧
      changeChart z 1 0 = fun i => if i = 0 then 1 / z 0 else z i / z 0 := by
  constructor
  · have h := C19_change_chart z 0 1 (by simp)
    have e0 : (((0 : Fin (n + 2)) : ℕ) : ℤ) = 0 := by simp
    have e1 : (((1 : Fin (n + 2)) : ℕ) : ℤ) = 1 := by simp
    rw [← e0, ← e1, h]
    funext i
    have h1 : (1 : Fin (n + 2)) = (0 : Fin (n + 2)).succAbove 0 := by simp
    rw [homToAffine_apply]
    conv_lhs => arg 2; rw [h1, affineToHom_succAbove]
    refine Fin.cases ?_ (fun j => ?_) i
    · have : (1 : Fin (n + 2)).succAbove 0 = 0 := Fin.succAbove_ne_zero_zero (by simp)
      rw [this, affineToHom_same, if_pos rfl]
    · have : (1 : Fin (n + 2)).succAbove j.succ = (0 : Fin (n + 2)).succAbove j.succ := by
        apply Fin.ext; simp [Fin.succAbove, Fin.lt_def]
      rw [this, affineToHom_succAbove, if_neg (Fin.succ_ne_zero j)]
  · have h := C19_change_chart z 1 0 (by simp)
    have e0 : (((0 : Fin (n + 2)) : ℕ) : ℤ) = 0 := by simp
    have e1 : (((1 : Fin (n + 2)) : ℕ) : ℤ) = 1 := by simp
    rw [← e0, ← e1, h]
    funext i
    have h1 : (0 : Fin (n + 2)) = (1 : Fin (n + 2)).succAbove 0 := (Fin.succAbove_ne_zero_zero (by simp)).symm
    rw [homToAffine_apply]
    conv_lhs => arg 2; rw [h1, affineToHom_succAbove]
    refine Fin.cases ?_ (fun j => ?_) i
    · have : (0 : Fin (n + 2)).succAbove 0 = 1 := by simp
      rw [this, affineToHom_same, if_pos rfl]
    · have : (0 : Fin (n + 2)).succAbove j.succ = (1 : Fin (n + 2)).succAbove j.succ := by
        apply Fin.ext; simp [Fin.succAbove, Fin.lt_def]
      rw [this, affineToHom_succAbove, if_neg (Fin.succ_ne_zero j)]

theorem point_flip {n : ℕ} (s : ℝ) (r : Fin (n + 1) → ℝ) (t : Fin (n + 1) → UnitAddCircle) :
    (fun i => if i = 0 then 1 / point 0 s r t 0 else point 0 s r t i / point 0 s r t 0) =
      point 0 s (flipRadius n r) (shiftAngles n t) := by
  funext i
  have hr : radius 0 s r 0 = Real.exp (Real.log s * (2 * r 0 - 1)) := if_pos rfl
  have hf : radius 0 s (flipRadius n r) 0 = (radius 0 s r 0)⁻¹ := by
    rw [hr, ← Real.exp_neg]
    unfold radius flipRadius
    rw [if_pos rfl, if_pos rfl]
    congr 1
    ring
  have hpos : 0 < radius 0 s r 0 := by rw [hr]; exact Real.exp_pos _
  by_cases h : i = 0
  · subst h
    rw [if_pos rfl]
    unfold point
    rw [hf]
    change _ = _ * ((AddCircle.toCircle (- t 0) : Circle) : ℂ)
    rw [AddCircle.toCircle_neg, Circle.coe_inv]
    push_cast
    rw [one_div, mul_inv]
  · rw [if_neg h]
    unfold point
    change _ = _ * ((AddCircle.toCircle (if i = 0 then - t 0 else t i - t 0) : Circle) : ℂ)
    rw [if_neg h, sub_eq_add_neg, AddCircle.toCircle_add, AddCircle.toCircle_neg, Circle.coe_mul, Circle.coe_inv]
    have hi : radius 0 s (flipRadius n r) i = radius 0 s r i / radius 0 s r 0 := by
      have hfi : radius 0 s (flipRadius n r) i = min (s * radius 0 s (flipRadius n r) 0) s * Real.sqrt (r i) := by
        simp [radius, flipRadius, h]
      have hri : radius 0 s r i = min (s * radius 0 s r 0) s * Real.sqrt (r i) := by
        simp [radius, h]
      rw [hfi, hri, hf, mul_div_right_comm]
      congr 1
      rw [← min_div_div_right hpos.le, mul_div_cancel_right₀ _ hpos.ne', min_comm, div_eq_mul_inv]
    rw [hi]
    push_cast
    rw [div_eq_mul_inv, div_eq_mul_inv, mul_inv]
    ring

theorem measurable_changeChart {n : ℕ} (p q : Fin (n + 2)) (hpq : p ≠ q) :
    Measurable fun z : Fin (n + 1) → ℂ => changeChart z (p : ℕ) (q : ℕ) := by
  rw [measurable_pi_iff]
  intro k
  have hm : ∀ j, Measurable fun z : Fin (n + 1) → ℂ => affineToHom z (p : ℕ) j := by
    intro j
    rcases eq_or_ne j p with rfl | hj
    · simp only [affineToHom_same]; exact measurable_const
    · obtain ⟨i, rfl⟩ := Fin.exists_succAbove_eq hj
      simp only [affineToHom_succAbove]
      exact measurable_pi_apply i
  simp only [C19_change_chart _ p q hpq, homToAffine_apply]
  exact (hm _).div (hm _)

end Cyjax.Random
