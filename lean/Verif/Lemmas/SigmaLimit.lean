import Verif.Lemmas.EtaMeasure
import Verif.Lemmas.Concentration

/-! # The accuracy from a sample and its limit -/

namespace Cyjax

open MeasureTheory MvPolynomial Cyjax.Spec Cyjax.Donaldson Cyjax.Polynomial Cyjax.Variety Set
open scoped ENNReal

/-- The accuracy from a list of points differs little from `γ / α` if the three means are close to `α`, `β` and `γ`. -/
theorem sigma_close {X : Type*} (Zs : List X) (η w : X → ℝ) (hpos : ∀ Z ∈ Zs, 0 < η Z ∧ 0 < w Z) (N : ℝ) (hN : 0 < N)
    (α β γ t : ℝ) (hα : 0 < α) (hβ : 0 < β) (hγ : 0 ≤ γ) (ht : t ≤ α / 2)
    (ha : |(Zs.map w).sum / N - α| ≤ t) (hb : |(Zs.map fun Z => η Z * w Z).sum / N - β| ≤ t)
    (hc : |(Zs.map fun Z => |1 - η Z * α / β| * w Z).sum / N - γ| ≤ t) :
    |(Zs.map fun Z => |1 - η Z * (Zs.map w).sum / (Zs.map fun Z => η Z * w Z).sum| * w Z).sum / (Zs.map w).sum - γ / α| ≤
      t * (2 / α * (2 + α / β + γ / α)) := by
  have ht0 : 0 ≤ t := (abs_nonneg _).trans ha
  set W := (Zs.map w).sum with hW
  set E := (Zs.map fun Z => η Z * w Z).sum with hE
  set a := W / N with haD
  set b := E / N with hbD
  set c := (Zs.map fun Z => |1 - η Z * α / β| * w Z).sum / N with hcD
  set s := (Zs.map fun Z => |1 - η Z * W / E| * w Z).sum with hs
  have ha2 : α / 2 ≤ a := by have := abs_le.1 ha; linarith
  have ha0 : 0 < a := by linarith [half_pos hα]
  have hW0 : 0 < W := by
    have : W = a * N := by rw [haD]; field_simp
    rw [this]; positivity
  have hne : Zs ≠ [] := by
    rintro rfl
    simp [hW] at hW0
  have hE0 : 0 < E := by
    refine List.sum_pos _ ?_ (by simpa using hne)
    intro x hx
    obtain ⟨Z, hZ, rfl⟩ := List.mem_map.1 hx
    exact mul_pos (hpos Z hZ).1 (hpos Z hZ).2
  have hb0 : 0 < b := div_pos hE0 hN
  have hWE : ∀ Z, η Z * W / E = η Z * (a / b) := fun Z => by
    rw [haD, hbD]
    field_simp
  have hdiff : ∀ l : List X, (∀ Z ∈ l, 0 < η Z ∧ 0 < w Z) →
      |(l.map fun Z => |1 - η Z * W / E| * w Z).sum - (l.map fun Z => |1 - η Z * α / β| * w Z).sum| ≤
        (l.map fun Z => η Z * w Z).sum * |a / b - α / β| := by
    intro l hl
    induction l with
    | nil => simp
    | cons Z l ih =>
      simp only [List.map_cons, List.sum_cons]
      have h1 := ih fun Z hZ => hl Z (by simp [hZ])
      obtain ⟨p1, p2⟩ := hl Z (by simp)
      have h2 : |(|1 - η Z * W / E| * w Z) - |1 - η Z * α / β| * w Z| ≤ η Z * w Z * |a / b - α / β| := by
        rw [← sub_mul, abs_mul, abs_of_pos p2, hWE]
        have : |(|1 - η Z * (a / b)| - |1 - η Z * α / β|)| ≤ η Z * |a / b - α / β| := by
          refine (abs_abs_sub_abs_le _ _).trans ?_
          rw [show 1 - η Z * (a / b) - (1 - η Z * α / β) = -(η Z * (a / b - α / β)) by ring, abs_neg, abs_mul, abs_of_pos p1]
        calc _ ≤ η Z * |a / b - α / β| * w Z := mul_le_mul_of_nonneg_right this p2.le
          _ = _ := by ring
      calc _ = |((|1 - η Z * W / E| * w Z) - |1 - η Z * α / β| * w Z) +
            ((l.map fun Z => |1 - η Z * W / E| * w Z).sum - (l.map fun Z => |1 - η Z * α / β| * w Z).sum)| := by
            congr 1; ring
        _ ≤ _ := (abs_add_le _ _).trans (add_le_add h2 h1)
        _ = _ := by ring
  have h1 : |s / N - c| ≤ |a - b * (α / β)| := by
    have := hdiff Zs hpos
    rw [hcD, ← sub_div, abs_div, abs_of_pos hN, div_le_iff₀ hN]
    rw [← hE] at this
    refine this.trans (le_of_eq ?_)
    rw [show a - b * (α / β) = b * (a / b - α / β) by field_simp, abs_mul, abs_of_pos hb0, hbD]
    field_simp
  have h2 : |a - b * (α / β)| ≤ t + α / β * t := by
    rw [show a - b * (α / β) = (a - α) - (α / β) * (b - β) by field_simp; ring]
    refine (abs_sub _ _).trans (add_le_add ha ?_)
    rw [abs_mul, abs_of_pos (div_pos hα hβ)]
    exact mul_le_mul_of_nonneg_left hb (div_pos hα hβ).le
  have h3 : |c - a * (γ / α)| ≤ t + γ / α * t := by
    rw [show c - a * (γ / α) = (c - γ) - (γ / α) * (a - α) by field_simp; ring]
    refine (abs_sub _ _).trans (add_le_add hc ?_)
    rw [abs_mul, abs_of_nonneg (div_nonneg hγ hα.le)]
    exact mul_le_mul_of_nonneg_left ha (div_nonneg hγ hα.le)
  have h4 : s / W - γ / α = ((s / N - c) + (c - a * (γ / α))) / a := by
    rw [haD]
    field_simp
    ring
  rw [h4, abs_div, abs_of_pos ha0, div_le_iff₀ ha0]
  have h5 : |(s / N - c) + (c - a * (γ / α))| ≤ t * (2 + α / β + γ / α) := by
    refine (abs_add_le _ _).trans ?_
    linarith
  have hQ : 0 ≤ 2 + α / β + γ / α := by positivity
  calc _ ≤ t * (2 + α / β + γ / α) := h5
    _ = t * (2 / α * (2 + α / β + γ / α)) * (α / 2) := by field_simp
    _ ≤ t * (2 / α * (2 + α / β + γ / α)) * a := mul_le_mul_of_nonneg_left ha2 (by positivity)

end Cyjax
