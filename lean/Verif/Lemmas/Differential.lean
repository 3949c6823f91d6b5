import Verif.Model.Differential
import Verif.Lemmas.Array
import Mathlib.LinearAlgebra.Matrix.Adjugate
import Mathlib.LinearAlgebra.Matrix.NonsingularInverse
import Mathlib.LinearAlgebra.Matrix.PosDef
import Mathlib.Algebra.BigOperators.Fin
import Mathlib.Analysis.Complex.Basic

namespace Cyjax.Differential

open Cyjax.Util Matrix
open scoped BigOperators

variable {K : Type*} [Field K]

theorem jacobianEmbed_eq {n : ℕ} (G : Fin (n + 1) → K) (d : Fin (n + 1)) (k : Fin n) :
    jacobianEmbed G (d : ℕ) k =
      d.insertNth (α := fun _ => K) (-G (d.succAbove k) / G d) (fun l => if k = l then 1 else 0) := by
  unfold jacobianEmbed
  simp only [pop_fst, pop_snd]
  rw [insertCol1_insertNth]

@[simp] theorem jacobianEmbed_dep {n : ℕ} (G : Fin (n + 1) → K) (d : Fin (n + 1)) (k : Fin n) :
    jacobianEmbed G (d : ℕ) k d = -G (d.succAbove k) / G d := by
  rw [jacobianEmbed_eq, Fin.insertNth_apply_same]

@[simp] theorem jacobianEmbed_indep {n : ℕ} (G : Fin (n + 1) → K) (d : Fin (n + 1)) (k l : Fin n) :
    jacobianEmbed G (d : ℕ) k (d.succAbove l) = if k = l then 1 else 0 := by
  rw [jacobianEmbed_eq, Fin.insertNth_apply_succAbove]

theorem pullback_eq {m n : ℕ} (J Jc : Matrix (Fin m) (Fin n) K) (g : Matrix (Fin n) (Fin n) K) :
    pullback J Jc g = J * g * Jcᵀ := by
  ext i k
  simp only [pullback, mul_apply, transpose_apply, Finset.sum_mul]
  rw [Finset.sum_comm]
  apply Finset.sum_congr rfl; intro l _
  apply Finset.sum_congr rfl; intro j _
  ring

/-- Entry formula valid in every column. -/
theorem jacobianEmbed_apply {n : ℕ} (G : Fin (n + 1) → K) (d : Fin (n + 1)) (hd : G d ≠ 0)
    (k : Fin n) (j : Fin (n + 1)) :
    jacobianEmbed G (d : ℕ) k j =
      (if d.succAbove k = j then 1 else 0) - (if j = d then G (d.succAbove k) / G d else 0) := by
  rcases eq_or_ne j d with rfl | hj
  · rw [jacobianEmbed_dep, if_neg (Fin.succAbove_ne _ _), if_pos rfl]; ring
  · obtain ⟨l, rfl⟩ := Fin.exists_succAbove_eq hj
    rw [jacobianEmbed_indep, if_neg hj]
    simp

/-- Bijection between the coordinates other than `d'` and those other than `d`, exchanging `d`
and `d'`. -/
def frameEquiv {n : ℕ} (d d' : Fin (n + 1)) : Fin n ≃ Fin n :=
  (finSuccAboveEquiv d').trans
    (((Equiv.swap d d').subtypeEquiv (p := fun x => x ≠ d') (q := fun x => x ≠ d) (by
      intro a
      rw [not_iff_not]
      constructor
      · rintro rfl; simp
      · intro h; exact (Equiv.swap d d').injective (h.trans (Equiv.swap_apply_right d d').symm))).trans
      (finSuccAboveEquiv d).symm)

theorem succAbove_frameEquiv {n : ℕ} (d d' : Fin (n + 1)) (k : Fin n) :
    d.succAbove (frameEquiv d d' k) = Equiv.swap d d' (d'.succAbove k) := by
  have := congrArg Subtype.val ((finSuccAboveEquiv d).apply_symm_apply
    ((Equiv.swap d d').subtypeEquiv (p := fun x => x ≠ d') (q := fun x => x ≠ d) (by
      intro a
      rw [not_iff_not]
      constructor
      · rintro rfl; simp
      · intro h; exact (Equiv.swap d d').injective (h.trans (Equiv.swap_apply_right d d').symm))
        (finSuccAboveEquiv d' k)))
  exact this

/-- The two tangent frames differ by a matrix of determinant `-G_d / G_{d'}` (up to relabelling of
the independent coordinates). -/
theorem frame_change {n : ℕ} (G : Fin (n + 1) → K) (d d' : Fin (n + 1)) (hne : d ≠ d') (hd : G d ≠ 0)
    (hd' : G d' ≠ 0) :
    ∃ A : Matrix (Fin n) (Fin n) K, A.det = -(G d / G d') ∧
      jacobianEmbed G (d' : ℕ) =
        A * (jacobianEmbed G (d : ℕ)).submatrix (frameEquiv d d') id := by
  obtain ⟨kd, hkd⟩ := Fin.exists_succAbove_eq hne
  -- identity with column `kd` replaced
  refine ⟨(1 : Matrix (Fin n) (Fin n) K).updateCol kd (fun k => -(G (d'.succAbove k) / G d')), ?_, ?_⟩
  · rw [← Matrix.cramer_apply, Matrix.cramer_one]; simp [hkd]
  · ext k j
    rw [mul_apply, Finset.sum_eq_add_sum_sdiff_singleton_of_mem (Finset.mem_univ kd)]
    have hrest : ∑ x ∈ Finset.univ \ {kd},
        (1 : Matrix (Fin n) (Fin n) K).updateCol kd (fun k => -(G (d'.succAbove k) / G d')) k x *
          (jacobianEmbed G (d : ℕ)).submatrix (frameEquiv d d') id x j =
        if k = kd then 0 else jacobianEmbed G (d : ℕ) (frameEquiv d d' k) j := by
      by_cases hk : k = kd
      · subst hk
        rw [if_pos rfl]
        apply Finset.sum_eq_zero
        intro x hx
        have hx' : x ≠ k := by simpa using hx
        rw [updateCol_ne hx', one_apply_ne hx'.symm, zero_mul]
      · rw [if_neg hk, Finset.sum_eq_single k]
        · rw [updateCol_ne hk, one_apply_eq, one_mul]; rfl
        · intro x hx hxk
          have hx' : x ≠ kd := by simpa using hx
          rw [updateCol_ne hx', one_apply_ne hxk.symm, zero_mul]
        · intro h; exact absurd (by simpa using hk) (by simpa using h)
    rw [hrest, updateCol_self]
    simp only [submatrix_apply, id]
    have hkd2 : d.succAbove (frameEquiv d d' kd) = d' := by
      rw [succAbove_frameEquiv, hkd, Equiv.swap_apply_left]
    rw [jacobianEmbed_apply G d hd, jacobianEmbed_apply G d hd, jacobianEmbed_apply G d' hd', hkd2]
    by_cases hk : k = kd
    · subst hk
      rw [if_pos rfl, hkd, add_zero]
      by_cases h1 : j = d
      · subst h1
        have : j ≠ d' := hne
        simp only [if_pos, if_neg this, if_neg this.symm]
        field_simp
        ring
      · by_cases h2 : j = d'
        · subst h2; simp [hne, h1]
        · simp [h1, h2, Ne.symm h1, Ne.symm h2]
    · have hk2 : d'.succAbove k ≠ d := fun h => hk (Fin.succAbove_right_injective (h.trans hkd.symm))
      have hsw : d.succAbove (frameEquiv d d' k) = d'.succAbove k := by
        rw [succAbove_frameEquiv, Equiv.swap_apply_of_ne_of_ne hk2 (Fin.succAbove_ne _ _)]
      rw [if_neg hk, hsw]
      by_cases h1 : j = d
      · subst h1
        have : j ≠ d' := hne
        simp only [if_pos, if_neg this, if_neg this.symm, if_neg hk2]
        field_simp
        ring
      · by_cases h2 : j = d'
        · subst h2
          simp only [if_pos, if_neg h1, if_neg (Fin.succAbove_ne j k)]
          ring
        · simp [h1, h2, Ne.symm h2]

end Cyjax.Differential
