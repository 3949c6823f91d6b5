import Verif.Model.Projective
import Verif.Lemmas.Array

namespace Cyjax.Projective

open Cyjax.Util

variable {K : Type*} [Field K]

theorem homToAffine_apply {n : ℕ} (h : Fin (n + 1) → K) (p : Fin (n + 1)) (k : Fin n) :
    homToAffine h (p : ℕ) k = h (p.succAbove k) / h p := by
  unfold homToAffine
  simp only [pop_snd, pop_fst]

theorem affineToHom_eq {n : ℕ} (z : Fin n → K) (p : Fin (n + 1)) :
    affineToHom z (p : ℕ) = p.insertNth (α := fun _ => K) 1 z := insert1d_insertNth z 1 p

@[simp] theorem affineToHom_same {n : ℕ} (z : Fin n → K) (p : Fin (n + 1)) :
    affineToHom z (p : ℕ) p = 1 := by rw [affineToHom_eq]; simp

@[simp] theorem affineToHom_succAbove {n : ℕ} (z : Fin n → K) (p : Fin (n + 1)) (k : Fin n) :
    affineToHom z (p : ℕ) (p.succAbove k) = z k := by rw [affineToHom_eq]; simp

/-- The affine index of the homogeneous index `q ≠ p` in chart `p`, as a number. -/
theorem exists_affine_index {n : ℕ} (p q : Fin (n + 1)) (h : p ≠ q) :
    ∃ j : Fin n, p.succAbove j = q ∧ ((j : ℕ) : ℤ) = ((q : ℕ) : ℤ) - (if ((p : ℕ) : ℤ) < (q : ℕ) then 1 else 0) := by
  obtain ⟨j, hj⟩ := Fin.exists_succAbove_eq h.symm
  refine ⟨j, hj, ?_⟩
  subst hj
  by_cases hc : j.castSucc < p
  · rw [Fin.succAbove_of_castSucc_lt _ _ hc]
    have : (j : ℕ) < p := hc
    rw [if_neg (by simp; omega)]; simp
  · rw [Fin.succAbove_of_le_castSucc _ _ (not_lt.1 hc)]
    have : (p : ℕ) ≤ j := by simpa [Fin.lt_def] using hc
    rw [if_pos (by simp; omega)]; simp

theorem changeChart_eq {n : ℕ} (z : Fin (n + 1) → K) (p q : Fin (n + 2)) (hpq : p ≠ q) :
    changeChart z (p : ℕ) (q : ℕ) = homToAffine (affineToHom z (p : ℕ)) (q : ℕ) := by
  obtain ⟨j, hj, hj'⟩ := exists_affine_index p q hpq
  obtain ⟨i, hi, hi'⟩ := exists_affine_index q p hpq.symm
  unfold changeChart
  simp only [← hj', ← hi', pop_fst, pop_snd]
  rw [insert1d_insertNth _ _ i]
  funext k
  rw [homToAffine_apply]
  have hq : affineToHom z (p : ℕ) q = z j := by rw [← hj, affineToHom_succAbove]
  rw [hq]
  rcases eq_or_ne k i with rfl | hk
  · rw [Fin.insertNth_apply_same, hi, affineToHom_same]
  · obtain ⟨l, rfl⟩ := Fin.exists_succAbove_eq hk
    rw [Fin.insertNth_apply_succAbove]
    congr 1
    -- both sides are the homogeneous coordinate different from `p` and `q`
    have h2 : q.succAbove (i.succAbove l) = p.succAbove (j.succAbove l) := by
      clear hq hj hi
      apply Fin.ext
      have hpn := p.2; have hqn := q.2; have hln := l.2
      have hi2 : ((i : ℕ) : ℤ) = ((p : ℕ) : ℤ) - (if ((q : ℕ) : ℤ) < (p : ℕ) then 1 else 0) := hi'
      have hne : (p : ℕ) ≠ q := fun h => hpq (Fin.ext h)
      simp only [Fin.succAbove, Fin.lt_def, Fin.val_castSucc]
      split_ifs at * <;> simp at * <;> omega
    rw [h2, affineToHom_succAbove]

end Cyjax.Projective
