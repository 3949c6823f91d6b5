import Verif.Model.Util
import Mathlib.Tactic.Ring
import Mathlib.Tactic.Linarith
import Mathlib.Data.List.OfFn

namespace Cyjax

variable {α : Type*}

theorem roll_apply {n : ℕ} (a : Fin n → α) (s : ℤ) (i k : Fin n) (c : ℤ)
    (h : ((i : ℕ) : ℤ) - s = ((k : ℕ) : ℤ) + c * n) : roll a s i = a k := by
  unfold roll
  congr 1
  apply Fin.ext
  have hn : (0 : ℤ) < n := by have := i.2; omega
  have : (((i : ℕ) : ℤ) - s).emod n = ((k : ℕ) : ℤ) := by
    rw [h]
    change (((k : ℕ) : ℤ) + c * n) % (n : ℤ) = _
    rw [Int.add_mul_emod_self_right]
    exact Int.emod_eq_of_lt (by omega) (by have := k.2; omega)
  simp only [this, Int.toNat_natCast]

namespace Util

theorem pop_fst {n : ℕ} (arr : Fin (n + 1) → α) (i : Fin (n + 1)) :
    (pop arr i).1 = arr i := by
  unfold pop
  exact roll_apply _ _ _ _ 0 (by simp)

theorem pop_snd {n : ℕ} (arr : Fin (n + 1) → α) (i : Fin (n + 1)) :
    (pop arr i).2 = fun k => arr (i.succAbove k) := by
  funext k
  unfold pop
  simp only
  have hk := k.2
  have hi := i.2
  by_cases h : k.castSucc < i
  · rw [Fin.succAbove_of_castSucc_lt _ _ h]
    have h' : (k : ℕ) < i := h
    -- rolled[1:][k - i mod n]; k - i + n
    have e1 : roll (tail1 (roll arr (-((i : ℕ) : ℤ)))) ((i : ℕ) : ℤ) k
        = tail1 (roll arr (-((i : ℕ) : ℤ))) ⟨k + n - i, by omega⟩ := by
      apply roll_apply _ _ _ _ (-1)
      push_cast [show (i : ℕ) ≤ k + n by omega]; ring
    rw [e1]; unfold tail1
    apply roll_apply _ _ _ _ 1
    simp only [Fin.val_succ, Fin.val_castSucc]
    push_cast [show (i : ℕ) ≤ k + n by omega]; ring
  · rw [Fin.succAbove_of_le_castSucc _ _ (not_lt.mp h)]
    have h' : (i : ℕ) ≤ k := by simpa [Fin.lt_def] using h
    have e1 : roll (tail1 (roll arr (-((i : ℕ) : ℤ)))) ((i : ℕ) : ℤ) k
        = tail1 (roll arr (-((i : ℕ) : ℤ))) ⟨k - i, by omega⟩ := by
      apply roll_apply _ _ _ _ 0
      push_cast [h']; ring
    rw [e1]; unfold tail1
    apply roll_apply _ _ _ _ 0
    simp only [Fin.val_succ]
    push_cast [h']; ring

/-- Entrywise description of `insert1d` at a position `p ≤ n`, for both signs of the index. -/
theorem insert1d_apply {n m : ℕ} (arr : Fin n → α) (val : Fin m → α) (p : ℕ) (hp : p ≤ n)
    (index : ℤ) (hi : index = p ∨ index = (p : ℤ) - (n + 1)) (k : Fin (n + m)) :
    insert1d arr val index k =
      if h1 : (k : ℕ) < p then arr ⟨k, by omega⟩
      else if h2 : (k : ℕ) < p + m then val ⟨k - p, by omega⟩
      else arr ⟨k - m, by have := k.2; omega⟩ := by
  have hk := k.2
  unfold insert1d
  -- shift = -p (or -(p - n)); both are handled with wrap count `w`
  obtain ⟨w, hw1, hw2⟩ : ∃ w : ℤ,
      (-(if index < 0 then index + 1 else index) : ℤ) = -(p : ℤ) + w * n ∧
      (if index < 0 then -(-(if index < 0 then index + 1 else index)) else index + m : ℤ)
        = (p : ℤ) + m - w * (n + m) := by
    rcases hi with hi | hi
    · exact ⟨0, by rw [if_neg (by omega)]; omega, by rw [if_neg (by omega)]; omega⟩
    · have : index < 0 := by omega
      exact ⟨1, by simp only [this, if_true]; omega, by simp only [this, if_true]; omega⟩
  rw [hw2, hw1]
  split_ifs with h1 h2
  · rw [roll_apply _ _ k (Fin.castAdd m ⟨k + n - p, by omega⟩) (w - 1) (by
      simp only [Fin.val_castAdd]; push_cast [show p ≤ (k : ℕ) + n by omega]; ring)]
    rw [Fin.append_left]
    apply roll_apply _ _ _ _ (1 - w)
    push_cast [show p ≤ (k : ℕ) + n by omega]; ring
  · rw [roll_apply _ _ k (Fin.natAdd n ⟨k - p, by omega⟩) (w - 1) (by
      simp only [Fin.val_natAdd]; push_cast [show p ≤ (k : ℕ) by omega]; ring)]
    rw [Fin.append_right]
  · rw [roll_apply _ _ k (Fin.castAdd m ⟨k - p - m, by omega⟩) w (by
      simp only [Fin.val_castAdd]
      push_cast [show p ≤ (k : ℕ) by omega, show m ≤ (k : ℕ) - p by omega]; ring)]
    rw [Fin.append_left]
    apply roll_apply _ _ _ _ (-w)
    push_cast [show p ≤ (k : ℕ) by omega, show m ≤ (k : ℕ) - p by omega, show m ≤ (k : ℕ) by omega]
    ring

theorem insertCol_apply {r n m : ℕ} (mat : Fin r → Fin n → α) (col : Fin r → Fin m → α)
    (index : ℤ) (i : Fin r) : insertCol mat col index i = insert1d (mat i) (col i) index := rfl

/-- The scalar case in terms of Mathlib's `insertNth`. -/
theorem insert1d_insertNth {n : ℕ} (arr : Fin n → α) (v : α) (p : Fin (n + 1)) :
    insert1d arr (fun _ : Fin 1 => v) ((p : ℕ) : ℤ) = p.insertNth (α := fun _ => α) v arr := by
  funext k
  rw [insert1d_apply arr _ p (by omega) _ (Or.inl rfl)]
  have hk := k.2; have hp := p.2
  rcases lt_trichotomy k p with h | h | h
  · have h' : (k : ℕ) < p := h
    rw [dif_pos h', Fin.insertNth_apply_below h]
    simp only [eq_rec_constant]
    rfl
  · subst h
    rw [dif_neg (by omega), dif_pos (by omega), Fin.insertNth_apply_same]
  · have h' : (p : ℕ) < k := h
    rw [dif_neg (by omega), dif_neg (by omega), Fin.insertNth_apply_above h]
    simp only [eq_rec_constant]
    congr 1

theorem insertCol1_insertNth {r n : ℕ} (mat : Fin r → Fin n → α) (col : Fin r → α)
    (p : Fin (n + 1)) (i : Fin r) :
    insertCol1 mat col ((p : ℕ) : ℤ) i = p.insertNth (α := fun _ => α) (col i) (mat i) := by
  unfold insertCol1
  rw [insertCol_apply, insert1d_insertNth]

end Util
end Cyjax
