import Verif.Lemmas.Array
import Mathlib.Data.List.OfFn
import Mathlib.Data.List.GetD
import Mathlib.Data.Fin.VecNotation

/-! # Properties C01–C05: `pop`, `insert_1d`, `insert_col`

Arrays are compared with python lists through `List.ofFn`; the specifications use only
`List.eraseIdx`, `List.take`, `List.drop` and `++`. -/

namespace Cyjax

variable {α : Type*}

/-- **C01.** `pop(arr, i)` returns `arr[i]` and the array without position `i`, in order. -/
theorem C01_pop {n : ℕ} (arr : Fin (n + 1) → α) (i : ℕ) (hi : i < n + 1) :
    (Util.pop arr i).1 = arr ⟨i, hi⟩ ∧
      List.ofFn (Util.pop arr i).2 = (List.ofFn arr).eraseIdx i := by
  refine ⟨Util.pop_fst arr ⟨i, hi⟩, ?_⟩
  rw [Util.pop_snd arr ⟨i, hi⟩]
  apply List.ext_getElem
  · rw [List.length_eraseIdx]; simp [hi]
  · intro k h1 h2
    simp only [List.length_ofFn] at h1
    simp only [List.getElem_ofFn, List.getElem_eraseIdx]
    split_ifs with hk
    · rw [Fin.succAbove_of_castSucc_lt _ _ (by simpa [Fin.lt_def] using hk)]; rfl
    · rw [Fin.succAbove_of_le_castSucc _ _ (by simp [Fin.le_def]; omega)]; rfl

example : (Util.pop ![(10 : ℕ), 20, 30, 40] 2).1 = 30 ∧
    List.ofFn (Util.pop ![(10 : ℕ), 20, 30, 40] 2).2 = [10, 20, 40] := by decide

/-- **C02, the half that holds.** For a negative index the returned value is `arr[i]` counted from
the end. Missing: the order of the remaining entries, see `C02_pop_negative_violated`. -/
theorem C02_pop_negative_partial {n : ℕ} (arr : Fin (n + 1) → α) (j : ℕ) (hj : 1 ≤ j)
    (hjn : j ≤ n + 1) :
    (Util.pop arr (-(j : ℤ))).1 = arr ⟨n + 1 - j, by omega⟩ :=
  roll_apply _ _ _ _ (-1) (by push_cast; simp only [Fin.val_zero]; omega)

/-- **C02, what the code does.** The remaining entries come out rotated by one: the result is the
right remainder rolled by one place. -/
theorem C02_pop_negative_rotated {n : ℕ} (arr : Fin (n + 1) → α) (j : ℕ) (hj : 1 ≤ j)
    (hjn : j ≤ n + 1) :
    (Util.pop arr (-(j : ℤ))).2 = roll (fun k => arr (Fin.succAbove ⟨n + 1 - j, by omega⟩ k)) (-1) := by
  rw [← Util.pop_snd arr ⟨n + 1 - j, by omega⟩]
  funext k
  have hn : 0 < n := by have := k.2; omega
  have hk := k.2
  -- the index read after `roll (-1)`
  by_cases hlast : (k : ℕ) + 1 < n
  · rw [roll_apply _ (-1) k ⟨k + 1, hlast⟩ 0 (by push_cast; ring)]
    unfold Util.pop; simp only
    have e : roll arr (-(-(j : ℤ))) = roll arr (-((n + 1 - j : ℕ) : ℤ)) := by
      funext q
      unfold roll; congr 1; apply Fin.ext; simp only
      congr 1
      change (_ : ℤ) % _ = _ % _
      rw [show (((q : ℕ) : ℤ) - -(-(j : ℤ))) = (((q : ℕ) : ℤ) - -((n + 1 - j : ℕ) : ℤ))
        + (n + 1 : ℕ) * (-1) by push_cast [Nat.cast_sub hjn]; ring]
      exact Int.add_mul_emod_self_left _ _ _
    rw [e]
    unfold roll; congr 1; apply Fin.ext; simp only
    congr 1
    change (_ : ℤ) % _ = _ % _
    rw [show (((k : ℕ) : ℤ) - -(j : ℤ)) = (((k + 1 : ℕ) : ℤ) - ((n + 1 - j : ℕ) : ℤ))
        + n * 1 by push_cast [Nat.cast_sub hjn]; ring]
    exact Int.add_mul_emod_self_left _ _ _
  · have hkn : (k : ℕ) + 1 = n := by omega
    rw [roll_apply _ (-1) k ⟨0, hn⟩ 1 (by push_cast; omega)]
    unfold Util.pop; simp only
    have e : roll arr (-(-(j : ℤ))) = roll arr (-((n + 1 - j : ℕ) : ℤ)) := by
      funext q
      unfold roll; congr 1; apply Fin.ext; simp only
      congr 1
      change (_ : ℤ) % _ = _ % _
      rw [show (((q : ℕ) : ℤ) - -(-(j : ℤ))) = (((q : ℕ) : ℤ) - -((n + 1 - j : ℕ) : ℤ))
        + (n + 1 : ℕ) * (-1) by push_cast [Nat.cast_sub hjn]; ring]
      exact Int.add_mul_emod_self_left _ _ _
    rw [e]
    unfold roll; congr 1; apply Fin.ext; simp only
    congr 1
    change (_ : ℤ) % _ = _ % _
    rw [show (((k : ℕ) : ℤ) - -(j : ℤ)) = (((0 : ℕ) : ℤ) - ((n + 1 - j : ℕ) : ℤ))
        + n * 2 by push_cast [Nat.cast_sub hjn]; omega]
    exact Int.add_mul_emod_self_left _ _ _

/-- **C02 is violated.** `pop([0,1,2,3], -1)` returns `3` and `[1,2,0]` instead of `[0,1,2]`. -/
theorem C02_pop_negative_violated :
    ∃ (arr : Fin 4 → ℕ), (Util.pop arr (-1)).1 = 3 ∧
      List.ofFn (Util.pop arr (-1)).2 = [1, 2, 0] ∧
      List.ofFn (Util.pop arr (-1)).2 ≠ (List.ofFn arr).eraseIdx 3 :=
  ⟨![0, 1, 2, 3], by decide⟩

example : (Util.pop ![(10 : ℕ), 20, 30, 40] (-2)).1 = 30 := by decide

/-- Position (counted from the front) at which the property says the block must start. -/
private theorem ofFn_insert1d {n m : ℕ} (arr : Fin n → α) (val : Fin m → α) (p : ℕ) (hp : p ≤ n)
    (index : ℤ) (hi : index = p ∨ index = (p : ℤ) - (n + 1)) :
    List.ofFn (Util.insert1d arr val index) =
      (List.ofFn arr).take p ++ List.ofFn val ++ (List.ofFn arr).drop p := by
  apply List.ext_getElem
  · simp; omega
  · intro k h1 h2
    simp only [List.length_ofFn] at h1
    rw [List.getElem_ofFn, Util.insert1d_apply arr val p hp index hi]
    simp only [List.getElem_append, List.length_append, List.length_take, List.length_ofFn,
      min_eq_left hp, List.getElem_take, List.getElem_ofFn, List.getElem_drop]
    by_cases c1 : k < p
    · simp [c1, show k < p + m by omega]
    · by_cases c2 : k < p + m
      · simp [c1, c2]
      · simp only [c1, c2, dite_false]
        congr 1; apply Fin.ext; simp only; omega

/-- **C03, non-negative index.** `insert_1d(arr, val, i) = arr[:i] ++ val ++ arr[i:]`. -/
theorem C03_insert1d {n m : ℕ} (arr : Fin n → α) (val : Fin m → α) (i : ℕ) (hi : i ≤ n) :
    List.ofFn (Util.insert1d arr val i) =
      (List.ofFn arr).take i ++ List.ofFn val ++ (List.ofFn arr).drop i :=
  ofFn_insert1d arr val i hi _ (Or.inl rfl)

/-- **C03, negative index.** Index `-j` (`1 ≤ j ≤ n + 1`) leaves exactly `j - 1` entries of `arr`
behind the block: the last entry of the block is at index `-j` of the output. -/
theorem C03_insert1d_negative {n m : ℕ} (arr : Fin n → α) (val : Fin m → α) (j : ℕ)
    (hj : 1 ≤ j) (hjn : j ≤ n + 1) :
    List.ofFn (Util.insert1d arr val (-(j : ℤ))) =
      (List.ofFn arr).take (n + 1 - j) ++ List.ofFn val ++ (List.ofFn arr).drop (n + 1 - j) :=
  ofFn_insert1d arr val (n + 1 - j) (by omega) _ (Or.inr (by push_cast [Nat.cast_sub hjn]; ring))

/-- **C03, the documented convention for negative indices and a single value**: entry `-j` of the
generated array (of length `n + 1`) is the inserted value. -/
theorem C03_insert1d_negative_scalar {n : ℕ} (arr : Fin n → α) (v : α) (j : ℕ)
    (hj : 1 ≤ j) (hjn : j ≤ n + 1) :
    Util.insert1d arr (fun _ : Fin 1 => v) (-(j : ℤ)) ⟨n + 1 - j, by omega⟩ = v := by
  rw [Util.insert1d_apply arr _ (n + 1 - j) (by omega) _
    (Or.inr (by push_cast [Nat.cast_sub hjn]; ring))]
  simp

example : List.ofFn (Util.insert1d ![(1 : ℕ), 2, 3] ![8, 9] 1) = [1, 8, 9, 2, 3] ∧
    List.ofFn (Util.insert1d ![(1 : ℕ), 2, 3] ![8, 9] (-1)) = [1, 2, 3, 8, 9] ∧
    List.ofFn (Util.insert1d ![(1 : ℕ), 2, 3] ![8, 9] (-4)) = [8, 9, 1, 2, 3] := by decide

/-- **C04.** `insert_col` does in every row what `insert_1d` is specified to do. -/
theorem C04_insertCol {r n m : ℕ} (mat : Fin r → Fin n → α) (col : Fin r → Fin m → α) (i : ℕ)
    (hi : i ≤ n) (row : Fin r) :
    List.ofFn (Util.insertCol mat col i row) =
      (List.ofFn (mat row)).take i ++ List.ofFn (col row) ++ (List.ofFn (mat row)).drop i :=
  ofFn_insert1d (mat row) (col row) i hi _ (Or.inl rfl)

/-- **C04, negative index.** -/
theorem C04_insertCol_negative {r n m : ℕ} (mat : Fin r → Fin n → α) (col : Fin r → Fin m → α)
    (j : ℕ) (hj : 1 ≤ j) (hjn : j ≤ n + 1) (row : Fin r) :
    List.ofFn (Util.insertCol mat col (-(j : ℤ)) row) =
      (List.ofFn (mat row)).take (n + 1 - j) ++ List.ofFn (col row) ++
        (List.ofFn (mat row)).drop (n + 1 - j) :=
  ofFn_insert1d (mat row) (col row) (n + 1 - j) (by omega) _
    (Or.inr (by push_cast [Nat.cast_sub hjn]; ring))

/-- **C04, a single 1d column** is inserted as one column. -/
theorem C04_insertCol_single {r n : ℕ} (mat : Fin r → Fin n → α) (col : Fin r → α) (i : ℕ)
    (hi : i ≤ n) (row : Fin r) :
    List.ofFn (Util.insertCol1 mat col i row) =
      (List.ofFn (mat row)).take i ++ [col row] ++ (List.ofFn (mat row)).drop i := by
  have := ofFn_insert1d (mat row) (fun _ : Fin 1 => col row) i hi _ (Or.inl rfl)
  rw [show List.ofFn (fun _ : Fin 1 => col row) = [col row] by simp] at this
  exact this

example : List.ofFn (Util.insertCol1 ![![(1 : ℕ), 2], ![3, 4]] ![8, 9] 1 1) = [3, 9, 4] := by decide

/-- **C05.** Inserting the popped value at the popped index restores the array. -/
theorem C05_insert_pop {n : ℕ} (arr : Fin (n + 1) → α) (i : ℕ) (hi : i < n + 1) :
    Util.insert1d (Util.pop arr i).2 (fun _ : Fin 1 => (Util.pop arr i).1) i = arr := by
  rw [Util.insert1d_insertNth (Util.pop arr i).2 (Util.pop arr i).1 ⟨i, hi⟩,
    Util.pop_snd arr ⟨i, hi⟩, Util.pop_fst arr ⟨i, hi⟩]
  exact Fin.insertNth_self_removeNth (α := fun _ => α) ⟨i, hi⟩ arr

/-- **C05.** Popping an inserted value returns the value and the original array. -/
theorem C05_pop_insert {n : ℕ} (arr : Fin n → α) (v : α) (i : ℕ) (hi : i ≤ n) :
    Util.pop (Util.insert1d arr (fun _ : Fin 1 => v) i) i = (v, arr) := by
  have hi' : i < n + 1 := by omega
  rw [Util.insert1d_insertNth arr v ⟨i, hi'⟩]
  ext
  · rw [Util.pop_fst _ ⟨i, hi'⟩]; simp
  · rw [Util.pop_snd _ ⟨i, hi'⟩]; simp

example : List.ofFn (Util.insert1d (Util.pop ![(1 : ℕ), 2, 3] 1).2 (fun _ : Fin 1 => 2) 1) =
    [1, 2, 3] := by decide

end Cyjax
