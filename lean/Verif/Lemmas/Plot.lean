import Verif.Spec.Plot
import Mathlib.Data.List.Basic
import Mathlib.Tactic.Linarith
import Mathlib.Tactic.Ring
import Mathlib.Data.List.ProdSigma
import Mathlib.Algebra.BigOperators.Group.Finset.Basic

/-! # Lemmas about the plots -/

namespace Cyjax

open Cyjax.TrainScript
open Cyjax.Polynomial (PyErr)
open Cyjax.Spec

theorem mem_indices : ∀ {sh idx : List ℕ}, idx ∈ indices sh ↔ NdValid sh idx
  | [], idx => by
    unfold indices
    rw [List.mem_singleton]
    constructor
    · rintro rfl; exact .nil
    · intro h; cases h; rfl
  | s :: sh, idx => by
    unfold indices
    simp only [List.mem_flatMap, List.mem_range, List.mem_map]
    constructor
    · rintro ⟨i, hi, is, his, rfl⟩
      exact .cons hi (mem_indices.1 his)
    · intro h
      cases h with
      | cons hi h => exact ⟨_, hi, _, mem_indices.2 h, rfl⟩

theorem nodup_indices : ∀ sh : List ℕ, (indices sh).Nodup
  | [] => by simp [indices]
  | s :: sh => by
    unfold indices
    rw [List.nodup_flatMap]
    refine ⟨fun i _ => (nodup_indices sh).map fun a b h => by simpa using h, ?_⟩
    refine List.Pairwise.imp ?_ List.nodup_range
    intro a b hab
    simp only [Function.onFun]
    intro x hx hy
    obtain ⟨u, -, rfl⟩ := List.mem_map.1 hx
    obtain ⟨w, -, h⟩ := List.mem_map.1 hy
    exact hab (by simpa using (List.cons.inj h).1.symm)

theorem offset_map : ∀ sh : List ℕ, (indices sh).map (ndOffset sh) = List.range sh.prod
  | [] => rfl
  | s :: sh => by
    unfold indices
    rw [List.map_flatMap, List.prod_cons]
    have h : ∀ i, ((indices sh).map (i :: ·)).map (ndOffset (s :: sh)) = (List.range sh.prod).map (i * sh.prod + ·) := by
      intro i
      rw [← offset_map sh, List.map_map, List.map_map]
      rfl
    simp only [h]
    induction s with
    | zero => simp
    | succ s ih =>
      rw [List.range_succ, List.flatMap_append, ih (by
        intro i
        rw [← offset_map sh, List.map_map, List.map_map]
        rfl), Nat.succ_mul, List.range_add]
      simp

theorem zip_indices (shape : List ℕ) (data : List ℝ) (h : data.length = shape.prod) :
    (indices shape).zip data = (indices shape).map fun idx => (idx, entryAt shape data idx) := by
  have hd : data = (indices shape).map (entryAt shape data) := by
    have : (indices shape).map (entryAt shape data) = (List.range shape.prod).map fun k => data.getD k 0 := by
      rw [← offset_map, List.map_map]
      rfl
    rw [this]
    refine List.ext_getElem (by simp [h]) fun k h1 h2 => ?_
    simp [h1]
  have hz : ∀ l : List (List ℕ), l.zip (l.map (entryAt shape data)) = l.map fun idx => (idx, entryAt shape data idx) := by
    intro l
    induction l with
    | nil => rfl
    | cons x l ih => rw [List.map_cons, List.zip_cons_cons, ih, List.map_cons]
  rw [← hz, ← hd]

/-- The positions at which the axes in `keep` have the values `out`. -/
def keptSet (shape keep out : List ℕ) : Set (List ℕ) :=
  {idx | NdValid shape idx ∧ keep.map (fun k => idx.getD k 0) = out}

theorem keptEntries_eq (shape : List ℕ) (data : List ℝ) (h : data.length = shape.prod) (keep out : List ℕ) :
    keptEntries shape data keep out
      = ((indices shape).filter fun idx => keep.map (fun k => idx.getD k 0) = out).map (entryAt shape data) := by
  unfold keptEntries
  rw [zip_indices _ _ h, List.filter_map, List.map_map]
  rfl

theorem foldl_min_least (l : List ℝ) : ∀ x : ℝ, IsLeast {y | y ∈ x :: l} (l.foldl Min.min x) := by
  induction l with
  | nil => intro x; simp [IsLeast, lowerBounds]
  | cons y l ih =>
    intro x
    obtain ⟨h1, h2⟩ := ih (min x y)
    rw [List.foldl_cons]
    constructor
    · rcases List.mem_cons.1 h1 with h | h
      · rw [h]
        rcases min_choice x y with e | e <;> rw [e] <;> simp
      · exact List.mem_cons_of_mem _ (List.mem_cons_of_mem _ h)
    · have hm := h2 (a := min x y) List.mem_cons_self
      intro z hz
      rcases List.mem_cons.1 hz with rfl | hz
      · exact hm.trans (min_le_left _ _)
      · rcases List.mem_cons.1 hz with rfl | hz
        · exact hm.trans (min_le_right _ _)
        · exact h2 (List.mem_cons_of_mem _ hz)

theorem foldl_max_greatest (l : List ℝ) : ∀ x : ℝ, IsGreatest {y | y ∈ x :: l} (l.foldl Max.max x) := by
  induction l with
  | nil => intro x; simp [IsGreatest, upperBounds]
  | cons y l ih =>
    intro x
    obtain ⟨h1, h2⟩ := ih (max x y)
    rw [List.foldl_cons]
    constructor
    · rcases List.mem_cons.1 h1 with h | h
      · rw [h]
        rcases max_choice x y with e | e <;> rw [e] <;> simp
      · exact List.mem_cons_of_mem _ (List.mem_cons_of_mem _ h)
    · have hm := h2 (a := max x y) List.mem_cons_self
      intro z hz
      rcases List.mem_cons.1 hz with rfl | hz
      · exact (le_max_left _ _).trans hm
      · rcases List.mem_cons.1 hz with rfl | hz
        · exact (le_max_right _ _).trans hm
        · exact h2 (List.mem_cons_of_mem _ hz)

theorem marg_list (m : Marg) (ix : List (List ℕ)) (hnd : ix.Nodup) (hne : ix ≠ []) (f : List ℕ → ℝ) :
    ∃ v, m.apply (ix.map f) = .ok v ∧ Summarises m {idx | idx ∈ ix} f v := by
  obtain ⟨i, ix', rfl⟩ := List.exists_cons_of_ne_nil hne
  have him : f '' {idx | idx ∈ i :: ix'} = {y | y ∈ f i :: ix'.map f} := by
    ext y
    simp only [Set.mem_image, Set.mem_ofPred_eq, ← List.map_cons, List.mem_map]
  cases m with
  | min =>
    refine ⟨_, rfl, ?_⟩
    simp only [Summarises]
    rw [him]
    exact foldl_min_least _ _
  | max =>
    refine ⟨_, rfl, ?_⟩
    simp only [Summarises]
    rw [him]
    exact foldl_max_greatest _ _
  | mean =>
    refine ⟨_, rfl, ?_⟩
    simp only [Summarises]
    have hset : {idx | idx ∈ i :: ix'} = (((i :: ix').toFinset : Finset (List ℕ)) : Set (List ℕ)) := by
      ext y; simp
    rw [hset, finsum_mem_coe_finset, List.sum_toFinset _ hnd, Nat.card_eq_fintype_card]
    simp only [Finset.coe_sort_coe, Fintype.card_coe, List.toFinset_card_of_nodup hnd, List.map_cons, List.length_cons,
      List.length_map]

theorem marg_kept (m : Marg) (shape : List ℕ) (data : List ℝ) (h : data.length = shape.prod) (keep out : List ℕ)
    (hne : (keptSet shape keep out).Nonempty) :
    ∃ v, m.apply (keptEntries shape data keep out) = .ok v ∧
      Summarises m (keptSet shape keep out) (entryAt shape data) v := by
  rw [keptEntries_eq _ _ h]
  have hset : keptSet shape keep out
      = {idx | idx ∈ (indices shape).filter fun idx => keep.map (fun k => idx.getD k 0) = out} := by
    ext idx
    simp [keptSet, mem_indices]
  rw [hset]
  refine marg_list m _ ((nodup_indices shape).filter _) ?_ _
  obtain ⟨idx, hidx⟩ := hne
  rw [hset] at hidx
  exact List.ne_nil_of_mem hidx

theorem ndValid_of_forall : ∀ (sh idx : List ℕ), sh.length = idx.length → (∀ k, k < sh.length → idx.getD k 0 < sh.getD k 0) →
    NdValid sh idx
  | [], [], _, _ => .nil
  | s :: sh, i :: is, hl, h => by
    refine .cons (by simpa using h 0 (by simp)) (ndValid_of_forall sh is (by simpa using hl) fun k hk => ?_)
    simpa using h (k + 1) (by simpa using hk)
  | [], _ :: _, hl, _ => by simp at hl
  | _ :: _, [], hl, _ => by simp at hl

theorem kept_nonempty (shape : List ℕ) (hpos : ∀ s ∈ shape, 0 < s) (g : ℕ → ℕ)
    (hg : ∀ k, k < shape.length → g k < shape.getD k 0 ∨ g k = 0) :
    NdValid shape ((List.range shape.length).map g) := by
  refine ndValid_of_forall _ _ (by simp) fun k hk => ?_
  have e : ((List.range shape.length).map g).getD k 0 = g k := by simp [hk]
  rw [e]
  rcases hg k hk with h | h
  · exact h
  · rw [h]
    simpa [hk] using hpos _ (List.getElem_mem hk)

end Cyjax
