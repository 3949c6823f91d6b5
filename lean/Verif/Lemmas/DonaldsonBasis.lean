import Verif.Model.DonaldsonBasis
import Mathlib.Data.Nat.Choose.Basic
import Mathlib.Data.Multiset.Sort
import Mathlib.Algebra.BigOperators.Fin
import Mathlib.Tactic.Linarith

/-! # Lemmas about monomial bases -/

namespace Cyjax.Donaldson

theorem combinationsWR_length {α : Type*} (l : List α) (k : ℕ) :
    (combinationsWR l k).length = Nat.multichoose l.length k := by
  induction l, k using combinationsWR.induct with
  | case1 l => simp [combinationsWR]
  | case2 k => simp [combinationsWR]
  | case3 a l k ih1 ih2 =>
    rw [combinationsWR, List.length_append, List.length_map, ih1, ih2, List.length_cons, Nat.multichoose_succ_succ,
      add_comm]

theorem mem_combinationsWR {α : Type*} [LinearOrder α] (l : List α) (k : ℕ) (hl : l.Pairwise (· < ·)) (x : List α) :
    x ∈ combinationsWR l k ↔ x.length = k ∧ x.Pairwise (· ≤ ·) ∧ ∀ a ∈ x, a ∈ l := by
  induction l, k using combinationsWR.induct generalizing x with
  | case1 l =>
    simp only [combinationsWR, List.mem_singleton, List.length_eq_zero_iff]
    constructor
    · rintro rfl; simp
    · exact fun h => h.1
  | case2 k =>
    simp only [combinationsWR, List.not_mem_nil, false_iff]
    rintro ⟨h1, -, h2⟩
    cases x with
    | nil => simp at h1
    | cons a x => exact h2 a (by simp)
  | case3 a l k ih1 ih2 =>
    rw [combinationsWR, List.mem_append, List.mem_map]
    have hl' := List.pairwise_cons.1 hl
    constructor
    · rintro (⟨y, hy, rfl⟩ | hx)
      · obtain ⟨h1, h2, h3⟩ := (ih1 hl y).1 hy
        refine ⟨by simp [h1], ?_, ?_⟩
        · rw [List.pairwise_cons]
          refine ⟨fun b hb => ?_, h2⟩
          rcases List.mem_cons.1 (h3 b hb) with rfl | hb'
          · exact le_rfl
          · exact (hl'.1 b hb').le
        · intro b hb
          rcases List.mem_cons.1 hb with rfl | hb
          · simp
          · exact h3 b hb
      · obtain ⟨h1, h2, h3⟩ := (ih2 hl'.2 x).1 hx
        exact ⟨h1, h2, fun b hb => List.mem_cons_of_mem _ (h3 b hb)⟩
    · rintro ⟨h1, h2, h3⟩
      cases x with
      | nil => simp at h1
      | cons b y =>
        rw [List.pairwise_cons] at h2
        rcases List.mem_cons.1 (h3 b (by simp)) with rfl | hb
        · left
          exact ⟨y, (ih1 hl y).2 ⟨by simpa using h1, h2.2, fun c hc => h3 c (by simp [hc])⟩, rfl⟩
        · right
          refine (ih2 hl'.2 _).2 ⟨h1, List.pairwise_cons.2 h2, fun c hc => ?_⟩
          have hac : a < c := by
            rcases List.mem_cons.1 hc with rfl | hc
            · exact hl'.1 _ hb
            · exact lt_of_lt_of_le (hl'.1 _ hb) (h2.1 c hc)
          rcases List.mem_cons.1 (h3 c hc) with rfl | h
          · exact absurd hac (lt_irrefl _)
          · exact h

theorem combinationsWR_nodup {α : Type*} (l : List α) (k : ℕ) (hl : l.Nodup) : (combinationsWR l k).Nodup := by
  have hsub : ∀ (l : List α) (k : ℕ), ∀ x ∈ combinationsWR l k, ∀ a ∈ x, a ∈ l := by
    intro l k
    induction l, k using combinationsWR.induct with
    | case1 l => simp [combinationsWR]
    | case2 k => simp [combinationsWR]
    | case3 a l k ih1 ih2 =>
      intro x hx b hb
      rw [combinationsWR, List.mem_append, List.mem_map] at hx
      rcases hx with ⟨y, hy, rfl⟩ | hx
      · rcases List.mem_cons.1 hb with rfl | hb
        · simp
        · exact ih1 y hy b hb
      · exact List.mem_cons_of_mem _ (ih2 x hx b hb)
  induction l, k using combinationsWR.induct with
  | case1 l => simp [combinationsWR]
  | case2 k => simp [combinationsWR]
  | case3 a l k ih1 ih2 =>
    rw [combinationsWR]
    rw [List.nodup_cons] at hl
    refine List.Nodup.append ?_ (ih2 hl.2) ?_
    · exact (ih1 (List.nodup_cons.2 hl)).map fun x y h => (List.cons.inj h).2
    · intro x hx hx'
      obtain ⟨y, -, rfl⟩ := List.mem_map.1 hx
      exact hl.1 (hsub l (k + 1) _ hx' a (by simp))

theorem countScan_eq {m : ℕ} (idc : List (Fin m)) (i : Fin m) : countScan idc i = idc.count i := by
  suffices h : ∀ c : Fin m → ℕ, idc.foldl (fun c i => Function.update c i (c i + 1)) c i = c i + idc.count i by
    simpa [countScan] using h fun _ => 0
  induction idc with
  | nil => simp
  | cons j l ih =>
    intro c
    rw [List.foldl_cons, ih, List.count_cons]
    rcases eq_or_ne j i with rfl | h
    · simp; ring
    · simp [Function.update_of_ne h.symm, h]

theorem finRange_lt (m : ℕ) : (List.finRange m).Pairwise (· < ·) := List.pairwise_lt_finRange m

theorem mem_monomialBasis (n k : ℕ) (e : Fin (n + 1) → ℕ) : e ∈ monomialBasis n k ↔ ∑ i, e i = k := by
  unfold monomialBasis
  by_cases hk : k = 0
  · rw [if_pos hk, hk, List.mem_singleton]
    constructor
    · rintro rfl; simp
    · intro h
      funext i
      exact (Finset.sum_eq_zero_iff.1 h) i (Finset.mem_univ i)
  · rw [if_neg hk, List.mem_map]
    constructor
    · rintro ⟨x, hx, rfl⟩
      obtain ⟨h1, -, -⟩ := (mem_combinationsWR _ k (finRange_lt _) x).1 hx
      simp only [countScan_eq]
      rw [← h1]
      have h := Multiset.sum_count_eq_card (s := Finset.univ) (m := (x : Multiset (Fin (n + 1)))) (by simp)
      simpa using h
    · intro he
      set M : Multiset (Fin (n + 1)) := ∑ i, e i • {i} with hM
      have hc : ∀ i, M.count i = e i := by
        intro i
        rw [hM, Multiset.count_sum']
        simp only [Multiset.count_nsmul, Multiset.count_singleton]
        simp
      have hcs : ∀ i, (M.sort (· ≤ ·)).count i = e i := by
        intro i
        rw [← Multiset.coe_count, Multiset.sort_eq, hc]
      refine ⟨M.sort (· ≤ ·), (mem_combinationsWR _ k (finRange_lt _) _).2 ⟨?_, Multiset.pairwise_sort _ _, by simp⟩, ?_⟩
      · rw [Multiset.length_sort, ← he, hM]
        simp
      · funext i
        rw [countScan_eq, hcs]

theorem monomialBasis_nodup (n k : ℕ) : (monomialBasis n k).Nodup := by
  unfold monomialBasis
  by_cases hk : k = 0
  · rw [if_pos hk]; simp
  · rw [if_neg hk]
    refine List.Nodup.map_on ?_ (combinationsWR_nodup _ _ (List.nodup_finRange _))
    intro x hx y hy hxy
    obtain ⟨-, hx2, -⟩ := (mem_combinationsWR _ k (finRange_lt _) x).1 hx
    obtain ⟨-, hy2, -⟩ := (mem_combinationsWR _ k (finRange_lt _) y).1 hy
    have hperm : x.Perm y := by
      rw [List.perm_iff_count]
      intro i
      rw [← countScan_eq, ← countScan_eq, hxy]
    exact hperm.eq_of_pairwise (fun a b _ _ h1 h2 => le_antisymm h1 h2) hx2 hy2

theorem monomialBasis_length (n k : ℕ) : (monomialBasis n k).length = (n + k).choose k := by
  unfold monomialBasis
  by_cases hk : k = 0
  · simp [hk]
  · rw [if_neg hk, List.length_map]
    unfold monomialBasisIndices
    rw [combinationsWR_length, List.length_finRange, Nat.multichoose_eq]
    congr 1
    omega

theorem reduceLoop_eq {m : ℕ} (p : Fin m → ℕ) (ps : List (Fin m → ℕ)) (aux pows : List (Fin m → ℕ))
    (hp : pows.Nodup) (ha : aux.Nodup) (hmem : ∀ r ∈ aux, (fun i => p i + r i) ∈ pows) :
    reduceLoop (p :: ps) pows aux = .ok (pows.filter fun e => decide (∀ r ∈ aux, e ≠ fun i => p i + r i)) := by
  induction aux generalizing pows with
  | nil => simp [reduceLoop]
  | cons r rest ih =>
    rw [List.nodup_cons] at ha
    have hr := hmem r (by simp)
    rw [reduceLoop, List.map_cons, removeOne, if_pos hr]
    simp only
    rw [ih (pows.erase fun i => p i + r i) (hp.erase _) ha.2]
    · rw [hp.erase_eq_filter, List.filter_filter]
      congr 1
      refine List.filter_congr fun e _ => ?_
      rw [Bool.eq_iff_iff]
      simp [and_comm]
    · intro r' hr'
      rw [List.mem_erase_of_ne]
      · exact hmem r' (by simp [hr'])
      · intro h
        apply ha.1
        have : r' = r := by
          funext i
          have := congrFun h i
          simpa using this
        rwa [← this]

theorem rotateRight_eq_iff (l : List ℕ) : l = l.rotateRight 1 ↔ ∀ x ∈ l, ∀ y ∈ l, x = y := by
  constructor
  · intro h
    rcases l.eq_nil_or_concat with rfl | ⟨l', x, rfl⟩
    · simp
    · have hrot : (l' ++ [x]).rotateRight 1 = x :: l' := by
        unfold List.rotateRight
        rcases l' with _ | ⟨a, l'⟩
        · simp
        · simp [Nat.mod_eq_of_lt]
      rw [List.concat_eq_append] at h ⊢
      rw [hrot] at h
      have hall : ∀ l' : List ℕ, l' ++ [x] = x :: l' → ∀ y ∈ l', y = x := by
        intro l'
        induction l' with
        | nil => simp
        | cons a t ih =>
          intro h y hy
          rw [List.cons_append, List.cons.injEq] at h
          obtain ⟨rfl, h⟩ := h
          rcases List.mem_cons.1 hy with rfl | hy
          · rfl
          · exact ih h y hy
      have h' := hall l' h
      intro a ha b hb
      have key : ∀ c ∈ l' ++ [x], c = x := by
        intro c hc
        rcases List.mem_append.1 hc with hc | hc
        · exact h' c hc
        · simpa using hc
      rw [key a ha, key b hb]
  · intro h
    have hrep : ∃ c, l = List.replicate l.length c := by
      cases l with
      | nil => exact ⟨0, rfl⟩
      | cons a t => exact ⟨a, List.eq_replicate_iff.2 ⟨rfl, fun b hb => h b hb a (by simp)⟩⟩
    obtain ⟨c, hc⟩ := hrep
    rw [hc]
    unfold List.rotateRight
    simp only [List.length_replicate, List.take_replicate, List.drop_replicate]
    split_ifs with h1
    · rfl
    · rw [List.replicate_append_replicate]
      congr 1
      have := Nat.mod_lt 1 (show 0 < l.length by omega)
      omega

end Cyjax.Donaldson
