import Verif.Spec.Broadcast
import Mathlib.Data.List.GetD

/-! # Lemmas on broadcasting -/

namespace Cyjax

open Cyjax.Spec

@[simp] theorem sizeAt_nil (k : ℕ) : sizeAt [] k = 1 := rfl
@[simp] theorem sizeAt_cons_zero (a : ℕ) (s : List ℕ) : sizeAt (a :: s) 0 = a := rfl
@[simp] theorem sizeAt_cons_succ (a : ℕ) (s : List ℕ) (k : ℕ) : sizeAt (a :: s) (k + 1) = sizeAt s k := rfl

theorem sizeAt_of_le {s : List ℕ} {k : ℕ} (h : s.length ≤ k) : sizeAt s k = 1 := by
  unfold sizeAt
  rw [List.getD_eq_default _ _ h]

theorem shape_ext {r s : List ℕ} (hl : r.length = s.length) (h : ∀ k, sizeAt r k = sizeAt s k) : r = s := by
  refine List.ext_getElem hl fun k h1 h2 => ?_
  have := h k
  unfold sizeAt at this
  rwa [List.getD_eq_getElem _ _ h1, List.getD_eq_getElem _ _ h2] at this

theorem bcast2_some : ∀ {s t r : List ℕ}, bcast2 s t = some r → r.length = max s.length t.length ∧
    ∀ k, (sizeAt s k = 1 ∨ sizeAt s k = sizeAt r k) ∧ (sizeAt t k = 1 ∨ sizeAt t k = sizeAt r k) ∧
      (sizeAt r k = sizeAt s k ∨ sizeAt r k = sizeAt t k)
  | [], t, r, h => by
    simp only [bcast2, Option.some.injEq] at h
    subst h
    simp
  | a :: s, [], r, h => by
    simp only [bcast2, Option.some.injEq] at h
    subst h
    simp
  | a :: s, b :: t, r, h => by
    simp only [bcast2] at h
    split_ifs at h with h1 h2
    · obtain ⟨r', hr', rfl⟩ := Option.map_eq_some_iff.1 h
      obtain ⟨e1, e2⟩ := bcast2_some hr'
      refine ⟨by simp only [List.length_cons, e1]; omega, fun k => ?_⟩
      cases k with
      | zero => simp only [sizeAt_cons_zero]; tauto
      | succ k => simpa using e2 k
    · obtain ⟨r', hr', rfl⟩ := Option.map_eq_some_iff.1 h
      obtain ⟨e1, e2⟩ := bcast2_some hr'
      refine ⟨by simp only [List.length_cons, e1]; omega, fun k => ?_⟩
      cases k with
      | zero => simp only [sizeAt_cons_zero]; tauto
      | succ k => simpa using e2 k

theorem bcast2_none : ∀ {s t : List ℕ}, bcast2 s t = none → ∃ k, sizeAt s k ≠ 1 ∧ sizeAt t k ≠ 1 ∧ sizeAt s k ≠ sizeAt t k
  | [], t, h => by simp [bcast2] at h
  | a :: s, [], h => by simp [bcast2] at h
  | a :: s, b :: t, h => by
    simp only [bcast2] at h
    split_ifs at h with h1 h2
    · obtain ⟨k, hk⟩ := bcast2_none (Option.map_eq_none_iff.1 h)
      exact ⟨k + 1, by simpa using hk⟩
    · obtain ⟨k, hk⟩ := bcast2_none (Option.map_eq_none_iff.1 h)
      exact ⟨k + 1, by simpa using hk⟩
    · exact ⟨0, by simp only [sizeAt_cons_zero]; tauto⟩

theorem bcast_isBroadcast : ∀ {l : List (List ℕ)} {r : List ℕ}, bcast l = some r → IsBroadcast l r
  | [], r, h => by
    simp only [bcast, Option.some.injEq] at h
    subst h
    exact ⟨by simp, .inl rfl, by simp, fun _ => .inl rfl⟩
  | s :: l, r, h => by
    simp only [bcast] at h
    cases ht : bcast l with
    | none => rw [ht] at h; simp at h
    | some t =>
      rw [ht] at h
      obtain ⟨e1, e2⟩ := bcast2_some h
      have I := bcast_isBroadcast ht
      refine ⟨fun u hu => ?_, ?_, fun k u hu => ?_, fun k => ?_⟩
      · rcases List.mem_cons.1 hu with rfl | hu
        · omega
        · exact (I.axes_le u hu).trans (by omega)
      · by_cases hc : t.length ≤ s.length
        · exact .inr ⟨s, List.mem_cons_self, by omega⟩
        · rcases I.axes with h0 | ⟨u, hu, hl⟩
          · simp [h0] at hc
          · exact .inr ⟨u, List.mem_cons_of_mem _ hu, by omega⟩
      · rcases List.mem_cons.1 hu with rfl | hu
        · exact (e2 k).1
        · rcases I.size k u hu with h1 | h1
          · exact .inl h1
          · rcases (e2 k).2.1 with h2 | h2
            · exact .inl (h1.trans h2)
            · exact .inr (h1.trans h2)
      · rcases (e2 k).2.2 with h1 | h1
        · exact .inr ⟨s, List.mem_cons_self, h1.symm⟩
        · rcases I.attained k with h2 | ⟨u, hu, h2⟩
          · exact .inl (h1.trans h2)
          · exact .inr ⟨u, List.mem_cons_of_mem _ hu, h2.trans h1.symm⟩

theorem bcast_none_clash : ∀ {l : List (List ℕ)}, bcast l = none → Clash l
  | [], h => by simp [bcast] at h
  | s :: l, h => by
    simp only [bcast] at h
    cases ht : bcast l with
    | none =>
      obtain ⟨k, u, hu, v, hv, hc⟩ := bcast_none_clash ht
      exact ⟨k, u, List.mem_cons_of_mem _ hu, v, List.mem_cons_of_mem _ hv, hc⟩
    | some t =>
      rw [ht] at h
      obtain ⟨k, h1, h2, h3⟩ := bcast2_none h
      rcases (bcast_isBroadcast ht).attained k with h4 | ⟨u, hu, h4⟩
      · exact absurd h4 h2
      · exact ⟨k, s, List.mem_cons_self, u, List.mem_cons_of_mem _ hu, h1, h4 ▸ h2, h4 ▸ h3⟩

theorem Spec.IsBroadcast.not_clash {l : List (List ℕ)} {r : List ℕ} (h : IsBroadcast l r) : ¬ Clash l := by
  rintro ⟨k, s, hs, t, ht, h1, h2, h3⟩
  have e1 := (h.size k s hs).resolve_left h1
  have e2 := (h.size k t ht).resolve_left h2
  exact h3 (e1.trans e2.symm)

theorem Spec.IsBroadcast.unique {l : List (List ℕ)} {r r' : List ℕ} (h : IsBroadcast l r) (h' : IsBroadcast l r') : r = r' := by
  have key : ∀ {r r' : List ℕ}, IsBroadcast l r → IsBroadcast l r' → r.length ≤ r'.length := by
    intro r r' h h'
    rcases h.axes with h0 | ⟨s, hs, hl⟩
    · simp [h0]
    · exact hl ▸ h'.axes_le s hs
  refine shape_ext (le_antisymm (key h h') (key h' h)) fun k => ?_
  rcases h.attained k with h1 | ⟨s, hs, h1⟩
  · rcases h'.attained k with h2 | ⟨t, ht, h2⟩
    · rw [h1, h2]
    · rcases h.size k t ht with h3 | h3
      · rw [h1, ← h2, h3]
      · rw [← h3, h2]
  · rcases h'.size k s hs with h2 | h2
    · rcases h'.attained k with h3 | ⟨t, ht, h3⟩
      · rw [← h1, h2, h3]
      · rcases h.size k t ht with h4 | h4
        · rw [← h1, h2, ← h3, h4]
        · rw [← h4, h3]
    · rw [← h1, h2]

theorem bcast_eq_some {l : List (List ℕ)} {r : List ℕ} : bcast l = some r ↔ IsBroadcast l r := by
  refine ⟨bcast_isBroadcast, fun h => ?_⟩
  cases hb : bcast l with
  | none => exact absurd (bcast_none_clash hb) h.not_clash
  | some r' => rw [(bcast_isBroadcast hb).unique h]

theorem bcast_eq_none {l : List (List ℕ)} : bcast l = none ↔ Clash l := by
  refine ⟨bcast_none_clash, fun h => ?_⟩
  cases hb : bcast l with
  | none => rfl
  | some r => exact absurd h (bcast_isBroadcast hb).not_clash

/-- The entries used for an index do not depend on whether the index is first adapted to a larger shape. -/
theorem clip_clip {s t : List ℕ} (h : ∀ k, sizeAt s k = 1 ∨ sizeAt s k = sizeAt t k) (i : ℕ → ℕ) :
    clip s (clip t i) = clip s i := by
  funext k
  unfold clip
  rcases h k with h1 | h1
  · simp [h1]
  · rw [← h1]
    split_ifs <;> rfl

theorem clip_inRange {r : List ℕ} {i : ℕ → ℕ} (h : InRange r i) : clip r i = i := by
  funext k
  unfold clip
  split_ifs with h1
  · have := h k
    omega
  · rfl

theorem Batch.at_clip {α : Type*} (a : Batch α) {t : List ℕ} (h : ∀ k, sizeAt a.dims k = 1 ∨ sizeAt a.dims k = sizeAt t k)
    (i : ℕ → ℕ) : a.at (clip t i) = a.at i := by
  unfold Batch.at
  rw [clip_clip h]

theorem atOpt_clip {α : Type*} (a : Option (Batch α)) {t : List ℕ}
    (h : ∀ k, sizeAt (dimsOpt a) k = 1 ∨ sizeAt (dimsOpt a) k = sizeAt t k) (i : ℕ → ℕ) : atOpt a (clip t i) = atOpt a i := by
  cases a with
  | none => rfl
  | some a => exact congrArg some (a.at_clip h i)

/-- A shape may be replaced by those it comes from. -/
theorem Spec.IsBroadcast.nest {l m : List (List ℕ)} {t r : List ℕ} (h : IsBroadcast l t) :
    IsBroadcast (t :: m) r ↔ IsBroadcast (l ++ m) r := by
  have fwd : ∀ {r : List ℕ}, IsBroadcast (t :: m) r → IsBroadcast (l ++ m) r := by
    intro r H
    refine ⟨fun s hs => ?_, ?_, fun k s hs => ?_, fun k => ?_⟩
    · rcases List.mem_append.1 hs with hs | hs
      · exact (h.axes_le s hs).trans (H.axes_le t List.mem_cons_self)
      · exact H.axes_le s (List.mem_cons_of_mem _ hs)
    · rcases H.axes with h0 | ⟨s, hs, hl⟩
      · exact .inl h0
      · rcases List.mem_cons.1 hs with rfl | hs
        · rcases h.axes with h0 | ⟨u, hu, hl'⟩
          · left
            rw [h0] at hl
            exact List.eq_nil_of_length_eq_zero hl.symm
          · exact .inr ⟨u, List.mem_append_left _ hu, hl'.trans hl⟩
        · exact .inr ⟨s, List.mem_append_right _ hs, hl⟩
    · rcases List.mem_append.1 hs with hs | hs
      · rcases h.size k s hs with h1 | h1
        · exact .inl h1
        · exact h1 ▸ H.size k t List.mem_cons_self
      · exact H.size k s (List.mem_cons_of_mem _ hs)
    · rcases H.attained k with h1 | ⟨s, hs, h1⟩
      · exact .inl h1
      · rcases List.mem_cons.1 hs with rfl | hs
        · rcases h.attained k with h2 | ⟨u, hu, h2⟩
          · exact .inl (h1 ▸ h2)
          · exact .inr ⟨u, List.mem_append_left _ hu, h2.trans h1⟩
        · exact .inr ⟨s, List.mem_append_right _ hs, h1⟩
  refine ⟨fwd, fun H => ?_⟩
  cases hb : bcast (t :: m) with
  | some r' =>
    have := fwd (bcast_eq_some.1 hb)
    rw [← this.unique H]
    exact bcast_eq_some.1 hb
  | none =>
    exfalso
    obtain ⟨k, s, hs, u, hu, h1, h2, h3⟩ := bcast_eq_none.1 hb
    have lift : ∀ {s : List ℕ}, s ∈ t :: m → sizeAt s k ≠ 1 → ∃ s' ∈ l ++ m, sizeAt s' k = sizeAt s k := by
      intro s hs h1
      rcases List.mem_cons.1 hs with rfl | hs
      · rcases h.attained k with h2 | ⟨u, hu, h2⟩
        · exact absurd h2 h1
        · exact ⟨u, List.mem_append_left _ hu, h2⟩
      · exact ⟨s, List.mem_append_right _ hs, rfl⟩
    obtain ⟨s', hs', e1⟩ := lift hs h1
    obtain ⟨u', hu', e2⟩ := lift hu h2
    exact H.not_clash ⟨k, s', hs', u', hu', e1 ▸ h1, e2 ▸ h2, e1 ▸ e2 ▸ h3⟩

/-- The order and repetition of shapes do not matter, and shapes without axes can be left out. -/
theorem Spec.IsBroadcast.congr {l m : List (List ℕ)} {r : List ℕ} (h1 : ∀ s ∈ l, s = [] ∨ s ∈ m) (h2 : ∀ s ∈ m, s = [] ∨ s ∈ l) :
    IsBroadcast l r ↔ IsBroadcast m r := by
  have key : ∀ {l m : List (List ℕ)} {r : List ℕ}, (∀ s ∈ l, s = [] ∨ s ∈ m) → (∀ s ∈ m, s = [] ∨ s ∈ l) →
      IsBroadcast l r → IsBroadcast m r := by
    intro l m r h1 h2 H
    refine ⟨fun s hs => ?_, ?_, fun k s hs => ?_, fun k => ?_⟩
    · rcases h2 s hs with rfl | hs
      · simp
      · exact H.axes_le s hs
    · rcases H.axes with h0 | ⟨s, hs, hl⟩
      · exact .inl h0
      · rcases h1 s hs with rfl | hs
        · exact .inl (List.eq_nil_of_length_eq_zero hl.symm)
        · exact .inr ⟨s, hs, hl⟩
    · rcases h2 s hs with rfl | hs
      · exact .inl rfl
      · exact H.size k s hs
    · rcases H.attained k with h3 | ⟨s, hs, h3⟩
      · exact .inl h3
      · rcases h1 s hs with rfl | hs
        · exact .inl h3.symm
        · exact .inr ⟨s, hs, h3⟩
  exact ⟨key h1 h2, key h2 h1⟩

end Cyjax
