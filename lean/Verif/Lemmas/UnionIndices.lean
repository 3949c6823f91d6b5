import Verif.Model.UnionIndices
import Mathlib.Order.Basic
import Mathlib.Data.List.Sort
import Mathlib.Data.List.Nodup

namespace Cyjax.Polynomial

variable {α : Type*} [LinearOrder α]

/-- The part of `unionIndices` after the loop. -/
def uDone (s : UnionState α) : List α :=
  let ind := match s.nl with | some a => addIfNew s.ind a | none => s.ind
  let ind := match s.nr with | some b => addIfNew ind b | none => ind
  ind ++ s.left.filter (fun i => i ∉ ind) ++ s.right.filter (fun i => i ∉ ind)

omit [LinearOrder α] in
theorem fetch_none {cur : Option α} {it : List α} (h : fetch cur it = none) : cur = none ∧ it = [] := by
  unfold fetch at h
  cases cur with
  | some b => simp at h
  | none => cases it with
    | nil => simp
    | cons => simp at h

omit [LinearOrder α] in
theorem fetch_some {cur : Option α} {it : List α} {a : α} {it' : List α}
    (h : fetch cur it = some (a, it')) : cur.toList ++ it = a :: it' := by
  unfold fetch at h
  cases cur with
  | some b => simp only [Option.some.injEq, Prod.mk.injEq] at h; obtain ⟨rfl, rfl⟩ := h; simp
  | none =>
    cases it with
    | nil => simp at h
    | cons b it => simp only [Option.some.injEq, Prod.mk.injEq] at h; obtain ⟨rfl, rfl⟩ := h; simp

theorem mem_addIfNew (ind : List α) (a x : α) : x ∈ addIfNew ind a ↔ x ∈ ind ∨ x = a := by
  unfold addIfNew
  split_ifs with h
  · constructor
    · exact Or.inl
    · rintro (h' | rfl) <;> assumption
  · simp

theorem nodup_addIfNew (ind : List α) (a : α) (h : ind.Nodup) : (addIfNew ind a).Nodup := by
  unfold addIfNew
  split_ifs with ha
  · exact h
  · rw [List.nodup_append]; refine ⟨h, by simp, ?_⟩
    intro x hx y hy; simp at hy; subst hy; rintro rfl; exact ha hx

theorem sorted_addIfNew (ind : List α) (a : α) (h : ind.Pairwise (· ≤ ·)) (ha : ∀ x ∈ ind, x ≤ a) :
    (addIfNew ind a).Pairwise (· ≤ ·) := by
  unfold addIfNew
  split_ifs
  · exact h
  · rw [List.pairwise_append]; refine ⟨h, by simp, ?_⟩
    intro x hx y hy; simp at hy; subst hy; exact ha x hx

/-- Induction principle for the loop: an invariant that is kept by one turn holds in the end. -/
theorem unionLoop_inv (P : UnionState α → Prop)
    (h1 : ∀ s a b l r, s.nl.toList ++ s.left = a :: l → s.nr.toList ++ s.right = b :: r → P s →
      (a < b → P ⟨none, some b, l, r, addIfNew s.ind a⟩) ∧
      (¬ a < b → P ⟨some a, none, l, r, addIfNew s.ind b⟩))
    (h2 : ∀ s a l, s.nl.toList ++ s.left = a :: l → P s → P { s with nl := some a, left := l })
    (s : UnionState α) (hs : P s) : P (unionLoop s) ∧
      (((unionLoop s).nl = none ∧ (unionLoop s).left = []) ∨
        ((unionLoop s).nr = none ∧ (unionLoop s).right = [])) := by
  fun_induction unionLoop s with
  | case1 s hl => exact ⟨hs, Or.inl (fetch_none hl)⟩
  | case2 s a l hl hr => exact ⟨h2 s a l (fetch_some hl) hs, Or.inr (fetch_none hr)⟩
  | case3 s a l hl b r hr hab ih => exact ih ((h1 s a b l r (fetch_some hl) (fetch_some hr) hs).1 hab)
  | case4 s a l hl b r hr hab ih => exact ih ((h1 s a b l r (fetch_some hl) (fetch_some hr) hs).2 hab)

theorem mem_uDone (s : UnionState α) (x : α) :
    x ∈ uDone s ↔ x ∈ s.ind ∨ x ∈ s.nl.toList ++ s.left ∨ x ∈ s.nr.toList ++ s.right := by
  obtain ⟨nl, nr, l, r, ind⟩ := s
  cases nl <;> cases nr <;>
    simp only [uDone, List.mem_append, List.mem_filter, decide_eq_true_eq, mem_addIfNew,
      Option.toList_none, Option.toList_some, List.mem_singleton, List.not_mem_nil] <;> tauto

theorem mem_unionIndices (L R : List α) (x : α) : x ∈ unionIndices L R ↔ x ∈ L ∨ x ∈ R := by
  have h := unionLoop_inv (fun s => (x ∈ s.ind ∨ x ∈ s.nl.toList ++ s.left ∨ x ∈ s.nr.toList ++ s.right)
      ↔ (x ∈ L ∨ x ∈ R)) (by
    intro s a b l r ha hb hs
    rw [ha, hb] at hs
    constructor <;> intro _ <;> rw [← hs] <;>
      simp only [mem_addIfNew, Option.toList_none, Option.toList_some, List.mem_append, List.mem_cons,
        List.not_mem_nil] <;> tauto) (by
    intro s a l ha hs
    rw [← hs, ha]
    simp) ⟨none, none, L, R, []⟩ (by simp)
  change x ∈ uDone (unionLoop ⟨none, none, L, R, []⟩) ↔ _
  rw [mem_uDone]
  exact h.1

theorem nodup_uDone (s : UnionState α) (h1 : s.ind.Nodup) (h2 : s.left.Nodup) (h3 : s.right.Nodup)
    (hx : s.left = [] ∨ s.right = []) : (uDone s).Nodup := by
  have key : ∀ ind : List α, ind.Nodup →
      (ind ++ s.left.filter (fun i => i ∉ ind) ++ s.right.filter (fun i => i ∉ ind)).Nodup := by
    intro ind hind
    rcases hx with hx | hx <;> rw [hx] <;>
      simp only [List.filter_nil, List.append_nil]
    · rw [List.nodup_append]
      refine ⟨hind, h3.filter _, ?_⟩
      intro x hx y hy; rintro rfl; simp at hy; exact hy.2 hx
    · rw [List.nodup_append]
      refine ⟨hind, h2.filter _, ?_⟩
      intro x hx y hy; rintro rfl; simp at hy; exact hy.2 hx
  unfold uDone
  apply key
  cases s.nl <;> cases s.nr <;> simp only [] <;> repeat' (first | assumption | apply nodup_addIfNew)

theorem nodup_unionIndices (L R : List α) (hL : L.Nodup) (hR : R.Nodup) : (unionIndices L R).Nodup := by
  have h := unionLoop_inv (fun s => s.ind.Nodup ∧ (s.nl.toList ++ s.left).Nodup ∧
      (s.nr.toList ++ s.right).Nodup) (by
    intro s a b l r ha hb hs
    rw [ha, hb] at hs
    obtain ⟨h1, h2, h3⟩ := hs
    constructor <;> intro _
    · exact ⟨nodup_addIfNew _ _ h1, by simpa using h2.of_cons, by simpa using h3⟩
    · exact ⟨nodup_addIfNew _ _ h1, by simpa using h2, by simpa using h3.of_cons⟩) (by
    intro s a l ha hs
    exact ⟨hs.1, by simpa [ha] using hs.2.1, hs.2.2⟩) ⟨none, none, L, R, []⟩ (by simpa using ⟨hL, hR⟩)
  obtain ⟨⟨h1, h2, h3⟩, hx⟩ := h
  exact nodup_uDone _ h1 (List.nodup_append.1 h2).2.1 (List.nodup_append.1 h3).2.1
    (hx.imp And.right And.right)

theorem sorted_finish (ind X : List α) (hi : ind.Pairwise (· ≤ ·)) (hX : X.Pairwise (· ≤ ·))
    (h : ∀ x ∈ ind, ∀ y ∈ X, x ≤ y) :
    (ind ++ X.filter (fun i => i ∉ ind)).Pairwise (· ≤ ·) := by
  rw [List.pairwise_append]
  exact ⟨hi, hX.filter _, fun x hx y hy => h x hx y (List.mem_filter.1 hy).1⟩

theorem sorted_uDone (s : UnionState α) (h1 : s.ind.Pairwise (· ≤ ·))
    (h2 : (s.nl.toList ++ s.left).Pairwise (· ≤ ·)) (h3 : (s.nr.toList ++ s.right).Pairwise (· ≤ ·))
    (h4 : ∀ x ∈ s.ind, ∀ y ∈ s.nl.toList ++ s.left, x ≤ y)
    (h5 : ∀ x ∈ s.ind, ∀ y ∈ s.nr.toList ++ s.right, x ≤ y)
    (hx : (s.nl = none ∧ s.left = []) ∨ (s.nr = none ∧ s.right = [])) :
    (uDone s).Pairwise (· ≤ ·) := by
  have key : ∀ (c : Option α) (X : List α), (c.toList ++ X).Pairwise (· ≤ ·) →
      (∀ x ∈ s.ind, ∀ y ∈ c.toList ++ X, x ≤ y) →
      ((match c with | some a => addIfNew s.ind a | none => s.ind) ++
        X.filter (fun i => i ∉ (match c with | some a => addIfNew s.ind a | none => s.ind))).Pairwise
          (· ≤ ·) := by
    intro c X hX hle
    cases c with
    | none => exact sorted_finish _ _ h1 (by simpa using hX) (by simpa using hle)
    | some a =>
      simp only [Option.toList_some, List.singleton_append, List.pairwise_cons, List.mem_cons] at hX hle
      refine sorted_finish _ _ (sorted_addIfNew _ _ h1 (fun x hx => hle x hx a (Or.inl rfl))) hX.2 ?_
      intro x hx y hy
      rcases (mem_addIfNew _ _ _).1 hx with h | rfl
      · exact hle x h y (Or.inr hy)
      · exact hX.1 y hy
  unfold uDone
  rcases hx with ⟨hn, hl⟩ | ⟨hn, hl⟩
  · rw [hn, hl]
    simp only [List.filter_nil, List.append_nil]
    exact key s.nr s.right h3 h5
  · rw [hn, hl]
    simp only [List.filter_nil, List.append_nil]
    exact key s.nl s.left h2 h4

theorem sorted_unionIndices (L R : List α) (hL : L.Pairwise (· ≤ ·)) (hR : R.Pairwise (· ≤ ·)) :
    (unionIndices L R).Pairwise (· ≤ ·) := by
  have h := unionLoop_inv (fun s => s.ind.Pairwise (· ≤ ·) ∧
      (s.nl.toList ++ s.left).Pairwise (· ≤ ·) ∧ (s.nr.toList ++ s.right).Pairwise (· ≤ ·) ∧
      (∀ x ∈ s.ind, ∀ y ∈ s.nl.toList ++ s.left, x ≤ y) ∧
      (∀ x ∈ s.ind, ∀ y ∈ s.nr.toList ++ s.right, x ≤ y)) (by
    intro s a b l r ha hb hs
    rw [ha, hb] at hs
    obtain ⟨h1, h2, h3, h4, h5⟩ := hs
    have h2' := List.pairwise_cons.1 h2
    have h3' := List.pairwise_cons.1 h3
    constructor <;> intro hab
    · refine ⟨sorted_addIfNew _ _ h1 (fun x hx => h4 x hx a List.mem_cons_self), by simpa using h2'.2,
        by simpa using h3, ?_, ?_⟩
      · intro x hx y hy
        simp only [Option.toList_none, List.nil_append] at hy
        rcases (mem_addIfNew _ _ _).1 hx with h | rfl
        · exact h4 x h y (List.mem_cons_of_mem _ hy)
        · exact h2'.1 y hy
      · intro x hx y hy
        simp only [Option.toList_some, List.singleton_append] at hy
        rcases (mem_addIfNew _ _ _).1 hx with h | rfl
        · exact h5 x h y hy
        · rcases List.mem_cons.1 hy with rfl | hy
          · exact hab.le
          · exact hab.le.trans (h3'.1 y hy)
    · rw [not_lt] at hab
      refine ⟨sorted_addIfNew _ _ h1 (fun x hx => h5 x hx b List.mem_cons_self), by simpa using h2,
        by simpa using h3'.2, ?_, ?_⟩
      · intro x hx y hy
        simp only [Option.toList_some, List.singleton_append] at hy
        rcases (mem_addIfNew _ _ _).1 hx with h | rfl
        · exact h4 x h y hy
        · rcases List.mem_cons.1 hy with rfl | hy
          · exact hab
          · exact hab.trans (h2'.1 y hy)
      · intro x hx y hy
        simp only [Option.toList_none, List.nil_append] at hy
        rcases (mem_addIfNew _ _ _).1 hx with h | rfl
        · exact h5 x h y (List.mem_cons_of_mem _ hy)
        · exact h3'.1 y hy) (by
    intro s a l ha hs
    rw [ha] at hs
    simpa using hs) ⟨none, none, L, R, []⟩ (by simpa using ⟨hL, hR⟩)
  obtain ⟨⟨h1, h2, h3, h4, h5⟩, hx⟩ := h
  exact sorted_uDone _ h1 h2 h3 h4 h5 hx

end Cyjax.Polynomial
