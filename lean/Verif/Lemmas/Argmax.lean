import Verif.Model.Projective

namespace Cyjax.Projective

open Classical in
theorem argmax_foldl {n : ℕ} (v : Fin (n + 1) → ℝ) (l : List (Fin (n + 1))) (b : Fin (n + 1))
    (hl : l.Pairwise (· < ·)) (hb : ∀ i ∈ l, b ≤ i) :
    let r := l.foldl (fun best i => if v best < v i then i else best) b
    (r = b ∨ r ∈ l) ∧ v b ≤ v r ∧ (∀ i ∈ l, v i ≤ v r) ∧
      (∀ i, (i = b ∨ i ∈ l) → i < r → v i < v r) := by
  induction l generalizing b with
  | nil => simp
  | cons a l ih =>
    have hal := (List.pairwise_cons.1 hl).1
    have hl' := (List.pairwise_cons.1 hl).2
    simp only [List.foldl_cons]
    by_cases hc : v b < v a
    · rw [if_pos hc]
      obtain ⟨h1, h2, h3, h4⟩ := ih a hl' (fun i hi => (hal i hi).le)
      refine ⟨?_, hc.le.trans h2, ?_, ?_⟩
      · rcases h1 with h1 | h1
        · right; rw [h1]; exact List.mem_cons_self
        · right; exact List.mem_cons_of_mem _ h1
      · intro i hi
        rcases List.mem_cons.1 hi with rfl | hi
        · exact h2
        · exact h3 i hi
      · intro i hi hlt
        rcases hi with rfl | hi
        · exact lt_of_lt_of_le hc h2
        · exact h4 i (List.mem_cons.1 hi) hlt
    · rw [if_neg hc]
      obtain ⟨h1, h2, h3, h4⟩ := ih b hl' (fun i hi => hb i (List.mem_cons_of_mem _ hi))
      have hab : v a ≤ v b := not_lt.1 hc
      refine ⟨?_, h2, ?_, ?_⟩
      · exact h1.imp_right (List.mem_cons_of_mem _)
      · intro i hi
        rcases List.mem_cons.1 hi with rfl | hi
        · exact hab.trans h2
        · exact h3 i hi
      · intro i hi hlt
        rcases hi with rfl | hi
        · exact h4 _ (Or.inl rfl) hlt
        · rcases List.mem_cons.1 hi with rfl | hi
          · -- `i = a` lies below `r`; `r ≠ b`, since `b ≤ a`
            have hba := hb i List.mem_cons_self
            have hbr : b < _ := lt_of_le_of_lt hba hlt
            exact lt_of_le_of_lt hab (h4 b (Or.inl rfl) hbr)
          · exact h4 i (Or.inr hi) hlt

theorem argmax_spec {n : ℕ} (v : Fin (n + 1) → ℝ) :
    (∀ i, v i ≤ v (argmax v)) ∧ (∀ i, i < argmax v → v i < v (argmax v)) := by
  have h := argmax_foldl v (List.finRange (n + 1)) 0
    (List.pairwise_lt_finRange _) (fun i _ => Fin.zero_le i)
  exact ⟨fun i => h.2.2.1 i (List.mem_finRange i),
    fun i hi => h.2.2.2 i (Or.inr (List.mem_finRange i)) hi⟩

/-- The first maximum is unique. -/
theorem argmax_unique {n : ℕ} (v : Fin (n + 1) → ℝ) (r : Fin (n + 1)) (h1 : ∀ i, v i ≤ v r)
    (h2 : ∀ i, i < r → v i < v r) : argmax v = r := by
  obtain ⟨g1, g2⟩ := argmax_spec v
  rcases lt_trichotomy (argmax v) r with h | h | h
  · exact absurd (h2 _ h) (not_lt.2 (g1 r))
  · exact h
  · exact absurd (g2 _ h) (not_lt.2 (h1 _))

end Cyjax.Projective
