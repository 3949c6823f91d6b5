import Verif.Model.SubscriptForms
import Verif.Lemmas.Subscript
import Verif.Lemmas.Printing

/-! # Splitting of names with any number of sub- and superscripts -/

namespace Cyjax.Polynomial

/-- The rest of the text after a part is empty or begins with a separator. -/
theorem splitParts_cons (c : Char) (cs r : List Char) (hcs : ∀ x ∈ cs, isSep x = false) (hr : ∀ x, r.head? = some x → isSep x = true)
    (hc : c = '_' → cs ≠ []) : splitParts (c :: cs ++ r) = (c :: cs) :: splitParts r := by
  have h1 : ¬ (c = '_' ∧ (cs ++ r).head? = some '_') := by
    rintro ⟨h1, h2⟩
    cases cs with
    | nil => exact hc h1 rfl
    | cons d ds =>
      have h3 : d = '_' := by simpa using h2
      have := hcs d List.mem_cons_self
      rw [h3] at this
      exact absurd this (by decide)
  have hcs' : ∀ x ∈ cs, (!isSep x) = true := fun x hx => by rw [hcs x hx]; rfl
  have h2 : r.takeWhile (fun x => !isSep x) = [] ∧ r.dropWhile (fun x => !isSep x) = r := by
    cases r with
    | nil => exact ⟨rfl, rfl⟩
    | cons d ds =>
      have := hr d rfl
      simp [this]
  rw [List.cons_append, splitParts, if_neg h1, List.takeWhile_append_of_pos hcs', List.dropWhile_append_of_pos hcs', h2.1, h2.2, List.append_nil]

/-- A name followed by sub- and superscripts. -/
theorem splitParts_name (n r : List Char) (hn : GoodName n) (hr : ∀ x, r.head? = some x → isSep x = true) :
    splitParts (n ++ r) = n :: splitParts r := by
  obtain ⟨hn0, hnl⟩ := hn
  match n, hn0, hnl with
  | c :: cs, _, hnl =>
    refine splitParts_cons c cs r (fun x hx => letter_not_sep (hnl x (List.mem_cons_of_mem _ hx))) hr fun h => ?_
    have := hnl c List.mem_cons_self
    rw [h] at this
    exact absurd this (by decide)

theorem matchNameDigits_good (n : List Char) (hn : GoodName n) : matchNameDigits n = none := by
  unfold matchNameDigits
  have := takeWhile_append_of isLetter n [] hn.2 (by simp)
  simp only [List.append_nil] at this
  simp [this.2]

theorem classify_sub (s : List Char) (rest : List (List Char)) (hs : s ≠ []) (h : ∀ x ∈ s, isSep x = false) :
    classifyParts (('_' :: s) :: rest) = ((classifyParts rest).1, s :: (classifyParts rest).2) := by
  match s, hs, h with
  | c :: cs, _, h =>
    have hc : c ≠ '_' := by
      rintro rfl
      exact absurd (h '_' List.mem_cons_self) (by decide)
    rw [classifyParts]
    generalize classifyParts rest = q
    obtain ⟨a, b⟩ := q
    simp only
    split
    · rename_i heq; exact absurd (List.cons.inj heq).1 (by decide)
    · rename_i heq; exact absurd (List.cons.inj (List.cons.inj heq).2).1 hc
    · rename_i heq; rw [(List.cons.inj heq).2]
    · rename_i h; exact absurd rfl (h _)

theorem classify_nil : classifyParts [] = ([], []) := rfl

theorem classify_sup (s : List Char) (rest : List (List Char)) :
    classifyParts (('^' :: s) :: rest) = (s :: (classifyParts rest).1, (classifyParts rest).2) := rfl

/-- `int` reads what an f-string prints. -/
theorem parseInt_intStr (i : ℤ) : parseInt (intStr i) = some i := by
  unfold intStr
  split_ifs with h
  · rw [parseInt, parseDigits_natStr]
    change some (-((i.natAbs : ℕ) : ℤ)) = some i
    congr 1
    omega
  · rw [parseInt_natStr]
    congr 1
    omega

theorem intStr_ne_nil (i : ℤ) : intStr i ≠ [] := by
  unfold intStr
  split_ifs
  · simp
  · exact natStr_ne_nil _

theorem intStr_mem {i : ℤ} {x : Char} (hx : x ∈ intStr i) : x.isDigit = true ∨ x = '-' := by
  by_contra h
  rw [not_or] at h
  exact digit_not_mem (by simpa using h.1) h.2 i hx

theorem intStr_not_sep (i : ℤ) : ∀ x ∈ intStr i, isSep x = false := by
  intro x hx
  rcases intStr_mem hx with h | rfl
  · exact digit_not_sep h
  · decide

theorem strip_intStr (i : ℤ) : stripChar '}' (stripChar '{' (intStr i)) = intStr i := by
  have h : ∀ c : Char, c.isDigit = false → c ≠ '-' → ∀ x ∈ intStr i, x ≠ c := by
    rintro c h1 h2 x hx rfl
    exact digit_not_mem h1 h2 i hx
  rw [stripChar_id _ _ (h '{' (by decide) (by decide)), stripChar_id _ _ (h '}' (by decide) (by decide))]

theorem strip_braces (s : List Char) (hs : s ≠ []) (h1 : '{' ∉ s) (h2 : '}' ∉ s) :
    stripChar '}' (stripChar '{' ('{' :: s ++ ['}'])) = s := by
  have e1 : stripChar '{' ('{' :: s ++ ['}']) = s ++ ['}'] := by
    have h3 : ∀ x ∈ s ++ ['}'], x ≠ '{' := by
      intro x hx
      rcases List.mem_append.1 hx with h | h
      · rintro rfl; exact h1 h
      · rw [List.mem_singleton.1 h]; decide
    unfold stripChar
    rw [List.cons_append, List.dropWhile_cons_of_pos (by decide)]
    exact stripChar_id '{' _ h3
  rw [e1]
  unfold stripChar
  have h4 : (s ++ ['}']).dropWhile (· == '}') = s ++ ['}'] := by
    match s, hs, h2 with
    | c :: cs, _, h2 =>
      rw [List.cons_append, List.dropWhile_cons_of_neg]
      have : c ≠ '}' := fun e => h2 (by rw [e]; exact List.mem_cons_self)
      simpa using this
  rw [h4, List.reverse_append, List.reverse_singleton, List.singleton_append, List.dropWhile_cons_of_pos (by decide),
    dropWhile_id _ s.reverse (fun x hx => by
      have : x ≠ '}' := fun e => h2 (by rw [← e]; exact List.mem_reverse.1 hx)
      simpa using this), List.reverse_reverse]

end Cyjax.Polynomial
