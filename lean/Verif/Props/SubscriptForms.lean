import Verif.Lemmas.SubscriptForms

/-! # C176: the notations for subscripts -/

namespace Cyjax

open Cyjax.Polynomial

/-- A name with any one subscript: it is an integer without braces around it, or the call raises a `ValueError`. -/
theorem split_one (n s : List Char) (hn : GoodName n) (hs : s ≠ []) (h : ∀ x ∈ s, isSep x = false) :
    splitSubscript (n ++ '_' :: s) = match parseInt (stripChar '}' (stripChar '{' s)) with
      | some i => .ok (n, some i)
      | none => .error .valueError := by
  unfold splitSubscript splitSuperSub
  rw [splitParts_name n _ hn (by simp [isSep]), show '_' :: s = '_' :: s ++ [] by simp,
    splitParts_cons '_' s [] h (by simp) fun _ => hs, splitParts]
  simp only [classify_sub s [] hs h, matchNameDigits_good n hn, classify_nil]
  cases parseInt (stripChar '}' (stripChar '{' s)) <;> rfl

/-- **C176.** `name_i` and `name_{i}` give the name and the integer `i`, which may be negative. -/
theorem C176_forms (n : List Char) (hn : GoodName n) (i : ℤ) :
    splitSubscript (n ++ '_' :: intStr i) = .ok (n, some i) ∧
      splitSubscript (n ++ '_' :: '{' :: intStr i ++ ['}']) = .ok (n, some i) := by
  constructor
  · rw [split_one n _ hn (intStr_ne_nil i) (intStr_not_sep i), strip_intStr, parseInt_intStr]
  · rw [List.append_assoc, List.cons_append, split_one n _ hn (by simp) ?_,
      strip_braces _ (intStr_ne_nil i) (digit_not_mem (by decide) (by decide) i) (digit_not_mem (by decide) (by decide) i), parseInt_intStr]
    intro x hx
    rw [List.cons_append, List.mem_cons, List.mem_append, List.mem_singleton] at hx
    rcases hx with rfl | hx | rfl
    · decide
    · exact intStr_not_sep i x hx
    · decide

/-- A negative index with braces. -/
example : splitSubscript "z_{-12}".toList = .ok ("z".toList, some (-12)) := by
  have := (C176_forms "z".toList (by decide) (-12)).2
  rwa [show intStr (-12) = "-12".toList by simp [intStr, natStr, Nat.digitChar]] at this

/-- **C176.** A subscript that contains a letter raises a `ValueError`. -/
theorem C176_letters (n s : List Char) (hn : GoodName n) (h : ∀ x ∈ s, isSep x = false) (hl : ∃ x ∈ s, isLetter x = true) :
    splitSubscript (n ++ '_' :: s) = .error .valueError := by
  obtain ⟨x, hx, hxl⟩ := hl
  have hs : s ≠ [] := List.ne_nil_of_mem hx
  rw [split_one n s hn hs h]
  have hstrip : ∀ (c : Char) (t : List Char), isLetter c = false → x ∈ t → x ∈ stripChar c t := by
    intro c t hc ht
    have key : ∀ u : List Char, x ∈ u → x ∈ u.dropWhile (· == c) := by
      intro u
      induction u with
      | nil => exact id
      | cons a u ih =>
        intro hu
        rcases List.mem_cons.1 hu with rfl | hu
        · rw [List.dropWhile_cons_of_neg]
          · exact List.mem_cons_self
          · have : x ≠ c := by
              rintro rfl
              rw [hxl] at hc
              cases hc
            simpa using this
        · by_cases ha : a = c
          · rw [List.dropWhile_cons_of_pos (by simpa using ha)]
            exact ih hu
          · rw [List.dropWhile_cons_of_neg (by simpa using ha)]
            exact List.mem_cons_of_mem _ hu
    exact List.mem_reverse.2 (key _ (List.mem_reverse.2 (key _ ht)))
  have hmem := hstrip '}' _ (by decide) (hstrip '{' s (by decide) hx)
  obtain ⟨u, hu⟩ : ∃ u, u = stripChar '}' (stripChar '{' s) := ⟨_, rfl⟩
  rw [← hu] at hmem ⊢
  have hd : ∀ v : List Char, x ∈ v → parseDigits v = none := by
    intro v hv
    unfold parseDigits
    rw [if_neg]
    rintro ⟨-, h2⟩
    have h3 := digit_not_letter (List.all_eq_true.1 h2 x hv)
    rw [hxl] at h3
    cases h3
  have hp : parseInt u = none := by
    unfold parseInt
    split
    · rw [hd _ ?_]; · rfl
      rcases List.mem_cons.1 hmem with h | h
      · rw [h] at hxl
        exact absurd hxl (by decide)
      · exact h
    · rw [hd _ ?_]; · rfl
      rcases List.mem_cons.1 hmem with h | h
      · rw [h] at hxl
        exact absurd hxl (by decide)
      · exact h
    · rw [hd _ hmem]
      rfl
  rw [hp]

example : splitSubscript "z_{1a}".toList = .error .valueError :=
  C176_letters "z".toList "{1a}".toList (by decide) (by decide) ⟨'a', by decide, by decide⟩

/-- **C176.** Two subscripts raise a `RuntimeError`: `name_s_t` and `name1_t`. -/
theorem C176_several (n s t : List Char) (hn : GoodName n) (hs : s ≠ []) (h : ∀ x ∈ s, isSep x = false) (ht : t ≠ [])
    (h' : ∀ x ∈ t, isSep x = false) (i : ℕ) :
    splitSubscript (n ++ ('_' :: s ++ '_' :: t)) = .error .runtimeError ∧
      splitSubscript (mergeSubscript n i ++ '_' :: t) = .error .runtimeError := by
  have e1 : splitParts ('_' :: t) = ['_' :: t] := by
    have := splitParts_cons '_' t [] h' (by simp) fun _ => ht
    rwa [List.append_nil, splitParts] at this
  constructor
  · unfold splitSubscript splitSuperSub
    rw [splitParts_name n _ hn (by simp [isSep]), splitParts_cons '_' s _ h (by simp [isSep]) fun _ => hs, e1]
    simp only [classify_sub s _ hs h, classify_sub t _ ht h', matchNameDigits_good n hn, classify_nil]
  · unfold splitSubscript splitSuperSub mergeSubscript
    have hd := natStr_digits i
    have e2 : splitParts (n ++ natStr i ++ '_' :: t) = (n ++ natStr i) :: splitParts ('_' :: t) := by
      obtain ⟨hn0, hnl⟩ := hn
      match n, hn0, hnl with
      | c :: cs, _, hnl =>
        rw [List.cons_append]
        refine splitParts_cons c (cs ++ natStr i) _ (fun x hx => ?_) (by simp [isSep]) fun h => ?_
        · rcases List.mem_append.1 hx with hx | hx
          · exact letter_not_sep (hnl x (List.mem_cons_of_mem _ hx))
          · exact digit_not_sep (hd x hx)
        · have := hnl c List.mem_cons_self
          rw [h] at this
          exact absurd this (by decide)
    rw [e2, e1]
    simp only [classify_sub t _ ht h', matchNameDigits_merge n hn _ (natStr_ne_nil i) hd, classify_nil]

example : splitSubscript "z_1_2".toList = .error .runtimeError :=
  (C176_several "z".toList "1".toList "2".toList (by decide) (by decide) (by decide) (by decide) (by decide) 1).1

/-- **C176.** A superscript is discarded. -/
theorem C176_superscript (n s : List Char) (hn : GoodName n) (h : ∀ x ∈ s, isSep x = false) (i : ℤ) :
    splitSubscript (n ++ '^' :: s) = .ok (n, none) ∧ splitSubscript (n ++ ('^' :: s ++ '_' :: intStr i)) = .ok (n, some i) := by
  have e1 : splitParts ('_' :: intStr i) = ['_' :: intStr i] := by
    have := splitParts_cons '_' (intStr i) [] (intStr_not_sep i) (by simp) fun _ => intStr_ne_nil i
    rwa [List.append_nil, splitParts] at this
  constructor
  · unfold splitSubscript splitSuperSub
    rw [splitParts_name n _ hn (by simp [isSep]), show '^' :: s = '^' :: s ++ [] by simp,
      splitParts_cons '^' s [] h (by simp) fun h => absurd h (by decide), splitParts]
    simp only [classify_sup, matchNameDigits_good n hn, classify_nil]
  · unfold splitSubscript splitSuperSub
    rw [splitParts_name n _ hn (by simp [isSep]), splitParts_cons '^' s _ h (by simp [isSep]) fun h => absurd h (by decide), e1]
    simp only [classify_sup, classify_sub _ _ (intStr_ne_nil i) (intStr_not_sep i), matchNameDigits_good n hn, classify_nil, strip_intStr,
      parseInt_intStr]

example : splitSubscript "z^2_3".toList = .ok ("z".toList, some 3) :=
  (C176_superscript "z".toList "2".toList (by decide) (by decide) 3).2

/-- **C176.** `split_subscript` undoes `merge_subscript`. Missing: negative subscripts, see `C176_negative_violated`. -/
theorem C176_merge_partial (n : List Char) (hn : GoodName n) (i : ℤ) (hi : 0 ≤ i) :
    splitSubscript (mergeSubscriptInt n i) = .ok (n, some i) := by
  obtain ⟨k, rfl⟩ := Int.eq_ofNat_of_zero_le hi
  rw [mergeSubscriptInt, intStr_nat]
  exact splitSubscript_merge n hn k

example : splitSubscript (mergeSubscriptInt "z".toList 12) = .ok ("z".toList, some 12) := C176_merge_partial _ (by decide) 12 (by decide)

/-- **C176.** A negative subscript does not survive `merge_subscript`: the merged symbol is read as a name without subscript. -/
theorem C176_negative_violated (n : List Char) (hn : GoodName n) (i : ℤ) (hi : i < 0) :
    splitSubscript (mergeSubscriptInt n i) = .ok (n ++ intStr i, none) ∧ splitSubscript (mergeSubscriptInt n i) ≠ .ok (n, some i) := by
  have h1 : splitSubscript (mergeSubscriptInt n i) = .ok (n ++ intStr i, none) := by
    unfold splitSubscript splitSuperSub mergeSubscriptInt
    have e1 : splitParts (n ++ intStr i) = [n ++ intStr i] := splitParts_single _ (by simp [hn.1]) fun c hc => by
      rcases List.mem_append.1 hc with h | h
      · exact letter_not_sep (hn.2 c h)
      · exact intStr_not_sep i c h
    have e2 : matchNameDigits (n ++ intStr i) = none := by
      unfold matchNameDigits
      have h2 : intStr i = '-' :: natStr i.natAbs := by rw [intStr, if_pos hi]
      have h3 := takeWhile_append_of isLetter n (intStr i) hn.2 fun x hx => by
        rcases intStr_mem hx with h | rfl
        · exact digit_not_letter h
        · decide
      simp only [h3.1, h3.2]
      rw [if_neg]
      rintro ⟨-, -, h4⟩
      have := List.all_eq_true.1 h4 '-' (by rw [h2]; exact List.mem_cons_self)
      exact absurd this (by decide)
    rw [e1]
    simp only [e2, classifyParts]
  refine ⟨h1, ?_⟩
  rw [h1]
  intro h
  simp at h

example : splitSubscript (mergeSubscriptInt "z".toList (-1)) = .ok ("z-1".toList, none) :=
  (C176_negative_violated "z".toList (by decide) (-1) (by decide)).1

end Cyjax
