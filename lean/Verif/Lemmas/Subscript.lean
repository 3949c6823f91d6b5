import Verif.Spec.PolyExpr
import Mathlib.Data.Nat.Digits.Lemmas

namespace Cyjax.Polynomial

theorem digitChar_isDigit : ∀ d, d < 10 → (Nat.digitChar d).isDigit = true := by decide
theorem digitChar_val : ∀ d, d < 10 → (Nat.digitChar d).toNat - '0'.toNat = d := by decide

theorem natStr_digits (i : ℕ) : ∀ c ∈ natStr i, c.isDigit = true := by
  intro c hc
  unfold natStr at hc
  split_ifs at hc with h
  · simp at hc; subst hc; decide
  · simp only [List.mem_reverse, List.mem_map] at hc
    obtain ⟨d, hd, rfl⟩ := hc
    exact digitChar_isDigit d (Nat.digits_lt_base (by norm_num) hd)

theorem natStr_ne_nil (i : ℕ) : natStr i ≠ [] := by
  unfold natStr
  split_ifs with h
  · simp
  · simp [Nat.digits_ne_nil_iff_ne_zero.2 h]

theorem foldl_digits (l : List ℕ) (hl : ∀ d ∈ l, d < 10) :
    ((l.map Nat.digitChar).reverse).foldl (fun acc c => 10 * acc + (c.toNat - '0'.toNat)) 0 =
      Nat.ofDigits 10 l := by
  induction l with
  | nil => rfl
  | cons d l ih =>
    simp only [List.map_cons, List.reverse_cons, List.foldl_append, List.foldl_cons, List.foldl_nil,
      Nat.ofDigits_cons]
    rw [ih (fun x hx => hl x (List.mem_cons_of_mem _ hx)), digitChar_val d (hl d List.mem_cons_self)]
    omega

theorem parseDigits_natStr (i : ℕ) : parseDigits (natStr i) = some i := by
  unfold parseDigits
  rw [if_pos ⟨natStr_ne_nil i, List.all_eq_true.2 (natStr_digits i)⟩]
  congr 1
  unfold natStr
  split_ifs with h
  · subst h; rfl
  · rw [foldl_digits _ (fun d hd => Nat.digits_lt_base (by norm_num) hd), Nat.ofDigits_digits]

theorem digit_ne {c : Char} (h : c.isDigit = true) {d : Char} (hd : d.isDigit = false) : c ≠ d := by
  rintro rfl; rw [h] at hd; exact Bool.noConfusion hd

theorem parseInt_natStr (i : ℕ) : parseInt (natStr i) = some (i : ℤ) := by
  have hd := natStr_digits i
  have h0 := natStr_ne_nil i
  have hp := parseDigits_natStr i
  match hs : natStr i with
  | [] => exact absurd hs h0
  | c :: s =>
    have hc := hd c (by rw [hs]; exact List.mem_cons_self)
    have h1 : c ≠ '-' := digit_ne hc (by decide)
    have h2 : c ≠ '+' := digit_ne hc (by decide)
    rw [hs] at hp
    unfold parseInt
    split
    · rename_i s' heq; exact absurd (List.cons.inj heq).1 h1
    · rename_i s' heq; exact absurd (List.cons.inj heq).1 h2
    · rw [hp]; rfl

theorem dropWhile_id {α : Type*} (p : α → Bool) (l : List α) (h : ∀ x ∈ l, p x = false) :
    l.dropWhile p = l := by
  cases l with
  | nil => rfl
  | cons a l => rw [List.dropWhile_cons_of_neg]; simp [h a List.mem_cons_self]

theorem takeWhile_self {α : Type*} (p : α → Bool) (l : List α) (h : ∀ x ∈ l, p x = true) :
    l.takeWhile p = l := by
  induction l with
  | nil => rfl
  | cons a l ih =>
    rw [List.takeWhile_cons_of_pos (h a List.mem_cons_self),
      ih (fun x hx => h x (List.mem_cons_of_mem _ hx))]

theorem dropWhile_nil {α : Type*} (p : α → Bool) (l : List α) (h : ∀ x ∈ l, p x = true) :
    l.dropWhile p = [] := by
  induction l with
  | nil => rfl
  | cons a l ih =>
    rw [List.dropWhile_cons_of_pos (h a List.mem_cons_self),
      ih (fun x hx => h x (List.mem_cons_of_mem _ hx))]

theorem stripChar_id (c : Char) (s : List Char) (h : ∀ x ∈ s, x ≠ c) : stripChar c s = s := by
  unfold stripChar
  rw [dropWhile_id _ s (fun x hx => by simpa using h x hx),
    dropWhile_id _ s.reverse (fun x hx => by simpa using h x (List.mem_reverse.1 hx)),
    List.reverse_reverse]

theorem splitParts_single (t : List Char) (h0 : t ≠ []) (h : ∀ c ∈ t, isSep c = false) :
    splitParts t = [t] := by
  cases t with
  | nil => exact absurd rfl h0
  | cons c cs =>
    have hc : c ≠ '_' := by
      intro e; have := h c List.mem_cons_self; rw [e] at this; simp [isSep] at this
    have hcs : ∀ x ∈ cs, (!isSep x) = true := fun x hx => by
      rw [h x (List.mem_cons_of_mem _ hx)]; rfl
    rw [splitParts, if_neg (fun e => hc e.1), takeWhile_self _ _ hcs,
      dropWhile_nil _ _ hcs, splitParts]

theorem letter_not_sep {c : Char} (h : isLetter c = true) : isSep c = false := by
  by_contra hs
  have hs' : isSep c = true := by simpa using hs
  simp only [isSep, Bool.or_eq_true, beq_iff_eq] at hs'
  rcases hs' with rfl | rfl <;> exact absurd h (by decide)

theorem digit_not_sep {c : Char} (h : c.isDigit = true) : isSep c = false := by
  by_contra hs
  have hs' : isSep c = true := by simpa using hs
  simp only [isSep, Bool.or_eq_true, beq_iff_eq] at hs'
  rcases hs' with rfl | rfl <;> exact absurd h (by decide)

theorem digit_not_letter {c : Char} (h : c.isDigit = true) : isLetter c = false := by
  unfold isLetter Char.isAlpha Char.isUpper Char.isLower
  unfold Char.isDigit at h
  simp only [Bool.and_eq_true, decide_eq_true_eq, Bool.or_eq_false_iff, Bool.and_eq_false_iff,
    decide_eq_false_iff_not, ge_iff_le, UInt32.le_iff_toNat_le] at h ⊢
  simp at h ⊢
  omega

theorem takeWhile_append_of {α : Type*} (p : α → Bool) (a b : List α) (ha : ∀ x ∈ a, p x = true)
    (hb : ∀ x ∈ b, p x = false) : (a ++ b).takeWhile p = a ∧ (a ++ b).dropWhile p = b := by
  induction a with
  | nil =>
    cases b with
    | nil => simp
    | cons x b =>
      have := hb x List.mem_cons_self
      simp [this]
  | cons x a ih =>
    have hx := ha x List.mem_cons_self
    have := ih (fun y hy => ha y (List.mem_cons_of_mem _ hy))
    simp [hx, this]

theorem matchNameDigits_merge (n : List Char) (hn : GoodName n) (d : List Char) (hd0 : d ≠ [])
    (hd : ∀ c ∈ d, c.isDigit = true) : matchNameDigits (n ++ d) = some (n, d) := by
  have := takeWhile_append_of isLetter n d hn.2 (fun x hx => digit_not_letter (hd x hx))
  unfold matchNameDigits
  simp only [this.1, this.2]
  rw [if_pos ⟨hn.1, hd0, List.all_eq_true.2 hd⟩]

theorem splitSubscript_merge (n : List Char) (hn : GoodName n) (i : ℕ) :
    splitSubscript (mergeSubscript n i) = .ok (n, some (i : ℤ)) := by
  have hd := natStr_digits i
  unfold splitSubscript splitSuperSub mergeSubscript
  rw [splitParts_single (n ++ natStr i) (by simp [hn.1]) (by
    intro c hc
    rcases List.mem_append.1 hc with h | h
    · exact letter_not_sep (hn.2 c h)
    · exact digit_not_sep (hd c h))]
  simp only [classifyParts, matchNameDigits_merge n hn _ (natStr_ne_nil i) hd]
  rw [stripChar_id '{' _ (fun x hx => digit_ne (hd x hx) (by decide)),
    stripChar_id '}' _ (fun x hx => digit_ne (hd x hx) (by decide)), parseInt_natStr]

theorem splitSubscript_good (n : List Char) (hn : GoodName n) :
    splitSubscript n = .ok (n, none) := by
  unfold splitSubscript splitSuperSub
  rw [splitParts_single n hn.1 (fun c hc => letter_not_sep (hn.2 c hc))]
  have : matchNameDigits n = none := by
    unfold matchNameDigits
    have := takeWhile_append_of isLetter n [] hn.2 (by simp)
    simp only [List.append_nil] at this
    simp [this.2]
  simp only [classifyParts, this]

theorem splitSubscript_underscore (n : List Char) (hn : GoodName n) (i : ℕ) :
    splitSubscript (n ++ '_' :: natStr i) = .ok (n, some (i : ℤ)) := by
  have hd := natStr_digits i
  unfold splitSubscript splitSuperSub
  have hparts : splitParts (n ++ '_' :: natStr i) = [n, '_' :: natStr i] := by
    obtain ⟨hn0, hnl⟩ := hn
    match n, hn0, hnl with
    | c :: cs, _, hnl =>
      have hc : c ≠ '_' := by
        intro e; have := hnl c List.mem_cons_self; rw [e] at this; exact absurd this (by decide)
      rw [List.cons_append, splitParts, if_neg (fun e => hc e.1)]
      have e1 : (cs ++ '_' :: natStr i).takeWhile (fun x => !isSep x) = cs ∧
          (cs ++ '_' :: natStr i).dropWhile (fun x => !isSep x) = '_' :: natStr i := by
        have hcs : ∀ x ∈ cs, (!isSep x) = true := fun x hx => by
          rw [letter_not_sep (hnl x (List.mem_cons_of_mem _ hx))]; rfl
        constructor
        · rw [List.takeWhile_append_of_pos hcs]; simp [isSep]
        · rw [List.dropWhile_append_of_pos hcs]; simp [isSep]
      rw [e1.1, e1.2, splitParts]
      have hh : ¬ ('_' = '_' ∧ (natStr i).head? = some '_') := by
        rintro ⟨_, h⟩
        have := hd '_' (List.mem_of_mem_head? h)
        exact absurd this (by decide)
      have hcs : ∀ x ∈ natStr i, (!isSep x) = true := fun x hx => by
          rw [digit_not_sep (hd x hx)]; rfl
      rw [if_neg hh, takeWhile_self _ _ hcs, dropWhile_nil _ _ hcs, splitParts]
  rw [hparts]
  have hm : matchNameDigits n = none := by
    unfold matchNameDigits
    have := takeWhile_append_of isLetter n [] hn.2 (by simp)
    simp only [List.append_nil] at this
    simp [this.2]
  have hcl : classifyParts ['_' :: natStr i] = ([], [natStr i]) := by
    match hs : natStr i with
    | [] => exact absurd hs (natStr_ne_nil i)
    | c :: s =>
      have hc : c ≠ '_' := digit_ne (hd c (by rw [hs]; exact List.mem_cons_self)) (by decide)
      unfold classifyParts
      simp only [classifyParts]
      split
      · rename_i heq; exact absurd (List.cons.inj heq).1 (by decide)
      · rename_i heq; exact absurd (List.cons.inj (List.cons.inj heq).2).1 hc
      · rename_i heq; rw [(List.cons.inj heq).2]
      · rename_i h; exact absurd rfl (h _)
  simp only [hcl, hm]
  rw [stripChar_id '{' _ (fun x hx => digit_ne (hd x hx) (by decide)),
    stripChar_id '}' _ (fun x hx => digit_ne (hd x hx) (by decide)), parseInt_natStr]

end Cyjax.Polynomial
