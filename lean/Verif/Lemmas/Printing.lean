import Verif.Spec.Printing
import Verif.Lemmas.Subscript

namespace Cyjax.Polynomial

/-- Cutting at the first stop is unique. -/
theorem word_cut {a a' : List Char} (ha : ∀ c ∈ a, c ∉ [' ', ',', '[', ']', '(', ')', '='])
    (ha' : ∀ c ∈ a', c ∉ [' ', ',', '[', ']', '(', ')', '=']) {c c' : Char}
    (hc : c ∈ [' ', ',', '[', ']', '(', ')', '=']) (hc' : c' ∈ [' ', ',', '[', ']', '(', ')', '=']) {r r' : List Char}
    (h : a ++ c :: r = a' ++ c' :: r') : a = a' ∧ c = c' ∧ r = r' := by
  induction a generalizing a' with
  | nil =>
    cases a' with
    | nil => simpa using h
    | cons x a' =>
      simp only [List.nil_append, List.cons_append, List.cons.injEq] at h
      exact absurd (h.1 ▸ hc) (ha' x List.mem_cons_self)
  | cons y a ih =>
    cases a' with
    | nil =>
      simp only [List.nil_append, List.cons_append, List.cons.injEq] at h
      exact absurd (h.1 ▸ hc') (ha y List.mem_cons_self)
    | cons x a' =>
      simp only [List.cons_append, List.cons.injEq] at h
      obtain ⟨h1, h2, h3⟩ := ih (fun c hc => ha c (List.mem_cons_of_mem _ hc)) (fun c hc => ha' c (List.mem_cons_of_mem _ hc)) h.2
      exact ⟨by rw [h.1, h1], h2, h3⟩

/-- Joining with the separator in front of every later entry. -/
theorem strJoin_cons (sep x : List Char) (l : List (List Char)) :
    strJoin sep (x :: l) = x ++ l.flatMap (sep ++ ·) := by
  induction l generalizing x with
  | nil => simp [strJoin]
  | cons y l ih => rw [strJoin, ih]; simp

/-- Words in front of a closing bracket, after the first one. -/
theorem words_tail {l l' : List (List Char)} (hl : ∀ w ∈ l, PlainWord w) (hl' : ∀ w ∈ l', PlainWord w) {r r' : List Char}
    (h : l.flatMap (", ".toList ++ ·) ++ ']' :: r = l'.flatMap (", ".toList ++ ·) ++ ']' :: r') : l = l' ∧ r = r' := by
  induction l generalizing l' with
  | nil =>
    cases l' with
    | nil => simpa using h
    | cons w l' => simp at h
  | cons v l ih =>
    cases l' with
    | nil => simp at h
    | cons w l' =>
      simp only [List.flatMap_cons, List.append_assoc] at h
      have h2 : v ++ (l.flatMap (", ".toList ++ ·) ++ ']' :: r) = w ++ (l'.flatMap (", ".toList ++ ·) ++ ']' :: r') := by
        simpa using h
      have hv := (hl v List.mem_cons_self).2
      have hw := (hl' w List.mem_cons_self).2
      have split : ∀ (l : List (List Char)) (r : List Char), ∃ c s, c ∈ [' ', ',', '[', ']', '(', ')', '='] ∧
          l.flatMap (", ".toList ++ ·) ++ ']' :: r = c :: s := by
        intro l r
        cases l with
        | nil => exact ⟨']', r, by decide, rfl⟩
        | cons x l => exact ⟨',', _, by decide, rfl⟩
      obtain ⟨c, s, hc, he⟩ := split l r
      obtain ⟨c', s', hc', he'⟩ := split l' r'
      have h3 := h2
      rw [he, he'] at h3
      obtain ⟨e1, e2, e3⟩ := word_cut hv hw hc hc' h3
      have h4 : l.flatMap (", ".toList ++ ·) ++ ']' :: r = l'.flatMap (", ".toList ++ ·) ++ ']' :: r' := by
        rw [he, he', e2, e3]
      obtain ⟨e4, e5⟩ := ih (fun w hw => hl w (List.mem_cons_of_mem _ hw)) (fun w hw => hl' w (List.mem_cons_of_mem _ hw)) h4
      exact ⟨by rw [e1, e4], e5⟩

/-- Words between brackets. -/
theorem words_list {l l' : List (List Char)} (hl : ∀ w ∈ l, PlainWord w) (hl' : ∀ w ∈ l', PlainWord w) {r r' : List Char}
    (h : strJoin ", ".toList l ++ ']' :: r = strJoin ", ".toList l' ++ ']' :: r') : l = l' ∧ r = r' := by
  have start : ∀ (w : List Char) (l : List (List Char)) (r : List Char), PlainWord w →
      ∀ s, strJoin ", ".toList (w :: l) ++ r ≠ ']' :: s := by
    intro w l r hw s hs
    obtain ⟨x, w', rfl⟩ := List.exists_cons_of_ne_nil hw.1
    rw [strJoin_cons] at hs
    simp only [List.cons_append, List.cons.injEq] at hs
    exact hw.2 x List.mem_cons_self (by rw [hs.1]; decide)
  cases l with
  | nil =>
    cases l' with
    | nil => simpa [strJoin] using h
    | cons w l' => exact absurd h.symm (start w l' _ (hl' w List.mem_cons_self) _)
  | cons v l =>
    cases l' with
    | nil => exact absurd h (start v l _ (hl v List.mem_cons_self) _)
    | cons w l' =>
      have h' : (v :: l).flatMap (", ".toList ++ ·) ++ ']' :: r = (w :: l').flatMap (", ".toList ++ ·) ++ ']' :: r' := by
        rw [strJoin_cons, strJoin_cons] at h
        simp only [List.flatMap_cons, List.append_assoc] at h ⊢
        rw [h]
      exact words_tail hl hl' h'

/-- A name with an index is a plain word. -/
theorem plainWord_sub {n : List Char} (hn : PlainWord n) (i : ℕ) : PlainWord (n ++ '_' :: natStr i) := by
  refine ⟨by simp, fun c hc => ?_⟩
  simp only [List.mem_append, List.mem_cons] at hc
  rcases hc with hc | rfl | hc
  · exact hn.2 c hc
  · decide
  · have hd := natStr_digits i c hc
    intro hs
    simp only [List.mem_cons, List.not_mem_nil, or_false] at hs
    rcases hs with rfl | rfl | rfl | rfl | rfl | rfl | rfl <;> exact absurd hd (by decide)

theorem natStr_injective {i j : ℕ} (h : natStr i = natStr j) : i = j := by
  have := parseDigits_natStr i
  rw [h, parseDigits_natStr] at this
  exact (Option.some.inj this).symm

/-- The last underscore separates the name from the index. -/
theorem sub_injective {n n' : List Char} {i i' : ℕ} (h : n ++ '_' :: natStr i = n' ++ '_' :: natStr i') : n = n' ∧ i = i' := by
  have key : ∀ {a a' b b' : List Char}, '_' ∉ a → '_' ∉ a' → a ++ '_' :: b = a' ++ '_' :: b' → a = a' ∧ b = b' := by
    intro a
    induction a with
    | nil =>
      intro a' b b' _ ha' h
      cases a' with
      | nil => simpa using h
      | cons x a' =>
        simp only [List.nil_append, List.cons_append, List.cons.injEq] at h
        exact absurd (by rw [← h.1]; exact List.mem_cons_self) ha'
    | cons y a ih =>
      intro a' b b' ha ha' h
      cases a' with
      | nil =>
        simp only [List.nil_append, List.cons_append, List.cons.injEq] at h
        exact absurd (by rw [h.1]; exact List.mem_cons_self) ha
      | cons x a' =>
        simp only [List.cons_append, List.cons.injEq] at h
        obtain ⟨e1, e2⟩ := ih (fun hm => ha (List.mem_cons_of_mem _ hm)) (fun hm => ha' (List.mem_cons_of_mem _ hm)) h.2
        exact ⟨by rw [h.1, e1], e2⟩
  have nd : ∀ i, '_' ∉ (natStr i).reverse := fun i hm =>
    absurd (natStr_digits i '_' (List.mem_reverse.1 hm)) (by decide)
  have h' := congrArg List.reverse h
  simp only [List.reverse_append, List.reverse_cons, List.append_assoc, List.singleton_append] at h'
  obtain ⟨e1, e2⟩ := key (nd i) (nd i') h'
  exact ⟨List.reverse_injective e2, natStr_injective (List.reverse_injective e1)⟩

/-- One printed variable in front of a comma or a closing parenthesis. -/
theorem reprVar_cut {v v' : List Char × Option (List ℕ)} (hv : PlainWord v.1) (hv' : PlainWord v'.1) (hn : v.2 ≠ some [])
    (hn' : v'.2 ≠ some []) {c c' : Char} {r r' : List Char} (hc : c = ',' ∨ c = ')') (hc' : c' = ',' ∨ c' = ')')
    (h : reprVar v ++ c :: r = reprVar v' ++ c' :: r') : v = v' ∧ c = c' ∧ r = r' := by
  have stop : ∀ {c : Char}, c = ',' ∨ c = ')' → c ∈ [' ', ',', '[', ']', '(', ')', '='] := by
    rintro c (rfl | rfl) <;> decide
  have mixed : ∀ {n : List Char} (x s : List Char), PlainWord n → n ++ x ≠ '[' :: s := by
    intro n x s hn h
    obtain ⟨a, n', rfl⟩ := List.exists_cons_of_ne_nil hn.1
    simp only [List.cons_append, List.cons.injEq] at h
    exact hn.2 a List.mem_cons_self (by rw [h.1]; decide)
  obtain ⟨n, ix⟩ := v
  obtain ⟨n', ix'⟩ := v'
  cases ix with
  | none =>
    cases ix' with
    | none =>
      obtain ⟨e1, e2, e3⟩ := word_cut hv.2 hv'.2 (stop hc) (stop hc') h
      exact ⟨by rw [show n = n' from e1], e2, e3⟩
    | some ind' => exact absurd h (mixed _ _ hv)
  | some ind =>
    cases ix' with
    | none => exact absurd h.symm (mixed _ _ hv')
    | some ind' =>
      have h' : strJoin ", ".toList (ind.map fun i => n ++ '_' :: natStr i) ++ ']' :: (c :: r) =
          strJoin ", ".toList (ind'.map fun i => n' ++ '_' :: natStr i) ++ ']' :: (c' :: r') := by
        simpa [reprVar] using h
      obtain ⟨e1, e2⟩ := words_list
        (by simp only [List.mem_map]; rintro w ⟨i, -, rfl⟩; exact plainWord_sub hv i)
        (by simp only [List.mem_map]; rintro w ⟨i, -, rfl⟩; exact plainWord_sub hv' i) h'
      have hind : ind ≠ [] := fun he => hn (by rw [he])
      have hname : n = n' := by
        cases ind with
        | nil => exact absurd rfl hind
        | cons i ind =>
          cases ind' with
          | nil => exact absurd e1 (by simp)
          | cons i' ind' =>
            simp only [List.map_cons, List.cons.injEq] at e1
            exact (sub_injective e1.1).1
      subst hname
      have hinj : Function.Injective fun i => n ++ '_' :: natStr i := fun i j hij => (sub_injective hij).2
      have := List.map_injective_iff.2 hinj e1
      simp only [List.cons.injEq] at e2
      exact ⟨by rw [this], e2.1, e2.2⟩

/-- The end of the list of arguments, with what follows. -/
def closeHead (params : List Sym) (r : List Char) : List Char :=
  if params = [] then ')' :: r else ", params=[".toList ++ strJoin ", ".toList params ++ ']' :: ')' :: r

theorem closeHead_first (params : List Sym) (r : List Char) :
    ∃ c s, (c = ',' ∨ c = ')') ∧ closeHead params r = c :: s := by
  unfold closeHead
  split_ifs
  · exact ⟨')', r, .inr rfl, rfl⟩
  · exact ⟨',', _, .inl rfl, rfl⟩

theorem closeHead_inj {p p' : List Sym} (hp : ∀ s ∈ p, PlainWord s) (hp' : ∀ s ∈ p', PlainWord s) {r r' : List Char}
    (h : closeHead p r = closeHead p' r') : p = p' ∧ r = r' := by
  unfold closeHead at h
  split_ifs at h with h1 h2 h2
  · rw [h1, h2]; exact ⟨rfl, (List.cons.inj h).2⟩
  · simp at h
  · simp at h
  · have h' : strJoin ", ".toList p ++ ']' :: (')' :: r) = strJoin ", ".toList p' ++ ']' :: (')' :: r') := by simpa using h
    obtain ⟨e1, e2⟩ := words_list hp hp' h'
    exact ⟨e1, (List.cons.inj e2).2⟩

/-- All variables after the first one. -/
theorem vars_tail {l l' : List (List Char × Option (List ℕ))} (hl : ∀ v ∈ l, PlainWord v.1 ∧ v.2 ≠ some [])
    (hl' : ∀ v ∈ l', PlainWord v.1 ∧ v.2 ≠ some []) {p p' : List Sym} (hp : ∀ s ∈ p, PlainWord s)
    (hp' : ∀ s ∈ p', PlainWord s) {r r' : List Char}
    (h : (l.map reprVar).flatMap (", ".toList ++ ·) ++ closeHead p r =
      (l'.map reprVar).flatMap (", ".toList ++ ·) ++ closeHead p' r') : l = l' ∧ p = p' ∧ r = r' := by
  have first : ∀ (l : List (List Char × Option (List ℕ))) (p : List Sym) (r : List Char), ∃ c s, (c = ',' ∨ c = ')') ∧
      (l.map reprVar).flatMap (", ".toList ++ ·) ++ closeHead p r = c :: s := by
    intro l p r
    cases l with
    | nil => simpa using closeHead_first p r
    | cons v l => exact ⟨',', _, .inl rfl, rfl⟩
  have stop : ∀ {c : Char}, c = ',' ∨ c = ')' → c ∈ [' ', ',', '[', ']', '(', ')', '='] := by
    rintro c (rfl | rfl) <;> decide
  -- the keyword `params` is not a variable
  have kw : ∀ (v : List Char × Option (List ℕ)) (l : List (List Char × Option (List ℕ))) (p p' : List Sym) (r r' : List Char),
      PlainWord v.1 → closeHead p r ≠ ((v :: l).map reprVar).flatMap (", ".toList ++ ·) ++ closeHead p' r' := by
    intro v l p p' r r' hv h
    obtain ⟨c, s, hc, he⟩ := first l p' r'
    simp only [List.map_cons, List.flatMap_cons, List.append_assoc] at h
    rw [he] at h
    unfold closeHead at h
    split_ifs at h with h1
    · simp at h
    · obtain ⟨n, ix⟩ := v
      have h' : "params".toList ++ '=' :: '[' :: (strJoin ", ".toList p ++ ']' :: ')' :: r) = reprVar (n, ix) ++ c :: s := by
        simpa using h
      cases ix with
      | none =>
        obtain ⟨-, e, -⟩ := word_cut (by decide) hv.2 (by decide) (stop hc) h'
        rcases hc with rfl | rfl <;> exact absurd e (by decide)
      | some ind => simp [reprVar] at h'
  induction l generalizing l' with
  | nil =>
    cases l' with
    | nil =>
      obtain ⟨e1, e2⟩ := closeHead_inj hp hp' (by simpa using h)
      exact ⟨rfl, e1, e2⟩
    | cons v l' => exact absurd (by simpa using h) (kw v l' p p' r r' (hl' v List.mem_cons_self).1)
  | cons v l ih =>
    cases l' with
    | nil => exact absurd (by simpa using h.symm) (kw v l p' p r' r (hl v List.mem_cons_self).1)
    | cons w l' =>
      simp only [List.map_cons, List.flatMap_cons, List.append_assoc] at h
      obtain ⟨c, s, hc, he⟩ := first l p r
      obtain ⟨c', s', hc', he'⟩ := first l' p' r'
      rw [he, he'] at h
      have h' : reprVar v ++ c :: s = reprVar w ++ c' :: s' := by simpa using h
      obtain ⟨hv1, hv2⟩ := hl v List.mem_cons_self
      obtain ⟨hw1, hw2⟩ := hl' w List.mem_cons_self
      obtain ⟨e1, e2, e3⟩ := reprVar_cut hv1 hw1 hv2 hw2 hc hc' h'
      obtain ⟨e4, e5⟩ := ih (fun x hx => hl x (List.mem_cons_of_mem _ hx)) (fun x hx => hl' x (List.mem_cons_of_mem _ hx))
        (by rw [he, he', e2, e3])
      exact ⟨by rw [e1, e4], e5⟩

/-- The printed header with the parts separated. -/
theorem reprHead_eq (t : List Char) (m : Meta) (r : List Char) :
    reprHead t m ++ r = t ++ '(' :: (strJoin ", ".toList (m.vars.map reprVar) ++ closeHead m.params r) := by
  unfold reprHead closeHead
  split_ifs <;> simp

/-- The header determines the class, the variables and the parameters. -/
theorem reprHead_inj {t t' : List Char} (ht : PlainWord t) (ht' : PlainWord t') {m m' : Meta} (hm : m.Printable)
    (hm' : m'.Printable) {r r' : List Char} (h : reprHead t m ++ r = reprHead t' m' ++ r') : t = t' ∧ m = m' ∧ r = r' := by
  rw [reprHead_eq, reprHead_eq] at h
  obtain ⟨e1, -, e2⟩ := word_cut ht.2 ht'.2 (by decide) (by decide) h
  refine ⟨e1, ?_⟩
  have hv : ∀ v ∈ m.vars, PlainWord v.1 ∧ v.2 ≠ some [] := fun v hv => ⟨hm.names v hv, hm.entries v hv⟩
  have hv' : ∀ v ∈ m'.vars, PlainWord v.1 ∧ v.2 ≠ some [] := fun v hv => ⟨hm'.names v hv, hm'.entries v hv⟩
  have hp := hm.params
  have hp' := hm'.params
  obtain ⟨l, p⟩ := m
  obtain ⟨l', p'⟩ := m'
  simp only at e2 hv hv' hp hp'
  have start : ∀ (v : List Char × Option (List ℕ)) (x : List Char) (p : List Sym) (r : List Char), PlainWord v.1 →
      closeHead p r ≠ reprVar v ++ x := by
    intro v x p r hv h
    obtain ⟨c, s, hc, he⟩ := closeHead_first p r
    rw [he] at h
    obtain ⟨n, ix⟩ := v
    cases ix with
    | none =>
      obtain ⟨a, n', rfl⟩ := List.exists_cons_of_ne_nil hv.1
      simp only [reprVar, List.cons_append, List.cons.injEq] at h
      refine hv.2 a List.mem_cons_self ?_
      rw [← h.1]
      rcases hc with rfl | rfl <;> decide
    | some ind =>
      have : c = '[' := by
        have := congrArg List.head? h
        simpa [reprVar] using this
      rcases hc with rfl | rfl <;> exact absurd this (by decide)
  have key : l = l' ∧ p = p' ∧ r = r' := by
    cases l with
    | nil =>
      cases l' with
      | nil => exact vars_tail hv hv' hp hp' (by simpa [strJoin] using e2)
      | cons w l' =>
        rw [List.map_cons, strJoin_cons, List.append_assoc] at e2
        exact absurd (by simpa [strJoin] using e2) (start w _ p r (hv' w List.mem_cons_self).1)
    | cons v l =>
      cases l' with
      | nil =>
        rw [List.map_cons, strJoin_cons, List.append_assoc] at e2
        exact absurd (by simpa [strJoin] using e2.symm) (start v _ p' r' (hv v List.mem_cons_self).1)
      | cons w l' =>
        rw [List.map_cons, strJoin_cons, List.map_cons, strJoin_cons] at e2
        refine vars_tail hv hv' hp hp' ?_
        rw [List.map_cons, List.flatMap_cons, List.map_cons, List.flatMap_cons]
        simp only [List.append_assoc] at e2 ⊢
        rw [e2]
  obtain ⟨e3, e4, e5⟩ := key
  exact ⟨by rw [e3, e4], e5⟩

theorem not_mem_strJoin {x : Char} {sep : List Char} (hs : x ∉ sep) {l : List (List Char)} (hl : ∀ w ∈ l, x ∉ w) :
    x ∉ strJoin sep l := by
  cases l with
  | nil => simp [strJoin]
  | cons w l =>
    rw [strJoin_cons]
    simp only [List.mem_append, List.mem_flatMap, not_or, not_exists, not_and]
    exact ⟨hl w List.mem_cons_self, fun a ha => ⟨hs, hl a (List.mem_cons_of_mem _ ha)⟩⟩

open Cyjax.Variety

theorem inlineMath_reprLatex (tex : Expr → List Char) (htex : ∀ e, '$' ∉ tex e) {t : List Char} (ht : '$' ∉ t) (m : Meta)
    (e : Expr) : InlineMath (reprLatex tex t m e) := by
  have hv : '$' ∉ strJoin ",".toList (m.vars.map (latexVar tex)) := by
    refine not_mem_strJoin (by decide) fun w hw => ?_
    obtain ⟨⟨n, ix⟩, -, rfl⟩ := List.mem_map.1 hw
    cases ix with
    | none => exact htex _
    | some ind =>
      have := not_mem_strJoin (x := '$') (sep := ",".toList) (by decide)
        (l := ind.map fun i => latexStr tex (n ++ '_' :: natStr i))
        (by simp only [List.mem_map]; rintro w ⟨i, -, rfl⟩; exact htex _)
      simp only [latexVar, List.mem_append, not_or]
      exact ⟨⟨by decide, this⟩, by decide⟩
  have hp : '$' ∉ strJoin ",".toList (m.params.map (latexStr tex)) := by
    refine not_mem_strJoin (by decide) fun w hw => ?_
    obtain ⟨s, -, rfl⟩ := List.mem_map.1 hw
    exact htex _
  unfold reprLatex
  split_ifs with h
  · refine ⟨"\\displaystyle ".toList ++ ("\\operatorname{".toList ++ t ++ "}".toList) ++ "(".toList ++
      strJoin ",".toList (m.vars.map (latexVar tex)) ++ ") = ".toList ++ tex e, ?_, by simp⟩
    simp only [List.mem_append, not_or]
    exact ⟨⟨⟨⟨⟨by decide, ⟨by decide, ht⟩, by decide⟩, by decide⟩, hv⟩, by decide⟩, htex e⟩
  · refine ⟨"\\displaystyle ".toList ++ ("\\operatorname{".toList ++ t ++ "}".toList) ++ "(".toList ++
      strJoin ",".toList (m.vars.map (latexVar tex)) ++ ", \\text{params}=".toList ++
      ("[".toList ++ strJoin ",".toList (m.params.map (latexStr tex)) ++ "]".toList) ++ ") = ".toList ++ tex e, ?_, by simp⟩
    simp only [List.mem_append, not_or]
    exact ⟨⟨⟨⟨⟨⟨⟨by decide, ⟨by decide, ht⟩, by decide⟩, by decide⟩, hv⟩, by decide⟩, ⟨by decide, hp⟩, by decide⟩,
      by decide⟩, htex e⟩

theorem digit_not_mem {x : Char} (hx : x.isDigit = false) (hx' : x ≠ '-') (i : ℤ) : x ∉ intStr i := by
  unfold intStr
  split_ifs
  · simp only [List.mem_cons, not_or]
    exact ⟨hx', fun h => digit_ne (natStr_digits _ _ h) hx rfl⟩
  · exact fun h => digit_ne (natStr_digits _ _ h) hx rfl

theorem dims_of_complex {V : HomKind} {m : ℕ} (hm : dimComplex V = .ok (m + 2)) :
    dimProjective V = .ok ((m + 1 : ℕ) : ℤ) ∧ dimVariety V = .ok (m : ℤ) := by
  have h1 : dimProjective V = .ok ((m + 1 : ℕ) : ℤ) := by
    simp only [dimProjective, hm]; congr 1; push_cast; ring
  exact ⟨h1, by simp only [dimVariety, h1]; congr 1; push_cast; ring⟩

theorem intStr_nat (i : ℕ) : intStr (i : ℤ) = natStr i := by
  unfold intStr
  rw [if_neg (by omega), Int.natAbs_natCast]

theorem natStr_length_one (i : ℕ) : (natStr i).length = 1 ↔ i < 10 := by
  unfold natStr
  split_ifs with h
  · simp [h]
  · rw [List.length_reverse, List.length_map, Nat.length_digits 10 i (by norm_num) h]
    simp [Nat.log_eq_zero_iff]

end Cyjax.Polynomial
