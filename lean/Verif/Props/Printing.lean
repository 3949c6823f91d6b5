import Verif.Lemmas.Printing

/-! # C157: printed polynomials and varieties -/

namespace Cyjax

open Cyjax.Polynomial Cyjax.Variety

/-- **C157.** The string returned by `repr` determines the class, the variables with their names and indices, the parameters and
the printed expression. Missing: arrays without entries, whose name is not printed. -/
theorem C157_repr_partial (str : Expr → List Char) {t t' : List Char} (ht : PlainWord t) (ht' : PlainWord t') {P P' : PolyObj}
    (hP : P.md.Printable) (hP' : P'.md.Printable) (h : reprPoly str t P = reprPoly str t' P') :
    t = t' ∧ P.md = P'.md ∧ str P.callEmpty = str P'.callEmpty := by
  unfold reprPoly at h
  rw [List.append_assoc, List.append_assoc] at h
  obtain ⟨e1, e2, e3⟩ := reprHead_inj ht ht' hP hP' h
  exact ⟨e1, e2, by simpa [PolyObj.callEmpty] using e3⟩

/-- **C157** The names `x` and `y` of arrays without entries are not printed: the two polynomials are printed alike. -/
theorem C157_empty_violated (str : Expr → List Char) (t : List Char) : ∃ P P' : PolyObj, P.md.names ≠ P'.md.names ∧
    reprPoly str t P = reprPoly str t P' :=
  ⟨⟨⟨[("x".toList, some [])], []⟩, 0, []⟩, ⟨⟨[("y".toList, some [])], []⟩, 0, []⟩, by decide, rfl⟩

/-- **C157.** The indexed symbols in the printed list of arguments are read by `split_subscript` as name and index. -/
theorem C157_symbols (n : List Char) (hn : GoodName n) (ind : List ℕ) :
    ∃ ws : List Sym, reprVar (n, some ind) = '[' :: (strJoin ", ".toList ws ++ [']']) ∧
      ws.map splitSubscript = ind.map fun i => .ok (n, some (i : ℤ)) := by
  refine ⟨ind.map fun i => n ++ '_' :: natStr i, by simp [reprVar], ?_⟩
  rw [List.map_map]
  exact List.map_congr_left fun i _ => splitSubscript_underscore n hn i

/-- **C157.** The TeX strings of polynomials and varieties are single inline formulas: dollar signs at both ends and no others. -/
theorem C157_math (tex : Expr → List Char) (htex : ∀ e, '$' ∉ tex e) {t : List Char} (ht : '$' ∉ t) (m : Meta) (e : Expr) :
    InlineMath (reprLatex tex t m e) ∧ ∀ (t' s : List Char) (V : HomKind), '$' ∉ t' →
      reprLatexVariety t' (reprLatex tex t m e) V = .ok s → InlineMath s := by
  refine ⟨inlineMath_reprLatex tex htex ht m e, fun t' s V ht' hs => ?_⟩
  obtain ⟨b, hb, hl⟩ := inlineMath_reprLatex tex htex ht m e
  rw [hl] at hs
  unfold reprLatexVariety at hs
  cases h1 : dimVariety V with
  | error x => rw [h1] at hs; cases hs
  | ok dim =>
    cases h2 : dimProjective V with
    | error x => rw [h1, h2] at hs; cases hs
    | ok proj =>
      rw [h1, h2] at hs
      have hs' := Except.ok.inj hs
      refine ⟨"\\operatorname".toList ++ ("{".toList ++ t' ++ "}".toList) ++ "(dim=".toList ++ intStr dim ++ ") ".toList ++
        "\\subset \\mathbb{CP}^".toList ++ intStr proj ++ ": ".toList ++ b, ?_, ?_⟩
      · simp only [List.mem_append, not_or]
        exact ⟨⟨⟨⟨⟨⟨⟨⟨by decide, ⟨by decide, ht'⟩, by decide⟩, by decide⟩, digit_not_mem (by decide) (by decide) _⟩,
          by decide⟩, by decide⟩, digit_not_mem (by decide) (by decide) _⟩, by decide⟩, hb⟩
      · rw [← hs']; simp

/-- **C157.** For a variety of dimension `m` in projective space of dimension `m + 1`, the printed string names both. -/
theorem C157_variety (t p : List Char) (V : HomKind) (m : ℕ) (hm : dimComplex V = .ok (m + 2)) :
    reprVariety t p V = .ok (t ++ "(dim=".toList ++ natStr m ++ ") in CP^".toList ++ natStr (m + 1) ++ ": ".toList ++ p) := by
  obtain ⟨h1, h2⟩ := dims_of_complex hm
  unfold reprVariety
  rw [h1, h2]
  simp only [bind, Except.bind, pure, Except.pure, intStr_nat]
  simp

/-- **C157** The superscript that TeX sets in `_repr_latex_` of a variety is the dimension of the projective space exactly if it
has one digit: the number is not put in braces. -/
theorem C157_superscript_violated (t l : List Char) (ht : '^' ∉ t) (V : HomKind) (m : ℕ) (hm : dimComplex V = .ok (m + 2)) :
    ∃ s, reprLatexVariety t l V = .ok s ∧ (superscript s = some (natStr (m + 1)) ↔ m + 1 < 10) := by
  obtain ⟨h1, h2⟩ := dims_of_complex hm
  unfold reprLatexVariety
  rw [h1, h2]
  simp only [bind, Except.bind, pure, Except.pure, intStr_nat]
  refine ⟨_, rfl, ?_⟩
  obtain ⟨c, w, hc⟩ := List.exists_cons_of_ne_nil (natStr_ne_nil (m + 1))
  have hdc : c.isDigit = true := natStr_digits (m + 1) c (by rw [hc]; exact List.mem_cons_self)
  have hpre : ∀ x ∈ "$\\operatorname".toList ++ ("{".toList ++ t ++ "}".toList) ++ "(dim=".toList ++ natStr m ++ ") ".toList ++
      "\\subset \\mathbb{CP}".toList, x ≠ '^' := by
    intro x hx
    simp only [List.mem_append] at hx
    rcases hx with ((((hx | (hx | hx) | hx) | hx) | hx) | hx) | hx
    · revert x; decide
    · revert x; decide
    · rintro rfl; exact ht hx
    · revert x; decide
    · revert x; decide
    · exact digit_ne (natStr_digits _ _ hx) (by decide)
    · revert x; decide
    · revert x; decide
  have hs : superscript ("$\\operatorname".toList ++ ("{".toList ++ t ++ "}".toList) ++ "(dim=".toList ++ natStr m ++
      ") ".toList ++ "\\subset \\mathbb{CP}^".toList ++ natStr (m + 1) ++ ": ".toList ++ l.drop 1) = some [c] := by
    have hsplit : "$\\operatorname".toList ++ ("{".toList ++ t ++ "}".toList) ++ "(dim=".toList ++ natStr m ++
        ") ".toList ++ "\\subset \\mathbb{CP}^".toList ++ natStr (m + 1) ++ ": ".toList ++ l.drop 1 =
        ("$\\operatorname".toList ++ ("{".toList ++ t ++ "}".toList) ++ "(dim=".toList ++ natStr m ++ ") ".toList ++
          "\\subset \\mathbb{CP}".toList) ++ '^' :: c :: (w ++ ": ".toList ++ l.drop 1) := by
      rw [hc]; simp
    unfold superscript
    rw [hsplit, List.dropWhile_append_of_pos (by simpa using hpre), List.dropWhile_cons_of_neg (by simp)]
    have : c ≠ '{' := digit_ne hdc (by decide)
    split
    · rename_i heq; simp only [List.cons.injEq] at heq; exact absurd heq.2.1 this
    · rename_i heq; simp only [List.cons.injEq] at heq; rw [heq.2.1]
    · rename_i h3 h4; exact absurd rfl (h4 _ _ _)
  rw [hs, ← natStr_length_one, hc]
  simp

/-- A quintic and a member of a family of dimension nine. -/
example (tex : Expr → List Char) :
    (∃ s, reprLatexVariety "Dwork".toList (reprLatex tex "DworkPoly".toList (dworkMeta 5) .other) (.dwork 5 (.flag true)) = .ok s ∧
      superscript s = some "4".toList) ∧
    ∃ s, reprLatexVariety "Dwork".toList (reprLatex tex "DworkPoly".toList (dworkMeta 11) .other) (.dwork 11 (.flag true)) = .ok s ∧
      superscript s ≠ some (natStr 10) := by
  obtain ⟨s, hs, h⟩ := C157_superscript_violated "Dwork".toList (reprLatex tex "DworkPoly".toList (dworkMeta 5) .other)
    (by decide) (.dwork 5 (.flag true)) 3 rfl
  obtain ⟨s', hs', h'⟩ := C157_superscript_violated "Dwork".toList (reprLatex tex "DworkPoly".toList (dworkMeta 11) .other)
    (by decide) (.dwork 11 (.flag true)) 9 rfl
  exact ⟨⟨s, hs, h.2 (by norm_num)⟩, s', hs', fun he => absurd (h'.1 he) (by norm_num)⟩

/-- The variables and parameters of the Dwork family can be printed. -/
example : (dworkMeta 5).Printable := ⟨by decide, by decide, by decide⟩

end Cyjax
