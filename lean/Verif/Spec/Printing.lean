import Verif.Model.Printing

/-! # Specification of printed polynomials and varieties -/

namespace Cyjax.Polynomial

/-- A non-empty word without spaces, brackets, commas and equality signs. -/
def PlainWord (s : List Char) : Prop := s ≠ [] ∧ ∀ c ∈ s, c ∉ [' ', ',', '[', ']', '(', ')', '=']

instance (s : List Char) : Decidable (PlainWord s) := by unfold PlainWord; infer_instance

/-- All names are plain words, and every array has at least one entry. -/
structure Meta.Printable (m : Meta) : Prop where
  names : ∀ v ∈ m.vars, PlainWord v.1
  entries : ∀ v ∈ m.vars, v.2 ≠ some []
  params : ∀ s ∈ m.params, PlainWord s

/-- Inline TeX formula: between two dollar signs, with no other dollar sign. -/
def InlineMath (s : List Char) : Prop := ∃ b, '$' ∉ b ∧ s = '$' :: (b ++ ['$'])

/-- What TeX sets as the first superscript: the group in braces or the single character after the first `^`. -/
def superscript (s : List Char) : Option (List Char) :=
  match s.dropWhile (· ≠ '^') with
  | _ :: '{' :: r => some (r.takeWhile (· ≠ '}'))
  | _ :: c :: _ => some [c]
  | _ => none

end Cyjax.Polynomial
