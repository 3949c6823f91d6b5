import Mathlib.Data.Nat.Digits.Defs
import Mathlib.Data.Int.Basic

/-! # Model of symbol names: `split_subscript`, `merge_subscript`

Symbol names are lists of characters. -/

namespace Cyjax.Polynomial

/-- A sympy symbol, identified by its name. -/
abbrev Sym := List Char

/-- Python exceptions raised by the modelled code. -/
inductive PyErr where
  | runtimeError | valueError | keyError | typeError | assertionError | indexError
  | polynomialError
  | attributeError | zeroDivisionError
  deriving DecidableEq, Repr

/-- Letters: the character class `[^\W\d_]`. Simplification: ASCII letters only. -/
def isLetter (c : Char) : Bool := c.isAlpha

/-- Separators `^` and `_` of sub- and superscripts. -/
def isSep (c : Char) : Bool := c == '^' || c == '_'

theorem length_dropWhile_le {α : Type*} (p : α → Bool) (l : List α) :
    (l.dropWhile p).length ≤ l.length := (List.dropWhile_suffix p).length_le

/-- The `while pos < len(text)` loop of `sympy.printing.conventions.split_super_sub` (library code used
by `cyjax/polynomial.py:72`): cut the text before every separator; the first character of a part (two
characters for `__`) is never treated as the start of the next part. -/
def splitParts : List Char → List (List Char)
  | [] => []
  | c :: cs =>
    if c = '_' ∧ cs.head? = some '_' then
      (c :: '_' :: cs.tail.takeWhile (fun x => !isSep x)) ::
        splitParts (cs.tail.dropWhile (fun x => !isSep x))
    else
      (c :: cs.takeWhile (fun x => !isSep x)) :: splitParts (cs.dropWhile (fun x => !isSep x))
termination_by l => l.length
decreasing_by
  · have h := length_dropWhile_le (fun x => !isSep x) cs.tail
    have h2 : cs.tail.length ≤ cs.length := by simp
    simp only [List.length_cons]; omega
  · have h := length_dropWhile_le (fun x => !isSep x) cs
    simp only [List.length_cons]; omega

/-- Sorting of the parts after the name into superscripts and subscripts in `split_super_sub`. -/
def classifyParts : List (List Char) → List (List Char) × List (List Char)
  | [] => ([], [])
  | part :: rest =>
    let (sup, sub) := classifyParts rest
    match part with
    | '^' :: p => (p :: sup, sub)
    | '_' :: '_' :: p => (p :: sup, sub)
    | '_' :: p => (sup, p :: sub)
    | _ => (sup, sub)

/-- The regular expression `^([^\W\d_]+)(\d+)$` of `split_super_sub`: letters followed by digits,
both non-empty. -/
def matchNameDigits (name : List Char) : Option (List Char × List Char) :=
  let letters := name.takeWhile isLetter
  let rest := name.dropWhile isLetter
  if letters ≠ [] ∧ rest ≠ [] ∧ rest.all Char.isDigit then some (letters, rest) else none

/-- `sympy.printing.conventions.split_super_sub`: name, superscripts, subscripts. -/
def splitSuperSub (text : Sym) : List Char × List (List Char) × List (List Char) :=
  match splitParts text with
  | [] => (text, [], [])
  | name :: parts =>
    let (sup, sub) := classifyParts parts
    match matchNameDigits name with
    | some (n, s) => (n, sup, s :: sub)
    | none => (name, sup, sub)

/-- Value of a string of decimal digits, `none` if it is empty or has another character. -/
def parseDigits (s : List Char) : Option ℕ :=
  if s ≠ [] ∧ s.all Char.isDigit then
    some (s.foldl (fun acc c => 10 * acc + (c.toNat - '0'.toNat)) 0)
  else none

/-- Python `int(s)` on a subscript: optional sign and decimal digits. Simplification: white space
and `_` inside the literal (which `int` would accept) are errors here. -/
def parseInt : List Char → Option ℤ
  | '-' :: s => (parseDigits s).map fun n => -(n : ℤ)
  | '+' :: s => (parseDigits s).map fun n => (n : ℤ)
  | s => (parseDigits s).map fun n => (n : ℤ)

/-- `s.strip(c)`. -/
def stripChar (c : Char) (s : List Char) : List Char :=
  ((s.dropWhile (· == c)).reverse.dropWhile (· == c)).reverse

/-- `split_subscript`, `cyjax/polynomial.py:62-90`. The superscript warning (lines 74-76) has no effect
on the result and is not modelled. -/
def splitSubscript (var : Sym) : Except PyErr (List Char × Option ℤ) :=
  let (name, _, sub) := splitSuperSub var
  match sub with
  | [] => .ok (name, none)
  | [s] =>
    match parseInt (stripChar '}' (stripChar '{' s)) with
    | some i => .ok (name, some i)
    | none => .error .valueError
  | _ => .error .runtimeError

/-- Decimal representation of a natural number, as in an f-string. -/
def natStr (i : ℕ) : List Char :=
  if i = 0 then ['0'] else ((Nat.digits 10 i).map Nat.digitChar).reverse

/-- `merge_subscript`, `cyjax/polynomial.py:93-99`, for a non-negative subscript. -/
def mergeSubscript (name : List Char) (sub : ℕ) : Sym := name ++ natStr sub

end Cyjax.Polynomial
