import Mathlib.Order.Defs.LinearOrder

/-! # Model of `_union_indices` -/

namespace Cyjax.Polynomial

/-- `next(it) if cur is None else cur` (`cyjax/polynomial.py:110-111`): the value and the remaining
iterator, `none` for `StopIteration`. -/
def fetch {α : Type*} (cur : Option α) (it : List α) : Option (α × List α) :=
  match cur with
  | some a => some (a, it)
  | none => match it with
    | [] => none
    | a :: it' => some (a, it')

/-- `if add not in added: ind.append(add); added.add(add)` (`cyjax/polynomial.py:115-117`).
The set `added` always holds exactly the entries of `ind`, so membership is tested on `ind`. Generic in the index type (integers in the code). -/
def addIfNew {α : Type*} [DecidableEq α] (ind : List α) (a : α) : List α := if a ∈ ind then ind else ind ++ [a]

/-- `nl`, `nr`, the two iterators and `ind`. Generic in the index type (integers in the code). -/
structure UnionState (α : Type*) where
  nl : Option α
  nr : Option α
  left : List α
  right : List α
  ind : List α

theorem fetch_length {α : Type*} {cur : Option α} {it : List α} {a : α} {it' : List α}
    (h : fetch cur it = some (a, it')) : cur.toList.length + it.length = 1 + it'.length := by
  unfold fetch at h
  cases cur with
  | some b => simp only [Option.some.injEq, Prod.mk.injEq] at h; obtain ⟨_, rfl⟩ := h; simp
  | none =>
    cases it with
    | nil => simp at h
    | cons b it => simp only [Option.some.injEq, Prod.mk.injEq] at h; obtain ⟨_, rfl⟩ := h; simp [Nat.add_comm]

/-- The `while True` loop, `cyjax/polynomial.py:108-117`. -/
def unionLoop {α : Type*} [LinearOrder α] (s : UnionState α) : UnionState α :=
  match _hl : fetch s.nl s.left with
  | none => s
  | some (a, left') =>
    match _hr : fetch s.nr s.right with
    | none => { s with nl := some a, left := left' }
    | some (b, right') =>
      if a < b then
        unionLoop ⟨none, some b, left', right', addIfNew s.ind a⟩
      else
        unionLoop ⟨some a, none, left', right', addIfNew s.ind b⟩
termination_by s.nl.toList.length + s.left.length + (s.nr.toList.length + s.right.length)
decreasing_by
  all_goals
    have h1 := fetch_length _hl
    have h2 := fetch_length _hr
    simp only [Option.toList_none, Option.toList_some, List.length_nil, List.length_cons]
    omega

/-- `_union_indices`, `cyjax/polynomial.py:102-126`. -/
def unionIndices {α : Type*} [LinearOrder α] (left right : List α) : List α :=
  let s := unionLoop ⟨none, none, left, right, []⟩
  let ind := match s.nl with | some a => addIfNew s.ind a | none => s.ind
  let ind := match s.nr with | some b => addIfNew ind b | none => ind
  -- `added` is not updated any more from here on
  ind ++ s.left.filter (fun i => i ∉ ind) ++ s.right.filter (fun i => i ∉ ind)

end Cyjax.Polynomial
