import Verif.Model.PolyBookkeeping
import Verif.Spec.Poly
import Verif.Lemmas.Poly
import Verif.Lemmas.FromSympy

/-! # Dictionaries of positions (C118), calling without arguments (C119), `any_symbolic` (C120) -/

namespace Cyjax

open Cyjax.Polynomial MvPolynomial

/-! ## C118 -/

private theorem dictGet_zipIdx {κ : Type*} [DecidableEq κ] {l : List κ} (h : l.Nodup) (k : κ) (i : ℕ) :
    dictGet l.zipIdx k = some i ↔ l[i]? = some k := by
  constructor
  · intro h1
    obtain ⟨hi, rfl⟩ := dictIndex_lt (l := l) h1
    simp [hi]
  · intro h1
    obtain ⟨hi, rfl⟩ := List.getElem?_eq_some_iff.1 h1
    obtain ⟨j, hj⟩ := dictIndex_isSome (List.getElem_mem hi)
    obtain ⟨hl, e⟩ := dictIndex_lt hj
    change dictIndex l l[i] = some i
    rw [hj, (List.Nodup.getElem_inj_iff h).1 e]

/-- **C118.** `parameter_position[p] = i` exactly if `p` is parameter number `i`. -/
theorem C118_parameter_position (m : Meta) (hm : m.params.Nodup) (p : Sym) (i : ℕ) :
    dictGet (parameterPosition m) p = some i ↔ m.params[i]? = some p := dictGet_zipIdx hm p i

/-- **C118.** `variable_position[name] = i` exactly if `name` is variable number `i`. -/
theorem C118_variable_position (m : Meta) (hm : m.names.Nodup) (name : List Char) (i : ℕ) :
    dictGet (variablePosition m) name = some i ↔ m.names[i]? = some name := dictGet_zipIdx hm name i

/-- **C118.** What `variable_index_dict` contains: `None` for a scalar variable; for an array variable, the position of every
symbolic index (the inverse of the documented map). -/
theorem C118_index_dict_partial (m : Meta) (hm : m.names.Nodup) (v : List Char × Option (List ℕ)) (hv : v ∈ m.vars) :
    (v.2 = none → dictGet (variableIndexDict m) v.1 = some none) ∧
    ∀ inds, v.2 = some inds → inds.Nodup → ∃ d, dictGet (variableIndexDict m) v.1 = some (some d) ∧
      ∀ s i, dictGet d s = some i ↔ inds[i]? = some s := by
  have key : dictGet (variableIndexDict m) v.1 = some (v.2.map List.zipIdx) := by
    unfold dictGet
    have hmem : (v.1, v.2.map List.zipIdx) ∈ (variableIndexDict m).reverse :=
      List.mem_reverse.2 (List.mem_map.2 ⟨v, hv, rfl⟩)
    obtain ⟨x, hx⟩ := Option.isSome_iff_exists.1 (List.find?_isSome (p := fun p : List Char × Option (List (ℕ × ℕ)) =>
      p.1 = v.1) |>.2 ⟨_, hmem, by simp⟩)
    rw [hx]
    have h1 := List.mem_reverse.1 (List.mem_of_find?_eq_some hx)
    have h2 : x.1 = v.1 := by simpa using List.find?_some hx
    obtain ⟨w, hw, rfl⟩ := List.mem_map.1 h1
    have : w = v := List.inj_on_of_nodup_map hm hw hv h2
    subst this
    rfl
  refine ⟨fun h => by rw [key, h]; rfl, fun inds h hnd => ⟨inds.zipIdx, by rw [key, h]; rfl, fun s i => dictGet_zipIdx hnd s i⟩⟩

/-- The affine coordinates `[z0, z2, z3]` of the documentation. -/
def docMeta : Meta := ⟨[("z".toList, some [0, 2, 3])], ["psi".toList, "phi".toList]⟩

/-- **C118.** The documented content for `[z0, z2, z3]` is `{'z': {0: 0, 1: 2, 2: 3}}`; the code has no entry for `1`, and
`1` instead of `3` for `2`. -/
theorem C118_documented_violated : ∃ d, dictGet (variableIndexDict docMeta) "z".toList = some (some d) ∧
    dictGet d 1 = none ∧ dictGet d 2 = some 1 ∧ dictGet d 3 = some 2 :=
  ⟨[(0, 0), (2, 1), (3, 2)], by decide, by decide, by decide, by decide⟩

example : docMeta.params.Nodup ∧ docMeta.names.Nodup ∧ ("z".toList, some [0, 2, 3]) ∈ docMeta.vars ∧ [0, 2, 3].Nodup := by
  decide

/-! ## C119 -/

mutual
/-- No float of the expression is equal to an integer. -/
def Spec.NoFloatInts : Expr → Prop
  | .float r => ∀ n : ℤ, r ≠ n
  | .add args => Spec.NoFloatIntsList args
  | .mul args => Spec.NoFloatIntsList args
  | .pow b _ => Spec.NoFloatInts b
  | _ => True

/-- No float of the expressions is equal to an integer. -/
def Spec.NoFloatIntsList : List Expr → Prop
  | [] => True
  | e :: es => Spec.NoFloatInts e ∧ Spec.NoFloatIntsList es
end

mutual
private theorem replace_value (ρ : Sym → ℂ) : ∀ e : Expr, (replaceFloatInts e).value ρ = e.value ρ
  | .sym s => by simp [replaceFloatInts]
  | .int n => by simp [replaceFloatInts]
  | .float r => by
    unfold replaceFloatInts
    split_ifs with h
    · rw [Expr.value, Expr.value]
      conv_rhs => rw [h]
      simp
    · rfl
  | .imagUnit => by simp [replaceFloatInts]
  | .add args => by simp only [replaceFloatInts, Expr.value, replaceList_value ρ args]
  | .mul args => by simp only [replaceFloatInts, Expr.value, replaceList_value ρ args]
  | .pow b n => by simp only [replaceFloatInts, Expr.value, replace_value ρ b]
  | .other => by simp [replaceFloatInts]

private theorem replaceList_value (ρ : Sym → ℂ) : ∀ es : List Expr,
    Expr.values ρ (replaceFloatIntsList es) = Expr.values ρ es
  | [] => by simp [replaceFloatIntsList]
  | e :: es => by simp only [replaceFloatIntsList, Expr.values, replace_value ρ e, replaceList_value ρ es]
end

mutual
private theorem replace_none : ∀ e : Expr, Spec.NoFloatInts (replaceFloatInts e)
  | .sym s => by simp [replaceFloatInts, Spec.NoFloatInts]
  | .int n => by simp [replaceFloatInts, Spec.NoFloatInts]
  | .float r => by
    unfold replaceFloatInts
    split_ifs with h
    · simp [Spec.NoFloatInts]
    · rw [Spec.NoFloatInts]
      rintro n rfl
      simp at h
  | .imagUnit => by simp [replaceFloatInts, Spec.NoFloatInts]
  | .add args => by simp only [replaceFloatInts, Spec.NoFloatInts, replaceList_none args]
  | .mul args => by simp only [replaceFloatInts, Spec.NoFloatInts, replaceList_none args]
  | .pow b n => by simp only [replaceFloatInts, Spec.NoFloatInts, replace_none b]
  | .other => by simp [replaceFloatInts, Spec.NoFloatInts]

private theorem replaceList_none : ∀ es : List Expr, Spec.NoFloatIntsList (replaceFloatIntsList es)
  | [] => by simp [replaceFloatIntsList, Spec.NoFloatIntsList]
  | e :: es => by simp only [replaceFloatIntsList, Spec.NoFloatIntsList, replace_none e, replaceList_none es, and_self]
end

mutual
private theorem replace_symbols : ∀ e : Expr, (replaceFloatInts e).symbols = e.symbols
  | .sym s => by simp [replaceFloatInts]
  | .int n => by simp [replaceFloatInts]
  | .float r => by
    unfold replaceFloatInts
    split_ifs <;> simp [Expr.symbols]
  | .imagUnit => by simp [replaceFloatInts]
  | .add args => by simp only [replaceFloatInts, Expr.symbols, replaceList_symbols args]
  | .mul args => by simp only [replaceFloatInts, Expr.symbols, replaceList_symbols args]
  | .pow b n => by simp only [replaceFloatInts, Expr.symbols, replace_symbols b]
  | .other => by simp [replaceFloatInts]

private theorem replaceList_symbols : ∀ es : List Expr,
    Expr.symbolsList (replaceFloatIntsList es) = Expr.symbolsList es
  | [] => by simp [replaceFloatIntsList]
  | e :: es => by simp only [replaceFloatIntsList, Expr.symbolsList, replace_symbols e, replaceList_symbols es]
end

/-- **C119.** Calling a polynomial without arguments returns an expression of the same polynomial, in its own symbols, in which
no coefficient equal to an integer is written as a float. -/
theorem C119_call_empty (P : PolyObj) : (∀ ρ, P.callEmpty.value ρ = eval ρ P.poly) ∧
    (∀ s ∈ P.callEmpty.symbols, s ∈ P.poly.vars) ∧ Spec.NoFloatInts P.callEmpty := by
  refine ⟨fun ρ => ?_, fun s hs => ?_, replace_none _⟩
  · rw [PolyObj.callEmpty, replace_value, polyExpr_value]
  · rw [PolyObj.callEmpty, replace_symbols] at hs
    exact polyExpr_symbols _ _ hs

/-- **C119.** The replacement keeps the value and the symbols of every expression. -/
theorem C119_replace (e : Expr) : (∀ ρ, (replaceFloatInts e).value ρ = e.value ρ) ∧
    (replaceFloatInts e).symbols = e.symbols ∧ Spec.NoFloatInts (replaceFloatInts e) :=
  ⟨fun ρ => replace_value ρ e, replace_symbols e, replace_none e⟩

example : replaceFloatInts (.add [.mul [.float 2, .sym "x".toList], .float (1 / 2)]) =
    .add [.mul [.int 2, .sym "x".toList], .float (1 / 2)] := by
  simp only [replaceFloatInts, replaceFloatIntsList]
  norm_num

/-! ## C120 -/

/-- **C120.** A single argument that is an expression, a string or an array of objects or strings is enough to be symbolic, and
nothing but these: numbers, numerical arrays and `None` are not. -/
theorem C120_any_symbolic_partial (args : List PyArg) (hl : ∀ v ∈ args, ∀ l, v ≠ .list l) :
    anySymbolic args = true ↔ ∃ v ∈ args, (∃ e, v = .expr e) ∨ (∃ s, v = .str s) ∨ v = .array 'O' ∨ v = .array 'U' ∨
      v = .array 'S' := by
  unfold anySymbolic
  rw [List.any_eq_true]
  refine exists_congr fun v => and_congr_right fun hv => ?_
  cases v with
  | array k => simp; tauto
  | list l => exact absurd rfl (hl _ hv l)
  | _ => simp

/-- **C120.** Python lists are taken as numerical, whatever they contain. -/
theorem C120_list_violated (args : List PyArg) (hl : ∀ v ∈ args, ∃ l, v = .list l) : anySymbolic args = false := by
  unfold anySymbolic
  rw [List.any_eq_false]
  intro v hv
  obtain ⟨l, rfl⟩ := hl v hv
  simp

example : anySymbolic [.array 'f', .none, .array 'O'] = true := by decide

example : anySymbolic [.list [.expr (.sym "x".toList)]] = false :=
  C120_list_violated _ (by simp)

end Cyjax
