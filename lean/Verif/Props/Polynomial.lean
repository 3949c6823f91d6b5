import Verif.Lemmas.Poly
import Verif.Lemmas.UnionIndices
import Mathlib.Tactic.NormNum

/-! # Properties C36–C42: symbols, argument binding and evaluation of polynomials -/

namespace Cyjax

open Cyjax.Polynomial MvPolynomial

/-! ## C36: subscripts -/

/-- C36: splitting a merged symbol gives back name and index. -/
theorem C36_split_merge (name : List Char) (h : GoodName name) (i : ℕ) :
    splitSubscript (mergeSubscript name i) = .ok (name, some (i : ℤ)) :=
  splitSubscript_merge name h i

example : GoodName "psi".toList := by decide
example : splitSubscript "z12".toList = .ok ("z".toList, some 12) :=
  C36_split_merge "z".toList (by decide) 12

/-- C36: `name_i` is read like `namei`. -/
theorem C36_split_underscore (name : List Char) (h : GoodName name) (i : ℕ) :
    splitSubscript (name ++ '_' :: natStr i) = splitSubscript (mergeSubscript name i) := by
  rw [splitSubscript_underscore name h i, splitSubscript_merge name h i]

/-- C36: a name without digits has no subscript. -/
theorem C36_split_plain (name : List Char) (h : GoodName name) :
    splitSubscript name = .ok (name, none) := splitSubscript_good name h

/-- C36: different names or indices give different symbols. -/
theorem C36_merge_injective (n n' : List Char) (hn : GoodName n) (hn' : GoodName n') (i i' : ℕ)
    (h : mergeSubscript n i = mergeSubscript n' i') : n = n' ∧ i = i' :=
  merge_inj n n' hn hn' i i' h

/-! ## C37: union of index lists -/

/-- C37: the merged list has exactly the indices of both lists. -/
theorem C37_union_mem {α : Type*} [LinearOrder α] (l r : List α) (x : α) :
    x ∈ unionIndices l r ↔ x ∈ l ∨ x ∈ r := mem_unionIndices l r x

/-- C37: without duplicates if the inputs have none. -/
theorem C37_union_nodup {α : Type*} [LinearOrder α] (l r : List α) (hl : l.Nodup) (hr : r.Nodup) :
    (unionIndices l r).Nodup := nodup_unionIndices l r hl hr

/-- C37: sorted if the inputs are. -/
theorem C37_union_sorted {α : Type*} [LinearOrder α] (l r : List α) (hl : l.Pairwise (· ≤ ·))
    (hr : r.Pairwise (· ≤ ·)) : (unionIndices l r).Pairwise (· ≤ ·) := sorted_unionIndices l r hl hr

example : unionIndices [0, 2, 5] [1, 2, 7] = ([0, 1, 2, 5, 7] : List ℤ) := by
  have h1 := C37_union_sorted ([0, 2, 5] : List ℤ) [1, 2, 7] (by decide) (by decide)
  have h2 := C37_union_nodup ([0, 2, 5] : List ℤ) [1, 2, 7] (by decide) (by decide)
  refine List.Perm.eq_of_pairwise (fun a b _ _ => le_antisymm) h1 (by decide) ?_
  rw [List.perm_ext_iff_of_nodup h2 (by decide)]
  intro a
  rw [C37_union_mem]
  simp only [List.mem_cons, List.not_mem_nil]
  tauto

/-! ## C38: argument binding -/

/-- C38: with `params` given by keyword, the first `k` variables positionally and the others by keyword
(for any `k`), the values are bound in the order of the names. What is missing for the full
property: too many positional arguments raise, see `C38_extra_positional_violated`. -/
theorem C38_binding_keyword_partial {α : Type*} (len : α → Option ℕ) (names : List (List Char)) (nParams : ℕ)
    (hnames : paramsKey ∉ names) (vals : List α) (hv : vals.length = names.length) (p : α)
    (hp : len p = some nParams) (k : ℕ) (hk : k ≤ names.length) (kwargs : List (List Char × α))
    (hparams : dictGet kwargs paramsKey = some p)
    (hkw : ∀ i (h : i < names.length), k ≤ i → dictGet kwargs names[i] = some (vals[i]'(hv ▸ h))) :
    sortVarArgs len names nParams (vals.take k) kwargs = .ok (vals, some p) := by
  unfold sortVarArgs
  rw [hparams]
  have h1 : (vals.take k).take names.length = vals.take k := by
    rw [List.take_take, Nat.min_eq_right hk]
  have h2 : (vals.take k).length = k := by rw [List.length_take, hv, Nat.min_eq_left hk]
  simp only [h1, h2]
  rw [kwVariables_ok _ (names.drop k) (vals.drop k)]
  · simp only [hp, if_true, List.take_append_drop]
  · rw [List.forall₂_iff_get]
    refine ⟨by simp [hv], ?_⟩
    intro i h h'
    rw [List.length_drop] at h
    have hi : k + i < names.length := by omega
    simp only [List.get_eq_getElem, List.getElem_drop]
    rw [dictGet_filter _ paramsKey names[k + i] (fun e => hnames (e ▸ List.getElem_mem hi))]
    exact hkw (k + i) hi (by omega)

/-- C38: the same without `params`. -/
theorem C38_binding_no_params_partial {α : Type*} (len : α → Option ℕ) (names : List (List Char)) (nParams : ℕ)
    (vals : List α) (hv : vals.length = names.length) (k : ℕ) (hk : k ≤ names.length)
    (kwargs : List (List Char × α)) (hparams : dictGet kwargs paramsKey = none)
    (hkw : ∀ i (h : i < names.length), k ≤ i → dictGet kwargs names[i] = some (vals[i]'(hv ▸ h))) :
    sortVarArgs len names nParams (vals.take k) kwargs = .ok (vals, none) := by
  unfold sortVarArgs
  rw [hparams]
  have h1 : (vals.take k).take names.length = vals.take k := by
    rw [List.take_take, Nat.min_eq_right hk]
  have h2 : (vals.take k).length = k := by rw [List.length_take, hv, Nat.min_eq_left hk]
  have h3 : ¬ k = names.length + 1 := by omega
  have h4 : ¬ k > names.length + 1 := by omega
  simp only [h2, if_neg h3, if_neg h4, h1]
  rw [kwVariables_ok _ (names.drop k) (vals.drop k)]
  · simp only [List.take_append_drop]
  · rw [List.forall₂_iff_get]
    refine ⟨by simp [hv], ?_⟩
    intro i h h'
    rw [List.length_drop] at h
    have hi : k + i < names.length := by omega
    simp only [List.get_eq_getElem, List.getElem_drop]
    exact hkw (k + i) hi (by omega)

/-- C38: all variables and `params` given positionally. -/
theorem C38_binding_positional {α : Type*} (len : α → Option ℕ) (names : List (List Char)) (nParams : ℕ)
    (vals : List α) (hv : vals.length = names.length) (p : α) (hp : len p = some nParams)
    (kwargs : List (List Char × α)) (hk : dictGet kwargs paramsKey = none) :
    sortVarArgs len names nParams (vals ++ [p]) kwargs = .ok (vals, some p) :=
  sortVarArgs_positional len names nParams vals p hv hp kwargs hk

/-- C38: more positional arguments than variables and `params` raise (when `params` is not also given
by keyword). -/
theorem C38_too_many {α : Type*} (len : α → Option ℕ) (names : List (List Char)) (nParams : ℕ)
    (args : List α) (ha : names.length + 1 < args.length) (kwargs : List (List Char × α))
    (hk : dictGet kwargs paramsKey = none) :
    sortVarArgs len names nParams args kwargs = .error .runtimeError := by
  unfold sortVarArgs
  rw [hk]
  simp only [if_neg (show ¬ args.length = names.length + 1 by omega),
    if_pos (show args.length > names.length + 1 by omega)]

/-- C38: a variable that is given neither positionally nor by keyword raises. -/
theorem C38_missing {α : Type*} (len : α → Option ℕ) (names : List (List Char)) (nParams : ℕ)
    (hnames : paramsKey ∉ names) (args : List α) (kwargs : List (List Char × α)) (i : ℕ)
    (hi : i < names.length) (ha : args.length ≤ i) (hm : dictGet kwargs names[i] = none) :
    sortVarArgs len names nParams args kwargs = .error .keyError := by
  have hmem : names[i] ∈ names.drop args.length := by
    rw [List.mem_iff_getElem]
    refine ⟨i - args.length, by rw [List.length_drop]; omega, ?_⟩
    rw [List.getElem_drop]
    congr 1
    omega
  have h1 : args.take names.length = args := List.take_of_length_le (by omega)
  unfold sortVarArgs
  cases hp : dictGet kwargs paramsKey with
  | some p =>
    simp only [h1]
    rw [kwVariables_missing _ _ names[i] hmem]
    rw [dictGet_filter _ paramsKey names[i] (fun e => hnames (e ▸ List.getElem_mem hi))]
    exact hm
  | none =>
    simp only [if_neg (show ¬ args.length = names.length + 1 by omega),
      if_neg (show ¬ args.length > names.length + 1 by omega), h1]
    rw [kwVariables_missing _ _ names[i] hmem hm]

/-- C38: a `params` array of the wrong length, or an object without length, raises, whichever way it is passed. -/
theorem C38_params_length {α : Type*} (len : α → Option ℕ) (names : List (List Char)) (nParams : ℕ)
    (vals : List α) (hv : vals.length = names.length) (p : α) (hp : len p ≠ some nParams)
    (kwargs : List (List Char × α)) :
    (dictGet kwargs paramsKey = none → sortVarArgs len names nParams (vals ++ [p]) kwargs =
      .error (if len p = none then .typeError else .assertionError)) ∧
    (dictGet kwargs paramsKey = some p → sortVarArgs len names nParams vals kwargs =
      .error (if len p = none then .typeError else .assertionError)) := by
  have h1 : (vals ++ [p]).length = names.length + 1 := by simp [hv]
  have h2 : vals.take names.length = vals := by rw [← hv, List.take_length]
  have h3 : names.drop vals.length = [] := by rw [hv, List.drop_length]
  constructor <;> intro hk <;> unfold sortVarArgs <;> rw [hk] <;> cases hl : len p with
  | none => simp [h1, h2, h3, kwVariables, hl]
  | some k =>
    rw [hl] at hp
    have hk' : k ≠ nParams := fun h => hp (by rw [h])
    simp [h1, h2, h3, kwVariables, hl, hk']

/-- C38 is violated: when `params` is passed by keyword, any number of surplus positional arguments
is silently dropped. -/
theorem C38_extra_positional_violated {α : Type*} (len : α → Option ℕ) (names : List (List Char)) (nParams : ℕ)
    (vals extra : List α) (hv : vals.length = names.length) (p : α) (hp : len p = some nParams) :
    sortVarArgs len names nParams (vals ++ extra) [(paramsKey, p)] = .ok (vals, some p) := by
  unfold sortVarArgs
  have hk : dictGet [(paramsKey, p)] paramsKey = some p := by simp [dictGet]
  rw [hk]
  have h1 : (vals ++ extra).take names.length = vals := by rw [← hv, List.take_left]
  have h2 : names.drop vals.length = [] := by rw [hv, List.drop_length]
  simp only [h1, h2, kwVariables, hp, if_true, List.append_nil]

/-- Two variables `x`, `z`, one keyword. -/
example : sortVarArgs Val.len ["x".toList, "z".toList] 1 [.scalar 2]
    [("z".toList, .vec [1, 3]), (paramsKey, .vec [5])] = .ok ([.scalar 2, .vec [1, 3]], some (.vec [5])) :=
  C38_binding_keyword_partial Val.len ["x".toList, "z".toList] 1 (by decide) [.scalar 2, .vec [1, 3]] rfl
    (.vec [5]) rfl 1 (by decide) [("z".toList, .vec [1, 3]), (paramsKey, .vec [5])]
    (by
      apply dictGet_of_mem
      · decide
      · simp)
    (by
      intro i h hi
      have : i = 1 := by simp at h; omega
      subst this
      apply dictGet_of_mem
      · decide
      · simp)

/-! ## C39: numerical evaluation -/

/-- C39: however the arguments are passed, if they are bound to the inputs given by an assignment `ρ`
of numbers to symbols, the call returns the value of the expression under `ρ`. This covers arbitrary
index sets: entry `k` of a variable is the value of the symbol with the `k`-th index. -/
theorem C39_evaluation (m : Meta) (hm : m.WF) (e : Expr) (he : e.Real)
    (hs : ∀ s ∈ e.symbols, s ∈ m.allSymbols) (ρ : Sym → ℂ) (args : List Val)
    (kwargs : List (List Char × Val))
    (hb : sortVarArgs Val.len m.names m.params.length args kwargs =
      .ok (m.inputs ρ, some (.vec (m.paramInput ρ)))) :
    callNum m e args kwargs = .ok (e.value ρ) := by
  unfold callNum
  rw [hb]
  exact evalNum_ok m hm ρ e he hs

/-- C39: inputs of the right shapes are always of this form, so nothing is left out. -/
theorem C39_inputs_exist (m : Meta) (hm : m.WF) (vals : List Val) (ps : List ℂ)
    (hsh : List.Forall₂ ShapeOK m.vars vals) (hps : ps.length = m.params.length) :
    ∃ ρ : Sym → ℂ, m.inputs ρ = vals ∧ m.paramInput ρ = ps :=
  exists_assignment m hm vals ps hsh hps

/-- C39: calling a polynomial object positionally gives the value of the polynomial. -/
theorem C39_poly_call (P : PolyObj) (hm : P.md.WF) (hd : P.Declared) (hr : RealCoeffs P.poly)
    (ρ : Sym → ℂ) : P.callAt ρ = .ok (eval ρ P.poly) := callAt_ok P hm hd hr ρ

/-- The variables `[z0, z2, z5]` and a scalar `x` with parameters `[psi, a]`. -/
def exampleMeta : Meta := ⟨[("z".toList, some [0, 2, 5]), ("x".toList, none)], ["psi".toList, "a".toList]⟩

theorem exampleMeta_wf : exampleMeta.WF where
  namesNodup := by decide
  good := by decide
  indsNodup := by
    intro v hv inds h
    simp only [exampleMeta, List.mem_cons, List.not_mem_nil, or_false] at hv
    rcases hv with rfl | rfl
    · simp at h; subst h; decide
    · simp at h
  paramsNodup := by decide
  params := by
    intro s hs
    simp only [exampleMeta, List.mem_cons, List.not_mem_nil, or_false] at hs
    rcases hs with rfl | rfl
    · exact ⟨_, _, splitSubscript_good _ (by decide), by decide⟩
    · exact ⟨_, _, splitSubscript_good _ (by decide), by decide⟩

/-- `psi * z5**2 + 3 * a * x`. -/
def exampleExpr : Expr :=
  .add [.mul [.sym "psi".toList, .pow (.sym (mergeSubscript "z".toList 5)) 2],
    .mul [.int 3, .sym "a".toList, .sym "x".toList]]

example (ρ : Sym → ℂ) : callNum exampleMeta exampleExpr
    (exampleMeta.inputs ρ ++ [.vec (exampleMeta.paramInput ρ)]) [] =
    .ok (ρ "psi".toList * ρ (mergeSubscript "z".toList 5) ^ 2 + 3 * ρ "a".toList * ρ "x".toList) := by
  rw [C39_evaluation exampleMeta exampleMeta_wf exampleExpr
    (by simp [exampleExpr, Expr.Real, Expr.RealList])
    (by
      intro s hs
      simp only [exampleExpr, Expr.symbols, Expr.symbolsList] at hs
      simp only [List.append_nil, List.cons_append, List.nil_append, List.mem_cons, List.not_mem_nil,
        or_false] at hs
      simp only [exampleMeta, Meta.allSymbols, Meta.varSyms, varSymbols, List.flatMap_cons,
        List.flatMap_nil, List.map_cons, List.map_nil, List.append_nil, List.cons_append,
        List.nil_append, List.mem_cons, List.not_mem_nil, or_false]
      tauto)
    ρ _ [] (C38_binding_positional _ _ _ _ (by simp [Meta.inputs, Meta.names]) _
      (by simp [Val.len, Meta.paramInput]) [] rfl)]
  simp [exampleExpr, Expr.value, Expr.values]
  ring

/-! ## C40: complex coefficients -/

/-- C40 is violated: a polynomial with a coefficient that is not real cannot be evaluated
numerically at all, every call raises. -/
theorem C40_complex_violated (P : PolyObj) (h : ¬ RealCoeffs P.poly) (args : List Val)
    (kwargs : List (List Char × Val)) : ∃ err, P.call args kwargs = .error err := by
  unfold PolyObj.call callNum
  cases sortVarArgs Val.len P.md.names P.md.params.length args kwargs with
  | error e => exact ⟨e, rfl⟩
  | ok r =>
    obtain ⟨vals, params⟩ := r
    obtain ⟨err, he⟩ := compileExpr_notReal P.md _ (fun hr => h ((polyExpr_real _).1 hr))
    refine ⟨err, ?_⟩
    simp only [evalNum, he]

/-- `I * z0`. -/
example : ¬ RealCoeffs (C Complex.I * X (mergeSubscript "z".toList 0)) := by
  intro h
  have := h (Finsupp.single (mergeSubscript "z".toList 0) 1)
  rw [coeff_C_mul, coeff_X] at this
  simp at this

/-- C40, the part that holds: real coefficients never make the call fail. -/
theorem C40_real_partial (P : PolyObj) (hm : P.md.WF) (hd : P.Declared) (hr : RealCoeffs P.poly)
    (vals : List Val) (ps : List ℂ) (hsh : List.Forall₂ ShapeOK P.md.vars vals)
    (hps : ps.length = P.md.params.length) :
    ∃ x, P.call (vals ++ [.vec ps]) [] = .ok x := by
  obtain ⟨ρ, rfl, rfl⟩ := exists_assignment P.md hm vals ps hsh hps
  exact ⟨_, callAt_ok P hm hd hr ρ⟩

/-! ## C41: symbolic evaluation -/

/-- C41, the part that holds: if the symbols of the polynomial that the inputs mention are themselves left as they are,
then, in whatever order sympy visits the substitutions, evaluating the result equals
evaluating the polynomial at the evaluated inputs. Missing: inputs mentioning symbols of
the polynomial that are replaced, see `C41_swap_violated`. -/
theorem C41_symbolic_partial (m : Meta) (hm : m.WF) (e : Expr) (σ : Sym → Expr)
    (hσ : ∀ s ∈ m.allSymbols, ∀ t ∈ (σ s).symbols, t ∈ m.allSymbols → σ t = .sym t)
    (order : List (Sym × Expr) → List (Sym × Expr)) (ho : ∀ l, (order l).Perm l) :
    ∃ r, callSym m e (m.vars.map (symInput σ)) (some (m.params.map σ)) order = some r ∧
      ∀ ρ : Sym → ℂ, r.value ρ =
        e.value (fun s => if s ∈ m.allSymbols then (σ s).value ρ else ρ s) := by
  have hitems : symSubs m (m.vars.map (symInput σ)) (some (m.params.map σ)) =
      some (m.allSymbols.map fun s => (s, σ s)) := by
    unfold symSubs
    rw [collectValues_symInput, Option.map_some, Option.getD_some, ← List.map_append]
    exact congrArg some (zip_map_self _ σ)
  set items := m.allSymbols.map fun s => (s, σ s) with hdef
  have hfst : items.map Prod.fst = m.allSymbols := by
    rw [hdef, List.map_map]; exact List.map_id _
  have hnd : (items.map Prod.fst).Nodup := by rw [hfst]; exact allSymbols_nodup m hm
  have hp := ho items
  refine ⟨_, by unfold callSym; rw [hitems, Option.map_some], ?_⟩
  intro ρ
  rw [substSeq_value ρ (order items) (((hp.map Prod.fst).nodup_iff).2 hnd) ?_ e]
  · apply value_congr
    intro s _
    rw [dictGet_perm items (order items) hp hnd]
    by_cases h : s ∈ m.allSymbols
    · rw [if_pos h, dictGet_of_mem items hnd (List.mem_map.2 ⟨s, h, rfl⟩)]
    · rw [if_neg h, (dictGet_none items).2 (by rw [hfst]; exact h)]
  · intro sv hsv
    obtain ⟨s, hs, rfl⟩ := List.mem_map.1 (hp.mem_iff.1 hsv)
    intro t ht w hw
    obtain ⟨t', ht', h⟩ := List.mem_map.1 (hp.mem_iff.1 hw)
    cases h
    exact hσ s hs t ht ht'

/-- Substituting `z_i ↦ a + t * q`, `x ↦ a + t * q`, `psi ↦ psi`, `a ↦ a`, as `sample_intersect` does (`a` is a parameter). -/
example : ∀ s ∈ exampleMeta.allSymbols,
    ∀ t ∈ ((fun s : Sym => if s ∈ exampleMeta.params then Expr.sym s else
      .add [.sym "a".toList, .mul [.sym "t".toList, .sym "q".toList]]) s).symbols, t ∈ exampleMeta.allSymbols →
      (fun s : Sym => if s ∈ exampleMeta.params then Expr.sym s else
        .add [.sym "a".toList, .mul [.sym "t".toList, .sym "q".toList]]) t = .sym t := by
  intro s _
  simp only
  split_ifs with h
  · intro t ht _
    simp only [Expr.symbols, List.mem_singleton] at ht
    subst ht
    rw [if_pos h]
  · simp only [Expr.symbols, Expr.symbolsList, List.append_nil, List.cons_append, List.nil_append]
    intro t ht hall
    simp only [List.mem_cons, List.not_mem_nil, or_false] at ht
    rcases ht with rfl | rfl | rfl
    · rw [if_pos (by decide)]
    · exact absurd hall (by decide)
    · exact absurd hall (by decide)

/-- C41 is violated: calling `z0 + 2*z1` with the symbols swapped (`[z1, z0]`) does not give
`z1 + 2*z0`, in whatever order sympy visits the substitutions. -/
theorem C41_swap_violated (order : List (Sym × Expr) → List (Sym × Expr)) (ho : ∀ l, (order l).Perm l) :
    let z0 : Sym := mergeSubscript "z".toList 0
    let z1 : Sym := mergeSubscript "z".toList 1
    let m : Meta := ⟨[("z".toList, some [0, 1])], []⟩
    let e : Expr := .add [.sym z0, .mul [.int 2, .sym z1]]
    ∃ r, callSym m e [.vec [.sym z1, .sym z0]] (some []) order = some r ∧
      ∃ ρ : Sym → ℂ, r.value ρ ≠ ρ z1 + 2 * ρ z0 := by
  intro z0 z1 m e
  have hne : z1 ≠ z0 := by decide
  have hitems : symSubs m [.vec [.sym z1, .sym z0]] (some []) =
      some [(z0, .sym z1), (z1, .sym z0)] := by
    rfl
  refine ⟨_, by unfold callSym; rw [hitems, Option.map_some], fun s => if s = z0 then 0 else 1, ?_⟩
  have hp := ho [(z0, .sym z1), (z1, .sym z0)]
  generalize order [(z0, .sym z1), (z1, .sym z0)] = l at hp
  have hl : l = [(z0, .sym z1), (z1, .sym z0)] ∨ l = [(z1, .sym z0), (z0, .sym z1)] := by
    have hlen := hp.length_eq
    match l, hlen with
    | [a, b], _ =>
      have h1 := hp.mem_iff (a := a)
      have h2 := hp.mem_iff (a := b)
      have h3 := hp.mem_iff (a := (z0, Expr.sym z1))
      have h4 := hp.mem_iff (a := (z1, Expr.sym z0))
      simp only [List.mem_cons, List.not_mem_nil, or_false, true_or, or_true, true_iff, iff_true] at h1 h2 h3 h4
      rcases h1 with rfl | rfl <;> rcases h2 with rfl | rfl
      · simp [hne] at h4
      · exact Or.inl rfl
      · exact Or.inr rfl
      · simp [hne.symm] at h3
  rcases hl with rfl | rfl <;>
    simp [Expr.substSeq, Expr.subst, Expr.substList, Expr.value, Expr.values, e, hne, hne.symm]

/-! ## C42: evaluation of monomials -/

/-- C42: the direct, the optimised and the symbolic mode give the documented products, over any
commutative semiring. -/
theorem C42_modes {R : Type*} [CommSemiring R] {M : ℕ} (values : Values R) (coeffs : Fin M → R)
    (powers : Powers M) (hc : Compatible values powers) :
    monDirect values coeffs powers = some (fun c => coeffs c * monSpec values powers c) ∧
    monOpt values coeffs powers = some (fun c => coeffs c * monSpec values powers c) ∧
    monSymbolic values coeffs powers = some (fun c => coeffs c * monSpec values powers c) := by
  have hd := monLoop_prod (M := M) (fun (v : List R) p acc c => acc c * powProd v (p c)) (by
    intro v p acc h
    funext c
    rw [powProd_eq v (p c) (h c)]) values powers hc (fun _ => 1)
  have hop := monLoop_prod (M := M) (fun (v : List R) p acc c => (v.zip (p c)).foldl monScalarOpt (acc c)) (by
    intro v p acc h
    funext c
    rw [foldl_opt, zip_prod, powProd_eq v (p c) (h c)]) values powers hc (fun _ => 1)
  refine ⟨?_, ?_, ?_⟩
  · unfold monDirect; rw [hd]; simp
  · unfold monOpt; rw [hop]; simp
  · unfold monSymbolic; rw [hd]; simp

/-- C42: the logarithmic mode agrees when every value that is raised to a positive power is not
zero (values with power zero may be zero). -/
theorem C42_log {M : ℕ} (values : Values ℂ) (coeffs : Fin M → ℂ) (powers : Powers M)
    (hc : Compatible values powers) (hz : NonZeroWherePowered values powers) :
    monLog values coeffs powers = some (fun c => coeffs c * monSpec values powers c) := by
  obtain ⟨r, h1, h2⟩ := monLog_loop values powers hc hz (fun _ => 0)
  unfold monLog
  rw [h1, Option.map_some]
  congr 1
  funext c
  rw [h2 c]; simp

/-- Two variables, one of them unused with value `None`, three monomials; the last value is zero but only
used with power zero. -/
example : Compatible (M := 3) [some [(2 : ℂ), 0], none] [some (fun c => [c.val, 0]), none] ∧
    NonZeroWherePowered (M := 3) [some [(2 : ℂ), 0], none] [some (fun c => [c.val, 0]), none] := by
  constructor
  · unfold Compatible
    simp
  · intro v p h c i hi hp
    simp at h
    obtain ⟨rfl, rfl⟩ := h
    have : i = 0 ∨ i = 1 := by simp at hi; omega
    rcases this with rfl | rfl
    · simp
    · simp at hp

end Cyjax
