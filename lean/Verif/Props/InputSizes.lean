import Verif.Lemmas.InputSizes
import Verif.Props.PolyClass

/-! # Property C178: sizes of the inputs of a polynomial -/

namespace Cyjax

open Cyjax.Polynomial MvPolynomial

/-- **C178**, what the code does with numpy arrays of any sizes: the call raises exactly if the value of a
symbol that occurs in the polynomial is missing; otherwise it returns the value of the polynomial.
Missing compared to the property: entries that are not needed are not noticed. -/
theorem C178_numpy_partial (P : PolyObj) (hm : P.md.WF) (hd : P.Declared) (hr : RealCoeffs P.poly)
    (x : List Char × Option (List ℕ) → Val) (ρ : Sym → ℂ) (hx : P.md.Reads x ρ) :
    ((∀ s ∈ P.poly.vars, P.md.Provides x s) →
      P.call (P.md.vars.map x ++ [.vec (P.md.paramInput ρ)]) [] = .ok (eval ρ P.poly)) ∧
    ((∃ s ∈ P.poly.vars, ¬ P.md.Provides x s) →
      ∃ e, P.call (P.md.vars.map x ++ [.vec (P.md.paramInput ρ)]) [] = .error e) :=
  ⟨fun h => call_any P hm hd hr x ρ hx h,
    fun ⟨s, hs, hn⟩ => call_missing P hm x _ (by simp [Meta.paramInput]) s hs hn⟩

/-- **C178**: with symbolic inputs every wrong size raises, and right sizes never do. -/
theorem C178_symbolic (m : Meta) (e : Expr) (x : List Char × Option (List ℕ) → SymVal)
    (params : Option (List Expr)) (order : List (Sym × Expr) → List (Sym × Expr)) :
    callSym m e (m.vars.map x) params order = none ↔
      ∃ v ∈ m.vars, ¬ (match v.2, x v with
        | none, .scalar _ => True
        | some inds, .vec l => l.length = inds.length
        | _, _ => False) := by
  unfold callSym symSubs
  rw [Option.map_eq_none_iff, Option.map_eq_none_iff]
  induction m.vars with
  | nil => simp [collectValues]
  | cons v vs ih =>
    obtain ⟨n, ix⟩ := v
    rw [List.map_cons]
    simp only [List.exists_mem_cons_iff]
    cases ix with
    | none =>
      cases hx : x (n, none) with
      | scalar a => simp only [collectValues, Option.map_eq_none_iff, ih, not_true_eq_false, false_or]
      | vec l => simp [collectValues]
    | some inds =>
      cases hx : x (n, some inds) with
      | scalar a => simp [collectValues]
      | vec l =>
        simp only [collectValues]
        by_cases hl : l.length = inds.length
        · rw [if_pos hl, Option.map_eq_none_iff, ih]
          simp only [hl, not_true_eq_false, false_or]
        · simp [hl]

/-- **C178**: a wrong number of parameters raises, whatever the other inputs are. -/
theorem C178_params (P : PolyObj) (vals : List Val) (hv : vals.length = P.md.vars.length) (ps : List ℂ)
    (hps : ps.length ≠ P.md.params.length) : P.call (vals ++ [.vec ps]) [] = .error .assertionError := by
  unfold PolyObj.call callNum sortVarArgs
  have h0 : dictGet ([] : List (List Char × Val)) paramsKey = none := rfl
  have hn : P.md.names.length = P.md.vars.length := names_length _
  have h1 : (vals ++ [Val.vec ps]).length = P.md.names.length + 1 := by simp [hv, hn]
  have h2 : vals.take P.md.names.length = vals := by rw [hn, ← hv, List.take_length]
  have h3 : P.md.names.drop vals.length = [] := by rw [hv, ← hn, List.drop_length]
  rw [h0]
  simp only [if_pos h1, List.dropLast_concat, List.getLast?_concat, h2, h3, kwVariables, Val.len, if_neg hps]

/-- **C178** is violated: entries appended to the arrays are accepted and ignored. -/
theorem C178_long_violated (P : PolyObj) (hm : P.md.WF) (hd : P.Declared) (hr : RealCoeffs P.poly) (ρ : Sym → ℂ)
    (extra : List Char × Option (List ℕ) → List ℂ) :
    P.call (P.md.vars.map (fun v => match varInput ρ v with
        | .scalar a => .scalar a
        | .vec l => .vec (l ++ extra v)) ++ [.vec (P.md.paramInput ρ)]) [] = P.callAt ρ := by
  rw [callAt_ok P hm hd hr ρ]
  refine call_any P hm hd hr _ ρ ?_ ?_
  · intro v hv
    obtain ⟨n, ix⟩ := v
    cases ix with
    | none => simp only [varInput]
    | some inds =>
      simp only [varInput]
      intro k hk hl
      rw [List.getElem_append_left (by simpa using hk), List.getElem_map]
  · intro s _ v hv inds hi l hl k hk _
    obtain ⟨n, ix⟩ := v
    simp only at hi
    subst hi
    simp only [varInput, Val.vec.injEq] at hl
    subst hl
    rw [List.length_append, List.length_map]
    omega

/-- **C178** is violated with jax arrays for every size but zero: no call raises, and missing entries are
replaced by the last one. -/
theorem C178_jax_violated (P : PolyObj) (hm : P.md.WF) (hd : P.Declared) (hr : RealCoeffs P.poly)
    (x : List Char × Option (List ℕ) → Val) (ρ : Sym → ℂ)
    (hx : ∀ v ∈ P.md.vars, match v.2, x v with
      | none, .scalar a => ρ v.1 = a
      | some inds, .vec l => l ≠ [] ∧ ∀ k (hk : k < inds.length),
        ρ (mergeSubscript v.1 inds[k]) = if h : k < l.length then l[k] else l.getLastD 0
      | _, _ => False) :
    P.callJax (P.md.vars.map x) (P.md.paramInput ρ) = .ok (eval ρ P.poly) := by
  have hz : List.zipWith jaxInput P.md.vars (P.md.vars.map x) = P.md.vars.map (fun v => jaxInput v (x v)) := by
    rw [List.zipWith_map_right, List.zipWith_self]
  unfold PolyObj.callJax
  rw [hz]
  refine call_any P hm hd hr _ ρ ?_ ?_
  · intro v hv
    have h := hx v hv
    obtain ⟨n, ix⟩ := v
    cases ix with
    | none =>
      cases hxv : x (n, none) with
      | scalar a => rw [hxv] at h; simpa only [jaxInput, hxv] using h
      | vec l => rw [hxv] at h; exact h.elim
    | some inds =>
      cases hxv : x (n, some inds) with
      | scalar a => rw [hxv] at h; exact h.elim
      | vec l =>
        rw [hxv] at h
        simp only [jaxInput, hxv] at h ⊢
        intro k hk hl
        obtain ⟨hne, h⟩ := h
        rw [h k hk]
        have hpos : 0 < l.length := List.length_pos_iff.2 hne
        simp only [jaxEntries, if_neg hne, List.getElem_map, List.getElem_range]
        split_ifs with hkl
        · rw [min_eq_left (by omega), List.getD_eq_getElem?_getD, List.getElem?_eq_getElem hkl]
          rfl
        · rw [min_eq_right (by omega), List.getD_eq_getElem?_getD, List.getLastD_eq_getLast?,
            List.getLast?_eq_getElem?]
  · intro s _ v hv inds hi l hl k hk _
    have h := hx v hv
    obtain ⟨n, ix⟩ := v
    simp only at hi
    subst hi
    cases hxv : x (n, some inds) with
    | scalar a => rw [hxv] at h; exact h.elim
    | vec l' =>
      rw [hxv] at h
      simp only [jaxInput, hxv, Val.vec.injEq] at hl
      subst hl
      simp only [jaxEntries, if_neg h.1, List.length_map, List.length_range]
      exact hk

/-- `z0^2 + z1^2` at the single coordinate `3`: `18` with a jax array. -/
example : sumOfSquares.callJax [.vec [3]] [] = .ok 18 := by
  obtain ⟨ρ, h1, h2⟩ := exists_assignment sumOfSquares.md sumOfSquares_wf [.vec [3, 3]] []
    (by simp [sumOfSquares, ShapeOK]) rfl
  simp only [Meta.inputs, sumOfSquares, varInput, List.map_cons, List.map_nil, List.cons.injEq, Val.vec.injEq,
    and_true] at h1
  have h := C178_jax_violated sumOfSquares sumOfSquares_wf sumOfSquares_declared sumOfSquares_real
    (fun _ => .vec [3]) ρ (by
      intro v hv
      simp only [sumOfSquares, List.mem_cons, List.not_mem_nil, or_false] at hv
      subst hv
      refine ⟨by simp, fun k hk => ?_⟩
      simp only [List.length_cons, List.length_nil] at hk
      have : k = 0 ∨ k = 1 := by omega
      rcases this with rfl | rfl
      · simpa using h1.1
      · simpa using h1.2)
  rw [h2] at h
  refine Eq.trans h ?_
  simp only [sumOfSquares, map_add, map_pow, eval_X, h1.1, h1.2]
  norm_num

/-- With a numpy array of one coordinate the call raises. -/
example (ρ : Sym → ℂ) (h0 : ρ (mergeSubscript "z".toList 0) = 3) :
    ∃ e, sumOfSquares.call [.vec [3], .vec []] [] = .error e := by
  have h := (C178_numpy_partial sumOfSquares sumOfSquares_wf sumOfSquares_declared sumOfSquares_real
    (fun _ => .vec [3]) ρ (by
      intro v hv
      simp only [sumOfSquares, List.mem_cons, List.not_mem_nil, or_false] at hv
      subst hv
      intro k hk hl
      simp only [List.length_cons, List.length_nil] at hl
      have : k = 0 := by omega
      subst this
      simpa using h0)).2 ⟨mergeSubscript "z".toList 1, ?_, ?_⟩
  · exact h
  · by_contra hc
    have hd : pderiv (mergeSubscript "z".toList 1) sumOfSquares.poly = 0 := pderiv_eq_zero_of_notMem_vars hc
    have he := congrArg (eval fun _ => (1 : ℂ)) hd
    have hne : mergeSubscript "z".toList 0 ≠ mergeSubscript "z".toList 1 := by decide
    simp only [sumOfSquares, map_add, pderiv_pow, pderiv_X_self, pderiv_X_of_ne hne] at he
    simp at he
  · intro hp
    have := hp ("z".toList, some [0, 1]) (by simp [sumOfSquares]) [0, 1] rfl [3] rfl 1 (by simp) rfl
    simp at this

end Cyjax
