import Verif.Spec.TransformEval
import Verif.Lemmas.Broadcast
import Verif.Props.HomPoly
import Verif.Props.Polynomial
import Verif.Props.PolyOps

/-! # C158: compiled evaluation functions on arrays of inputs -/

namespace Cyjax

open Cyjax.Spec Cyjax.Polynomial MvPolynomial

private theorem call_keyword (P : PolyObj) (hm : P.md.WF) (hd : P.Declared) (hr : RealCoeffs P.poly)
    (hk : paramsKey ∉ P.md.names) (ρ : Sym → ℂ) :
    P.call (P.md.inputs ρ) [(paramsKey, .vec (P.md.paramInput ρ))] = .ok (eval ρ P.poly) := by
  have hv : (P.md.inputs ρ).length = P.md.names.length := by simp [Meta.inputs, Meta.names]
  have hb := C38_binding_keyword_partial Val.len P.md.names P.md.params.length hk (P.md.inputs ρ) hv
    (.vec (P.md.paramInput ρ)) (by simp [Val.len, Meta.paramInput]) P.md.names.length le_rfl
    [(paramsKey, .vec (P.md.paramInput ρ))] (by simp [dictGet]) (fun i h h' => absurd h (by omega))
  rw [← hv, List.take_length] at hb
  rw [PolyObj.call, C39_evaluation P.md hm _ ((polyExpr_real _).2 hr) (fun s hs => hd s (polyExpr_symbols _ s hs)) ρ _ _ hb,
    polyExpr_value]

private theorem vmap_spec {l m : List (List ℕ)} (h1 : ∀ s ∈ l, s = [] ∨ s ∈ m) (h2 : ∀ s ∈ m, s = [] ∨ s ∈ l) {β : Type*}
    (g : (ℕ → ℕ) → β) (Q : (ℕ → ℕ) → β → Prop) (hQ : ∀ i, Q i (g i)) :
    (autoVmap l g = none ↔ Clash m) ∧ ∀ r, IsBroadcast m r → ∃ R, autoVmap l g = some R ∧ R.dims = r ∧ ∀ i, Q i (R.get i) := by
  have hb : bcast l = bcast m := by
    refine Option.ext fun r => ?_
    rw [bcast_eq_some, bcast_eq_some]
    exact Spec.IsBroadcast.congr h1 h2
  unfold autoVmap
  rw [hb]
  refine ⟨by rw [Option.map_eq_none_iff, bcast_eq_none], fun r hr => ?_⟩
  rw [bcast_eq_some.2 hr]
  exact ⟨_, rfl, rfl, hQ⟩

/-- **C158.** The function made by `Poly.transform_eval` fails if and only if the batch shapes of its arguments clash. Otherwise the
result has the combined shape, and its entry `i` is the value of the polynomial at the entries of the arguments that belong to `i`
(given by an assignment `ρ`, see `C39_inputs_exist`), for each of the ways to pass the parameters. -/
theorem C158_poly (P : PolyObj) (hm : P.md.WF) (hd : P.Declared) (hr : RealCoeffs P.poly) (hk : paramsKey ∉ P.md.names)
    (args : List (Batch Val)) (params : Batch Val) (way : Fin 3) :
    (P.transformEvalB (paramsBy way args params).1 (paramsBy way args params).2.1 (paramsBy way args params).2.2 = none ↔
      Clash (params.dims :: args.map (·.dims))) ∧
    ∀ r, IsBroadcast (params.dims :: args.map (·.dims)) r →
      ∃ R, P.transformEvalB (paramsBy way args params).1 (paramsBy way args params).2.1 (paramsBy way args params).2.2 = some R ∧
        R.dims = r ∧ ∀ i, ∀ ρ : Sym → ℂ, args.map (·.at i) = P.md.inputs ρ → params.at i = .vec (P.md.paramInput ρ) →
          R.get i = .ok (eval ρ P.poly) := by
  match way with
  | 0 =>
    have e : P.transformEvalB (paramsBy 0 args params).1 (paramsBy 0 args params).2.1 (paramsBy 0 args params).2.2 =
        autoVmap ((args ++ [params]).map (·.dims) ++ []) fun i => P.call ((args ++ [params]).map (·.at i)) [] := rfl
    rw [e]
    refine vmap_spec ?_ ?_ _ (fun i y => ∀ ρ : Sym → ℂ, args.map (·.at i) = P.md.inputs ρ →
      params.at i = .vec (P.md.paramInput ρ) → y = Except.ok (eval ρ P.poly)) fun i ρ h1 h2 => ?_
    · intro s hs
      simp only [List.map_append, List.map_cons, List.map_nil, List.append_nil, List.mem_append, List.mem_singleton] at hs
      exact .inr (List.mem_cons.2 hs.symm)
    · intro s hs
      right
      simp only [List.map_append, List.map_cons, List.map_nil, List.append_nil, List.mem_append, List.mem_singleton]
      exact (List.mem_cons.1 hs).symm
    · rw [List.map_append, h1, List.map_cons, h2, List.map_nil]
      exact callAt_ok P hm hd hr ρ
  | 1 =>
    have e : P.transformEvalB (paramsBy 1 args params).1 (paramsBy 1 args params).2.1 (paramsBy 1 args params).2.2 =
        autoVmap (args.map (·.dims) ++ [params.dims]) fun i => P.call (args.map (·.at i)) [(paramsKey, params.at i)] := rfl
    rw [e]
    refine vmap_spec ?_ ?_ _ (fun i y => ∀ ρ : Sym → ℂ, args.map (·.at i) = P.md.inputs ρ →
      params.at i = .vec (P.md.paramInput ρ) → y = Except.ok (eval ρ P.poly)) fun i ρ h1 h2 => ?_
    · intro s hs
      rw [List.mem_append, List.mem_singleton] at hs
      exact .inr (List.mem_cons.2 hs.symm)
    · intro s hs
      right
      rw [List.mem_append, List.mem_singleton]
      exact (List.mem_cons.1 hs).symm
    · rw [h1, h2]
      exact call_keyword P hm hd hr hk ρ
  | 2 =>
    have e : P.transformEvalB (paramsBy 2 args params).1 (paramsBy 2 args params).2.1 (paramsBy 2 args params).2.2 =
        autoVmap (args.map (·.dims) ++ [params.dims]) fun i => P.call (args.map (·.at i)) [(paramsKey, params.at i)] := rfl
    rw [e]
    refine vmap_spec ?_ ?_ _ (fun i y => ∀ ρ : Sym → ℂ, args.map (·.at i) = P.md.inputs ρ →
      params.at i = .vec (P.md.paramInput ρ) → y = Except.ok (eval ρ P.poly)) fun i ρ h1 h2 => ?_
    · intro s hs
      rw [List.mem_append, List.mem_singleton] at hs
      exact .inr (List.mem_cons.2 hs.symm)
    · intro s hs
      right
      rw [List.mem_append, List.mem_singleton]
      exact (List.mem_cons.1 hs).symm
    · rw [h1, h2]
      exact call_keyword P hm hd hr hk ρ

/-- `psi * z5**2 + 3` on an array of three points `z`, an array of four numbers `x` in the second axis, parameters by keyword. -/
example (z : (ℕ → ℕ) → Val) (x : (ℕ → ℕ) → Val) (p : Val) :
    ∃ R, examplePoly.transformEvalB [] [⟨[1, 3], z⟩, ⟨[4], x⟩] [(paramsKey, ⟨[], fun _ => p⟩)] = some R ∧ R.dims = [4, 3] := by
  obtain ⟨R, h1, h2, -⟩ := (C158_poly examplePoly exampleMeta_wf examplePoly_declared examplePoly_real (by decide)
    [⟨[1, 3], z⟩, ⟨[4], x⟩] ⟨[], fun _ => p⟩ 1).2 [4, 3] (bcast_eq_some.1 (show bcast [[], [1, 3], [4]] = some [4, 3] by decide))
  exact ⟨R, h1, h2⟩

/-- Arrays of shapes `(3, 1)` and `(4)` of points, one set of parameters: a result of shape `(3, 4)`. -/
example : IsBroadcast [[], [1, 3], [4]] [4, 3] := bcast_eq_some.1 (by decide)

/-- **C158.** An argument fixed when the function is made is used unless the call gives it again. -/
theorem C158_fixed {β : Type*} (fixed kwargs : List (List Char × β)) (k : List Char) :
    dictGet (mergeKwargs fixed kwargs) k = (dictGet kwargs k).orElse fun _ => dictGet fixed k := by
  unfold mergeKwargs dictGet
  rw [List.reverse_append, List.find?_append, ← List.filter_reverse]
  cases h : kwargs.reverse.find? (fun p => p.1 = k) with
  | some p => simp
  | none =>
    have hk : k ∉ kwargs.map Prod.fst := by
      rw [List.find?_eq_none] at h
      simp only [List.mem_map, not_exists, not_and]
      intro p hp e
      exact h p (List.mem_reverse.2 hp) (by simpa using e)
    rw [List.find?_filter]
    simp only [Option.none_or, Option.map_none, Option.orElse_none]
    congr 2
    funext p
    by_cases e : p.1 = k
    · simp [e, hk]
    · simp [e]

example : dictGet (mergeKwargs [("a".toList, 1), ("b".toList, 2)] [("b".toList, 3)]) "b".toList = some 3 ∧
    dictGet (mergeKwargs [("a".toList, 1), ("b".toList, 2)] [("b".toList, 3)]) "a".toList = some 1 := by decide

/-- **C158.** The function made by `HomPoly.transform_eval`, with an array of valid patches or without patch: it fails if and only
if the batch shapes clash, and otherwise entry `i` of the result is what the polynomial returns when it is called with the entries
that belong to `i`. -/
theorem C158_hom (P : PolyObj) (fixed : List (List Char × Batch Val)) (patch : Option (Batch ℕ)) (args : List (Batch Val))
    (kwargs : List (List Char × Batch Val)) (hp : ∀ i p, atOpt patch i = some p → ValidPatch P.md.sizes [p]) :
    let shapes := args.map (·.dims) ++ (mergeKwargs fixed kwargs).map (·.2.dims) ++ [dimsOpt patch]
    (homTransformEvalB P fixed patch args kwargs = none ↔ Clash shapes) ∧
    ∀ r, IsBroadcast shapes r → ∃ R, homTransformEvalB P fixed patch args kwargs = some R ∧ R.dims = r ∧
      ∀ i, R.get i = (homCall P (initCache P) ((atOpt patch i).map fun p => [p]) (args.map (·.at i))
        ((mergeKwargs fixed kwargs).map fun p => (p.1, p.2.at i))).2 := by
  intro shapes
  unfold homTransformEvalB autoVmap
  refine ⟨by rw [Option.map_eq_none_iff, bcast_eq_none], fun r hr => ?_⟩
  rw [bcast_eq_some.2 hr]
  refine ⟨_, rfl, rfl, fun i => C49_dispatch P _ _ ?_ _ _⟩
  intro q hq
  obtain ⟨p, h1, rfl⟩ := Option.map_eq_some_iff.1 hq
  exact hp i p h1

/-- Patches of three points. -/
example : ∀ i p, atOpt (some (⟨[3], fun i => i 0 % 2⟩ : Batch ℕ)) i = some p → ValidPatch [2] [p] := by
  intro i p h
  obtain rfl : p = _ := (Option.some.inj h).symm
  refine .cons (Nat.mod_lt _ two_pos) .nil

end Cyjax
