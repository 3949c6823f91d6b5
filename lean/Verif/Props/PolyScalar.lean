import Verif.Spec.PolyScalar
import Verif.Props.PolyOps

/-! # C136: arithmetic with numbers and symbols -/

namespace Cyjax

open Cyjax.Polynomial MvPolynomial

private theorem splitNat_of {s : Sym} {name : List Char} {ix : Option ℕ} (h : splitNat s = .ok (name, ix)) :
    ∃ jx, splitSubscript s = .ok (name, jx) := by
  unfold splitNat at h
  split at h
  · cases h
  · rename_i n' e
    cases h
    exact ⟨_, e⟩
  · rename_i n' i e
    split_ifs at h
    cases h
    exact ⟨_, e⟩

private theorem findIdx_none (vars : List Var) (name : List Char) (h : name ∉ vars.map Prod.fst) :
    vars.findIdx? (fun v => v.1 = name) = none := by
  rw [List.findIdx?_eq_none_iff]
  intro v hv
  simp only [decide_eq_false_iff_not]
  rintro rfl
  exact h (List.mem_map.2 ⟨v, hv, rfl⟩)

/-- The operand as a `Poly` object. -/
private theorem operand_object (P : PolyObj) (hP : P.md.WF) (o : Operand) (ho : o.Fits P.md) :
    ∃ Q : PolyObj, Q.md.WF ∧ Q.Declared ∧ RealCoeffs Q.poly ∧ SameKind P.md Q.md ∧ NoClash P.md Q.md ∧ Q.poly = o.poly ∧
      (∀ md, combineMeta P.md Q.md = .ok md → combineOperand P.md o = .ok (md, Q.gens)) ∧
      (∀ n ∈ Q.md.names, n ∈ P.md.names) ∧ (∀ c, o = .number c → Q.md = ⟨[], []⟩) ∧
      (∀ s, o = .symbol s → ∃ name ix, splitNat s = .ok (name, ix) ∧
        ((name ∈ P.md.names ∧ Q.md.params = [] ∧ Q.md.varSyms = [s]) ∨
          (name ∉ P.md.names ∧ Q.md.vars = [] ∧ Q.md.params = [s]))) := by
  cases o with
  | number c =>
    refine ⟨⟨⟨[], []⟩, C c, []⟩, ⟨by simp [Meta.names], by simp, by simp, by simp, by simp⟩, ?_, realCoeffs_C c ho, ?_, ?_, rfl, ?_,
      by simp [Meta.names], by simp, by simp⟩
    · intro s hs
      simp at hs
    · intro v _ w hw
      simp at hw
    · exact ⟨fun s _ name ix _ => by simp [Meta.names], fun s hs => by simp at hs⟩
    · intro md hmd
      simp only [combineMeta, mergeVars, List.foldl_nil, Except.ok.injEq] at hmd
      rw [← hmd]
      rfl
  | symbol s =>
    have key : ∀ v ∈ P.md.vars, ∀ ix : Option ℕ, v.2.isSome = ix.isSome → splitNat s = .ok (v.1, ix) →
        varSymbols (v.1, ix.map fun i => [i]) = [s] →
        ∃ Q : PolyObj, Q.md.WF ∧ Q.Declared ∧ RealCoeffs Q.poly ∧ SameKind P.md Q.md ∧ NoClash P.md Q.md ∧
          Q.poly = (Operand.symbol s).poly ∧
          (∀ md, combineMeta P.md Q.md = .ok md → combineOperand P.md (.symbol s) = .ok (md, Q.gens)) ∧
          (∀ n ∈ Q.md.names, n ∈ P.md.names) ∧ (∀ c, Operand.symbol s = .number c → Q.md = ⟨[], []⟩) ∧
          (∀ t, Operand.symbol s = .symbol t → ∃ name ix, splitNat t = .ok (name, ix) ∧
            ((name ∈ P.md.names ∧ Q.md.params = [] ∧ Q.md.varSyms = [t]) ∨
              (name ∉ P.md.names ∧ Q.md.vars = [] ∧ Q.md.params = [t]))) := by
      intro v hv ix hk hs hsym
      obtain ⟨jx, hj⟩ := splitNat_of hs
      have hn : v.1 ∈ P.md.names := List.mem_map.2 ⟨v, hv, rfl⟩
      refine ⟨⟨⟨[(v.1, ix.map fun i => [i])], []⟩, X s, [s]⟩, ⟨by simp [Meta.names], ?_, ?_, by simp, by simp⟩, ?_,
        realCoeffs_X s, ?_, ?_, rfl, ?_, by simp [Meta.names] at hn ⊢; exact hn, by simp, ?_⟩
      rotate_right
      · rintro t ht
        cases ht
        exact ⟨v.1, ix, hs, Or.inl ⟨hn, rfl, by simp [Meta.varSyms, hsym]⟩⟩
      · intro w hw
        rw [List.mem_singleton] at hw
        subst hw
        exact hP.good v hv
      · intro w hw inds hi
        rw [List.mem_singleton] at hw
        subst hw
        cases ix with
        | none => cases hi
        | some i => cases hi; simp
      · intro t ht
        rw [vars_X, Finset.mem_singleton] at ht
        subst ht
        simp [Meta.allSymbols, Meta.varSyms, hsym]
      · intro u hu w hw huw
        rw [List.mem_singleton] at hw
        subst hw
        have : u = v := List.inj_on_of_nodup_map hP.namesNodup hu hv huw
        subst this
        simpa using hk
      · refine ⟨fun p hp name ix' he => ?_, fun p hp => by simp at hp⟩
        obtain ⟨name', ix'', h1, h2⟩ := hP.params p hp
        rw [h1] at he
        cases he
        simp only [Meta.names, List.map_cons, List.map_nil, List.mem_singleton]
        rintro rfl
        exact h2 hn
      · intro md hmd
        have hsp : s ∉ P.md.params := by
          intro hsp
          obtain ⟨name', ix'', h1, h2⟩ := hP.params s hsp
          rw [hj] at h1
          cases h1
          exact h2 hn
        simp only [combineMeta, mergeVars, mergeVar, List.foldl_nil] at hmd
        simp only [combineOperand, if_neg hsp, hs]
        cases hf : P.md.vars.findIdx? (fun w => w.1 = v.1) with
        | none =>
          rw [List.findIdx?_eq_none_iff] at hf
          have := hf v hv
          simp at this
        | some k =>
          rw [hf] at hmd
          simp only at hmd ⊢
          cases h1 : (P.md.vars[k]?).bind Prod.snd <;> cases ix <;> rw [h1] at hmd <;> simp at hmd ⊢ <;> exact hmd
    rcases ho with ⟨v, hv, h1, rfl⟩ | ⟨v, hv, inds, i, h1, rfl⟩ | ⟨name, ix, h1, h2⟩
    · refine key v hv none (by simp [h1]) ?_ rfl
      unfold splitNat
      rw [splitSubscript_good _ (hP.good v hv)]
    · refine key v hv (some i) (by simp [h1]) ?_ rfl
      unfold splitNat
      rw [splitSubscript_merge _ (hP.good v hv)]
      simp
    · obtain ⟨jx, hj⟩ := splitNat_of h1
      refine ⟨⟨⟨[], [s]⟩, X s, []⟩, ⟨by simp [Meta.names], by simp, by simp, by simp, ?_⟩, ?_, realCoeffs_X s, ?_, ?_, rfl, ?_,
        by simp [Meta.names], by simp, fun t ht => by cases ht; exact ⟨name, ix, h1, Or.inr ⟨h2, rfl, rfl⟩⟩⟩
      · intro t ht
        rw [List.mem_singleton] at ht
        subst ht
        exact ⟨name, jx, hj, by simp [Meta.names]⟩
      · intro t ht
        rw [vars_X, Finset.mem_singleton] at ht
        subst ht
        simp [Meta.allSymbols]
      · intro v _ w hw
        simp at hw
      · refine ⟨fun p _ name' ix' _ => by simp [Meta.names], fun p hp name' ix' he => ?_⟩
        rw [List.mem_singleton] at hp
        subst hp
        rw [hj] at he
        cases he
        exact h2
      · intro md hmd
        simp only [combineMeta, mergeVars, List.foldl_cons, List.foldl_nil, Except.ok.injEq] at hmd
        rw [← hmd]
        simp only [combineOperand, h1, findIdx_none P.md.vars name h2]
        split_ifs <;> rfl

/-- **C136**, the part that holds: sum, difference and product with a real number or a symbol written as the polynomial writes its
symbols evaluate pointwise, at every assignment of numbers to symbols. Missing: other spellings of an indexed
symbol, see `C136_underscore_violated`. -/
theorem C136_arithmetic_partial (P : PolyObj) (hP : P.md.WF) (hPd : P.Declared) (hPr : RealCoeffs P.poly) (o : Operand)
    (ho : o.Fits P.md) (ρ : Sym → ℂ) : ∃ x A S M, P.callAt ρ = .ok x ∧
      P.addOperand o = .ok A ∧ A.callAt ρ = .ok (x + o.value ρ) ∧
      P.subOperand o = .ok S ∧ S.callAt ρ = .ok (x - o.value ρ) ∧
      P.mulOperand o = .ok M ∧ M.callAt ρ = .ok (x * o.value ρ) := by
  obtain ⟨Q, hQ, hQd, hQr, hk, hc, hq, hmd, -⟩ := operand_object P hP o ho
  obtain ⟨x, y, A, S, M, h1, h2, h3, h4, h5, h6, h7, h8⟩ := C45_arithmetic P Q hP hQ hPd hQd hPr hQr hk hc ρ
  have hy : y = o.value ρ := by
    rw [callAt_ok Q hQ hQd hQr ρ, hq] at h2
    cases h2
    cases o <;> simp [Operand.poly, Operand.value]
  subst hy
  cases hm : combineMeta P.md Q.md with
  | error e => unfold PolyObj.add at h3; rw [hm] at h3; cases h3
  | ok md =>
    have hco := hmd md hm
    unfold PolyObj.add at h3
    unfold PolyObj.sub at h5
    unfold PolyObj.mul at h7
    rw [hm] at h3 h5 h7
    rw [hq] at h3 h5 h7
    refine ⟨x, A, S, M, h1, ?_, h4, ?_, h6, ?_, h8⟩
    · rw [← h3, PolyObj.addOperand, hco]
    · rw [← h5, PolyObj.subOperand, hco]
    · rw [← h7, PolyObj.mulOperand, hco]

/-- **C136.** The result takes the variables of the polynomial, with the index of the symbol added if it belongs to one of them; a
symbol that belongs to no variable becomes the last parameter. Numbers change nothing. -/
theorem C136_metadata (P : PolyObj) (hP : P.md.WF) (o : Operand) (ho : o.Fits P.md) (R : PolyObj)
    (hR : P.addOperand o = .ok R ∨ P.subOperand o = .ok R ∨ P.mulOperand o = .ok R) :
    R.md.WF ∧ R.md.names = P.md.names ∧
    (∀ c, o = .number c → R.md = P.md) ∧
    (∀ s, o = .symbol s → ∀ name ix, splitNat s = .ok (name, ix) →
      (name ∉ P.md.names → R.md.vars = P.md.vars ∧
        R.md.params = if s ∈ P.md.params then P.md.params else P.md.params ++ [s]) ∧
      (name ∈ P.md.names → R.md.params = P.md.params ∧ ∀ t, t ∈ R.md.varSyms ↔ t ∈ P.md.varSyms ∨ t = s)) := by
  obtain ⟨Q, hQ, hQd, hQr, hk, hc, hq, hmd, hn, hnum, hsym⟩ := operand_object P hP o ho
  obtain ⟨vars, hv⟩ := mergeVars_succeeds Q.md.vars P.md.vars hk hQ.namesNodup
  obtain ⟨md, hm⟩ : ∃ md, combineMeta P.md Q.md = .ok md := by
    unfold combineMeta; rw [hv]; exact ⟨_, rfl⟩
  have hco := hmd md hm
  have hRmd : R.md = md := by
    unfold PolyObj.addOperand PolyObj.subOperand PolyObj.mulOperand at hR
    rw [hco] at hR
    simp only [Except.ok.injEq] at hR
    rcases hR with rfl | rfl | rfl <;> rfl
  obtain ⟨h1, h2, h3, h4⟩ := combineMeta_ok P.md Q.md md hP hQ hc hm
  rw [hRmd]
  refine ⟨h1, ?_, ?_, ?_⟩
  · rw [h2, List.filter_eq_nil_iff.2 (by simpa using hn), List.append_nil]
  · rintro c rfl
    rw [combineOperand] at hco
    simp only [Except.ok.injEq, Prod.mk.injEq] at hco
    exact hco.1.symm
  · rintro s rfl name ix hs
    obtain ⟨name', ix', hs', h⟩ := hsym s rfl
    rw [hs'] at hs
    cases hs
    constructor
    · intro hno
      rcases h with h | ⟨-, h5, h6⟩
      · exact absurd h.1 hno
      · constructor
        · unfold combineMeta at hm
          rw [h5, mergeVars] at hm
          cases hm
          rfl
        · rw [h3, h6]
          by_cases hp : s ∈ P.md.params <;> simp [hp]
    · intro hyes
      rcases h with ⟨-, h5, h6⟩ | h
      · refine ⟨by rw [h3, h5]; simp, fun t => ?_⟩
        rw [h4, h6, List.mem_singleton]
      · exact absurd hyes h.1

/-- **C136.** A symbol that appears with an index where the polynomial has a scalar variable, or without one where it has an array,
is rejected. -/
theorem C136_mixed_rejected (P : PolyObj) (hP : P.md.WF) (s : Sym) (v : List Char × Option (List ℕ)) (hv : v ∈ P.md.vars)
    (ix : Option ℕ) (hs : splitNat s = .ok (v.1, ix)) (h : v.2.isSome ≠ ix.isSome) :
    P.addOperand (.symbol s) = .error .assertionError ∧ P.subOperand (.symbol s) = .error .assertionError ∧
      P.mulOperand (.symbol s) = .error .assertionError := by
  have hco : combineOperand P.md (.symbol s) = .error .assertionError := by
    obtain ⟨jx, hj⟩ := splitNat_of hs
    have hsp : s ∉ P.md.params := by
      intro hsp
      obtain ⟨name', ix'', h1, h2⟩ := hP.params s hsp
      rw [hj] at h1
      cases h1
      exact h2 (List.mem_map.2 ⟨v, hv, rfl⟩)
    simp only [combineOperand, if_neg hsp, hs]
    cases hf : P.md.vars.findIdx? (fun w => w.1 = v.1) with
    | none =>
      rw [List.findIdx?_eq_none_iff] at hf
      have := hf v hv
      simp at this
    | some k =>
      simp only
      rw [List.findIdx?_eq_some_iff_getElem] at hf
      obtain ⟨hk, hkv, -⟩ := hf
      have : P.md.vars[k] = v := List.inj_on_of_nodup_map hP.namesNodup (List.getElem_mem hk) hv (by simpa using hkv)
      rw [List.getElem?_eq_getElem hk, this, Option.bind_some]
      cases h1 : v.2 <;> cases ix <;> simp_all
  simp [PolyObj.addOperand, PolyObj.subOperand, PolyObj.mulOperand, hco]

/-- `examplePoly` with the new index `z1`, and with a new parameter. -/
example (ρ : Sym → ℂ) : (∃ x A, examplePoly.callAt ρ = .ok x ∧ examplePoly.mulOperand (.symbol (mergeSubscript "z".toList 1)) = .ok A ∧
      A.callAt ρ = .ok (x * ρ (mergeSubscript "z".toList 1))) ∧
    ∃ x A, examplePoly.callAt ρ = .ok x ∧ examplePoly.addOperand (.symbol "t".toList) = .ok A ∧
      A.callAt ρ = .ok (x + ρ "t".toList) ∧ A.md.params = examplePoly.md.params ++ ["t".toList] := by
  constructor
  · obtain ⟨x, A, S, M, h1, -, -, -, -, h6, h7⟩ := C136_arithmetic_partial examplePoly exampleMeta_wf examplePoly_declared examplePoly_real
      (.symbol (mergeSubscript "z".toList 1)) (Or.inr (Or.inl ⟨("z".toList, some [0, 2, 5]), by decide, _, 1, rfl, rfl⟩)) ρ
    exact ⟨x, M, h1, h6, h7⟩
  · have hf : Operand.Fits examplePoly.md (.symbol "t".toList) := Or.inr (Or.inr ⟨"t".toList, none, by
      unfold splitNat
      rw [splitSubscript_good _ (by decide)], by decide⟩)
    obtain ⟨x, A, S, M, h1, h2, h3, -⟩ := C136_arithmetic_partial examplePoly exampleMeta_wf examplePoly_declared examplePoly_real
      (.symbol "t".toList) hf ρ
    refine ⟨x, A, h1, h2, h3, ?_⟩
    obtain ⟨-, -, -, h4⟩ := C136_metadata examplePoly exampleMeta_wf _ hf A (Or.inl h2)
    have := (h4 "t".toList rfl "t".toList none (by
      unfold splitNat
      rw [splitSubscript_good _ (by decide)])).1 (by decide)
    rw [this.2]
    exact if_neg (by decide)

/-- **C136 is violated** for a symbol written with an underscore: `z_1` is accepted as entry `1` of the variable `z`, but the
polynomial keeps the symbol `z_1`, and calling `z0 + z_1` with two expressions does not replace it, in whatever order sympy visits
the substitutions. -/
theorem C136_underscore_violated (order : List (Sym × Expr) → List (Sym × Expr)) (ho : ∀ l, (order l).Perm l) :
    let P : PolyObj := ⟨⟨[("z".toList, some [0])], []⟩, X (mergeSubscript "z".toList 0), [mergeSubscript "z".toList 0]⟩
    ∃ R, P.addOperand (.symbol "z_1".toList) = .ok R ∧ R.md = ⟨[("z".toList, some [0, 1])], []⟩ ∧
      ∃ r, callSym R.md (polyExpr R.poly) [.vec [.int 5, .int 7]] (some []) order = some r ∧
        ∃ ρ : Sym → ℂ, r.value ρ ≠ 5 + 7 := by
  intro P
  have hs : splitNat "z_1".toList = .ok ("z".toList, some 1) := by
    have := splitSubscript_underscore "z".toList (by decide) 1
    unfold splitNat
    rw [show "z_1".toList = "z".toList ++ '_' :: natStr 1 from by decide, this]
    simp
  have hu : unionIndices [0] [1] = [0, 1] := by
    simp [unionIndices, unionLoop, fetch, addIfNew]
  have hco : combineOperand P.md (.symbol "z_1".toList) = .ok (⟨[("z".toList, some [0, 1])], []⟩, ["z_1".toList]) := by
    simp only [combineOperand, hs, P]
    simp [List.findIdx?_cons, hu]
  set m : Meta := ⟨[("z".toList, some [0, 1])], []⟩ with hm
  refine ⟨⟨m, P.poly + X "z_1".toList, combineGens P.gens ["z_1".toList]⟩, ?_, rfl, ?_⟩
  · unfold PolyObj.addOperand
    rw [hco]
    rfl
  · have hwf : m.WF := by
      refine ⟨by simp [m, Meta.names], ?_, ?_, by simp [m], by simp [m]⟩
      · intro v hv
        rw [List.mem_singleton.1 hv]
        decide
      · intro v hv inds hi
        rw [List.mem_singleton.1 hv] at hi
        cases hi
        decide
    obtain ⟨r, hr, hval⟩ := C41_symbolic_partial m hwf (polyExpr (P.poly + X "z_1".toList))
      (fun s => if s = mergeSubscript "z".toList 0 then .int 5 else .int 7)
      (fun s _ t ht _ => by
        split_ifs at ht <;> simp [Expr.symbols] at ht) order ho
    refine ⟨r, hr, fun _ => 0, ?_⟩
    rw [hval, polyExpr_value]
    simp only [P, map_add, eval_X]
    rw [if_pos (show mergeSubscript "z".toList 0 ∈ m.allSymbols by decide), if_pos trivial,
      if_neg (show "z_1".toList ∉ m.allSymbols by decide)]
    simp [Expr.value]

end Cyjax
