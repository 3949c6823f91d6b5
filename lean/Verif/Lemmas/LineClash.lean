import Verif.Lemmas.LineKinds
import Verif.Lemmas.ExampleCubic

/-! # A parameter with the name of a symbol of the line

The variety `p_0*z0 + z1 = 0` with parameter `p_0`. `sample_intersect` uses the symbols `p_0, p_1, q_0, q_1, t` itself. -/

namespace Cyjax.Variety

open Cyjax.Polynomial MvPolynomial

/-! ## Evaluation when the names clash -/

mutual
/-- Evaluation only needs that every symbol can be read. -/
theorem compileExpr_read (m : Meta) (env : List (List Char × Val)) (par : Option (List ℂ)) (ρ : Sym → ℂ) :
    (e : Expr) → e.Real → (∀ s ∈ e.symbols, ∃ f, compileSym m s = .ok f ∧ f env par = .ok (ρ s)) →
    ∃ f, compileExpr m e = .ok f ∧ f env par = .ok (e.value ρ)
  | .sym s, _, hs => by
    simpa only [compileExpr, Expr.value] using hs s (by simp [Expr.symbols])
  | .int n, _, _ => ⟨_, by rw [compileExpr], by simp [Expr.value]⟩
  | .float n, _, _ => ⟨_, by rw [compileExpr], by simp [Expr.value]⟩
  | .imagUnit, h, _ => by simp [Expr.Real] at h
  | .other, h, _ => by simp [Expr.Real] at h
  | .add args, h, hs => by
    obtain ⟨fs, h1, h2⟩ := compileList_read m env par ρ args (by simpa [Expr.Real] using h)
      (by simpa [Expr.symbols] using hs)
    refine ⟨applyOp pySum fs, by simp only [compileExpr, h1], ?_⟩
    simp only [applyOp, h2, Expr.value, pySum_eq]
  | .mul args, h, hs => by
    obtain ⟨fs, h1, h2⟩ := compileList_read m env par ρ args (by simpa [Expr.Real] using h)
      (by simpa [Expr.symbols] using hs)
    refine ⟨applyOp Util.prod fs, by simp only [compileExpr, h1], ?_⟩
    simp only [applyOp, h2, Expr.value, prod_eq]
  | .pow b n, h, hs => by
    obtain ⟨f, h1, h2⟩ := compileExpr_read m env par ρ b (by simpa [Expr.Real] using h)
      (by simpa [Expr.symbols] using hs)
    exact ⟨powFn f n, by simp only [compileExpr, h1], by simp only [powFn, h2, Expr.value]⟩

theorem compileList_read (m : Meta) (env : List (List Char × Val)) (par : Option (List ℂ)) (ρ : Sym → ℂ) :
    (es : List Expr) → Expr.RealList es →
    (∀ s ∈ Expr.symbolsList es, ∃ f, compileSym m s = .ok f ∧ f env par = .ok (ρ s)) →
    ∃ fs, compileList m es = .ok fs ∧ runAll env par fs = .ok (Expr.values ρ es)
  | [], _, _ => ⟨[], by simp only [compileList], by simp only [runAll, Expr.values]⟩
  | e :: es, h, hs => by
    rw [Expr.RealList] at h
    rw [Expr.symbolsList] at hs
    obtain ⟨f, h1, h2⟩ := compileExpr_read m env par ρ e h.1 (fun s hs' => hs s (List.mem_append_left _ hs'))
    obtain ⟨fs, h3, h4⟩ := compileList_read m env par ρ es h.2 (fun s hs' => hs s (List.mem_append_right _ hs'))
    exact ⟨f :: fs, by simp only [compileList, h1, h3], by simp only [runAll, h2, h4, Expr.values]⟩
end

/-! ## The polynomial -/

/-- The parameter `p_0`, which is also the first symbol of `sympy.symarray('p', 2)`. -/
def clashParam : Sym := "p_0".toList

/-- `p_0*z0 + z1` with the parameter `p_0`. -/
noncomputable def clashPoly : PolyObj :=
  ⟨⟨[("z".toList, some [0, 1])], [clashParam]⟩, X clashParam * X "z0".toList + X "z1".toList, ["z0".toList, "z1".toList]⟩

theorem clash_split : splitSubscript clashParam = .ok (pName, some (0 : ℤ)) := by
  have : clashParam = pName ++ '_' :: natStr 0 := by decide
  rw [this]
  exact arr_indexed good_p 0

theorem clash_proper : Proper clashPoly "z".toList 1 where
  vars := rfl
  wf := by
    refine ⟨by decide, ?_, ?_, by decide, ?_⟩
    · intro v hv
      have : v = ("z".toList, some [0, 1]) := List.mem_singleton.1 hv
      subst this
      decide
    · intro v hv inds hi
      have : v = ("z".toList, some [0, 1]) := List.mem_singleton.1 hv
      subst this
      cases hi
      decide
    · intro s hs
      have : s = clashParam := List.mem_singleton.1 hs
      subst this
      exact ⟨_, _, clash_split, by decide⟩
  declared := by
    rw [declared_iff]
    refine Subalgebra.add_mem _ (Subalgebra.mul_mem _ (X_mem_polysIn _ _ ?_) (X_mem_polysIn _ _ ?_))
      (X_mem_polysIn _ _ ?_) <;> decide
  real := by
    rw [realCoeffs_iff]
    simp [clashPoly]

theorem z0_eq : "z0".toList = mergeSubscript "z".toList 0 := by decide
theorem z1_eq : "z1".toList = mergeSubscript "z".toList 1 := by decide

theorem clash_homogeneous : HomogeneousIn clashPoly.poly "z".toList 1 1 := by
  have h0 : HomogeneousIn (X clashParam : MvPolynomial Sym ℂ) "z".toList 1 0 :=
    HomogeneousIn.other fun i h => by
      have h1 := splitSubscript_merge "z".toList (by decide) i
      rw [← h, clash_split] at h1
      simp only [Except.ok.injEq, Prod.mk.injEq] at h1
      exact absurd h1.1 (by decide)
  have h1 : HomogeneousIn (X "z0".toList : MvPolynomial Sym ℂ) "z".toList 1 1 := by
    rw [z0_eq]; exact HomogeneousIn.coord (by decide) (by norm_num)
  have h2 : HomogeneousIn (X "z1".toList : MvPolynomial Sym ℂ) "z".toList 1 1 := by
    rw [z1_eq]; exact HomogeneousIn.coord (by decide) (by norm_num)
  have := (h0.mul h1).add h2
  exact this

/-- The values of the polynomial. -/
theorem clash_defining (x y c : ℂ) : defining (.generic clashPoly) [x, y] (.vec [c]) none = .ok (c * x + y) := by
  have := defining_none clash_proper
    (fun s => if s = clashParam then c else if s = mergeSubscript "z".toList 0 then x else y)
  have e0 : mergeSubscript "z".toList 0 ≠ clashParam := by decide
  have e1 : mergeSubscript "z".toList 1 ≠ clashParam := by decide
  have e2 : mergeSubscript "z".toList 1 ≠ mergeSubscript "z".toList 0 := by decide
  simp only [List.ofFn_succ, List.ofFn_zero, Meta.paramInput, clashPoly, map_add, map_mul, eval_X, z0_eq, z1_eq,
    Fin.val_zero, Fin.val_succ, zero_add, if_neg e0, if_neg e1, if_neg e2, if_true, List.map_cons, List.map_nil] at this
  exact this

/-! ## The expression on the line -/

/-- What is put in for the symbols. -/
def clashSubst (s : Sym) : Expr :=
  if s = mergeSubscript "z".toList 0 then lineExpr 0 else if s = mergeSubscript "z".toList 1 then lineExpr 1 else .sym s

theorem clash_call {o : SymOrder} (ho : o.Valid) : ∃ e,
    (HomKind.generic clashPoly).callSymbolic (lineExprs 2) (clashPoly.md.params.map .sym) o.subst = .ok e ∧ e.Real ∧
      (∀ s ∈ e.symbols, s ∈ ["t".toList, "p_0".toList, "p_1".toList, "q_0".toList, "q_1".toList]) ∧
      ∀ τ : Sym → ℂ, e.value τ = τ "p_0".toList * (τ "p_0".toList + τ "t".toList * τ "q_0".toList) +
        (τ "p_1".toList + τ "t".toList * τ "q_1".toList) := by
  have hall : clashPoly.md.allSymbols = [mergeSubscript "z".toList 0, mergeSubscript "z".toList 1, clashParam] := rfl
  have s0 : clashSubst (mergeSubscript "z".toList 0) = lineExpr 0 := if_pos rfl
  have s1 : clashSubst (mergeSubscript "z".toList 1) = lineExpr 1 := by
    unfold clashSubst; rw [if_neg (by decide), if_pos rfl]
  have s2 : clashSubst clashParam = .sym clashParam := by
    unfold clashSubst; rw [if_neg (by decide), if_neg (by decide)]
  have l0 : (lineExpr 0).symbols = ["p_0".toList, "t".toList, "q_0".toList] := by
    simp only [lineExpr, Expr.symbols, Expr.symbolsList]; decide
  have l1 : (lineExpr 1).symbols = ["p_1".toList, "t".toList, "q_1".toList] := by
    simp only [lineExpr, Expr.symbols, Expr.symbolsList]; decide
  obtain ⟨r, r1, r2⟩ := C41_symbolic_partial clashPoly.md clash_proper.wf (polyExpr clashPoly.poly) clashSubst (by
    intro s hs t ht hta
    have key : t ∈ ["p_0".toList, "t".toList, "q_0".toList, "p_1".toList, "q_1".toList] := by
      rw [hall] at hs
      simp only [List.mem_cons, List.not_mem_nil, or_false] at hs
      rcases hs with rfl | rfl | rfl
      · rw [s0, l0] at ht; revert t; decide
      · rw [s1, l1] at ht; revert t; decide
      · rw [s2, Expr.symbols] at ht; revert t; decide
    have : t = clashParam := by
      rw [hall] at hta
      clear ht
      revert t; decide
    rw [this, s2]) o.subst ho.subst
  have hin : clashPoly.md.vars.map (symInput clashSubst) = [.vec (lineExprs 2)] := by
    rw [lineExprs_eq]
    simp only [clashPoly, List.map_cons, List.map_nil, symInput, s0, s1]
    rfl
  have hpar : clashPoly.md.params.map clashSubst = clashPoly.md.params.map .sym := by
    simp only [clashPoly, List.map_cons, List.map_nil, s2]
  have hr : r = Expr.substSeq (o.subst (clashPoly.md.allSymbols.map fun s => (s, clashSubst s))) (polyExpr clashPoly.poly) := by
    have hitems : symSubs clashPoly.md (clashPoly.md.vars.map (symInput clashSubst)) (some (clashPoly.md.params.map clashSubst)) =
        some (clashPoly.md.allSymbols.map fun s => (s, clashSubst s)) := by
      unfold symSubs
      rw [collectValues_symInput, Option.map_some, Option.getD_some, ← List.map_append]
      exact congrArg some (zip_map_self _ clashSubst)
    unfold callSym at r1
    rw [hitems, Option.map_some] at r1
    exact (Option.some.inj r1).symm
  have hmem : ∀ x ∈ o.subst (clashPoly.md.allSymbols.map fun s => (s, clashSubst s)),
      x = (mergeSubscript "z".toList 0, lineExpr 0) ∨ x = (mergeSubscript "z".toList 1, lineExpr 1) ∨
        x = (clashParam, .sym clashParam) := by
    intro x hx
    have := (ho.subst _).mem_iff.1 hx
    rw [hall] at this
    simp only [List.map_cons, List.map_nil, s0, s1, s2, List.mem_cons, List.not_mem_nil, or_false] at this
    exact this
  refine ⟨r, ?_, ?_, ?_, ?_⟩
  · unfold HomKind.callSymbolic
    simp only
    rw [← hin, ← hpar, r1]
  · rw [hr]
    apply substSeq_real _ _ _ ((polyExpr_real _).2 clash_proper.real)
    intro x hx
    rcases hmem x hx with rfl | rfl | rfl
    · exact lineExpr_real 0
    · exact lineExpr_real 1
    · simp [Expr.Real]
  · rw [hr]
    apply substSeq_symbols _ (fun s => s ∈ ["t".toList, "p_0".toList, "p_1".toList, "q_0".toList, "q_1".toList])
    · intro x hx t ht
      rcases hmem x hx with rfl | rfl | rfl
      · simp only [l0] at ht; revert t; decide
      · simp only [l1] at ht; revert t; decide
      · simp only [Expr.symbols] at ht; revert t; decide
    · intro t ht
      right
      have ht' := clash_proper.declared t (polyExpr_symbols _ t ht)
      rw [List.mem_map]
      exact ⟨(t, clashSubst t), (ho.subst _).mem_iff.2 (List.mem_map_of_mem (f := fun s => (s, clashSubst s)) ht'), rfl⟩
  · intro τ
    rw [r2, polyExpr_value]
    simp only [clashPoly, map_add, map_mul, eval_X]
    change (if clashParam ∈ clashPoly.md.allSymbols then _ else _) * (if "z0".toList ∈ clashPoly.md.allSymbols then _ else _)
      + (if "z1".toList ∈ clashPoly.md.allSymbols then _ else _) = _
    rw [if_pos (by rw [hall]; decide), if_pos (by rw [hall]; decide), if_pos (by rw [hall]; decide), z0_eq, z1_eq, s0, s1, s2,
      lineExpr_value, lineExpr_value]
    rfl

/-! ## The polynomial in `t` -/

/-- The metadata of the polynomial on the line. -/
def clashMeta : Meta := lineMeta 2 [clashParam]

/-- The polynomial on the line as `from_sympy` makes it: the parameter `p_0` and the first entry of `p` are the same symbol. -/
noncomputable def clashLine : MvPolynomial Sym ℂ :=
  X clashParam * (X clashParam + X "t".toList * X "q0".toList) + (X "p1".toList + X "t".toList * X "q1".toList)

theorem clashLine_vars : ∀ g ∈ clashLine.vars, g ∈ clashMeta.varSyms ∨ g ∈ clashMeta.params := by
  have : PolyObj.Declared ⟨clashMeta, clashLine, []⟩ := by
    rw [declared_iff]
    refine Subalgebra.add_mem _ (Subalgebra.mul_mem _ (X_mem_polysIn _ _ ?_) (Subalgebra.add_mem _ (X_mem_polysIn _ _ ?_)
      (Subalgebra.mul_mem _ (X_mem_polysIn _ _ ?_) (X_mem_polysIn _ _ ?_)))) (Subalgebra.add_mem _ (X_mem_polysIn _ _ ?_)
      (Subalgebra.mul_mem _ (X_mem_polysIn _ _ ?_) (X_mem_polysIn _ _ ?_))) <;> decide
  exact fun g hg => List.mem_append.1 (this g hg)

theorem clash_fromSympy {p : MvPolynomial Sym ℂ}
    (hp : p = X clashParam * (X clashParam + X "t".toList * X "q_0".toList) + (X "p_1".toList + X "t".toList * X "q_1".toList))
    (free : List Sym) (hnd : free.Nodup)
    (hs : ∀ s ∈ free, s ∈ ["t".toList, "p_0".toList, "p_1".toList, "q_0".toList, "q_1".toList])
    (hf : ∀ s ∈ ["t".toList, "p_0".toList, "p_1".toList, "q_0".toList, "q_1".toList], s ∈ free) :
    fromSympy ⟨some [tName, pName, qName], some [clashParam], some [none, some (List.range 2), some (List.range 2)]⟩ p free =
      .ok ⟨clashMeta, clashLine, clashMeta.varSyms⟩ := by
  set ns := [tName, pName, qName] with hns
  set a : FromSympyArgs := ⟨some ns, some [clashParam], some [none, some (List.range 2), some (List.range 2)]⟩ with ha
  have hmix : NoMix a free := by intro h; cases h
  have k0 : symKind a ns "p_0".toList = .skip := by
    unfold symKind
    rw [if_pos (by simp [ha, clashParam])]
  have kt : symKind a ns "t".toList = .scalar 0 :=
    symKind_scalar_iff.2 ⟨by rw [ha]; decide, tName, by simp [ns], by decide, splitSubscript_good tName good_t⟩
  have kp : symKind a ns "p_1".toList = .idx 1 1 (mergeSubscript pName 1) :=
    symKind_idx_iff.2 ⟨by rw [ha]; decide, pName, by simp [ns], by decide, arr_indexed good_p 1, rfl⟩
  have kq0 : symKind a ns "q_0".toList = .idx 2 0 (mergeSubscript qName 0) :=
    symKind_idx_iff.2 ⟨by rw [ha]; decide, qName, by simp [ns], by decide, arr_indexed good_q 0, rfl⟩
  have kq1 : symKind a ns "q_1".toList = .idx 2 1 (mergeSubscript qName 1) :=
    symKind_idx_iff.2 ⟨by rw [ha]; decide, qName, by simp [ns], by decide, arr_indexed good_q 1, rfl⟩
  have hcases : ∀ s ∈ free, s = "t".toList ∨ s = "p_0".toList ∨ s = "p_1".toList ∨ s = "q_0".toList ∨ s = "q_1".toList := by
    intro s h
    have := hs s h
    simp only [List.mem_cons, List.not_mem_nil, or_false] at this
    exact this
  have hok : ∀ s ∈ free, okSym a ns s := by
    intro s hsf
    unfold okSym
    rcases hcases s hsf with rfl | rfl | rfl | rfl | rfl
    · rw [kt]
      intro I hI
      simp only [ha, Option.some.injEq] at hI
      rw [← hI]; rfl
    · rw [k0]; trivial
    · rw [kp]
      intro I hI
      simp only [ha, Option.some.injEq] at hI
      rw [← hI]
      exact ⟨_, rfl, by decide⟩
    · rw [kq0]
      intro I hI
      simp only [ha, Option.some.injEq] at hI
      rw [← hI]
      exact ⟨_, rfl, by decide⟩
    · rw [kq1]
      intro I hI
      simp only [ha, Option.some.injEq] at hI
      rw [← hI]
      exact ⟨_, rfl, by decide⟩
  obtain ⟨app, hscan⟩ := (scan_ok_iff a ns rfl free hnd (noMix_kind hmix ns)).1 hok
  have hpar : free.filter (fun v => isPar (symKind a ns v)) = [] := by
    rw [List.filter_eq_nil_iff]
    intro s hsf
    rcases hcases s hsf with rfl | rfl | rfl | rfl | rfl
    · rw [kt]; simp [isPar]
    · rw [k0]; simp [isPar]
    · rw [kp]; simp [isPar]
    · rw [kq0]; simp [isPar]
    · rw [kq1]; simp [isPar]
  have hmd : finishMeta a (stateOf a ns free app) = clashMeta := by
    unfold finishMeta stateOf
    rw [hpar]
    simp [ha, indsOf, clashMeta, lineMeta, ns]
  have hq : rename (renameSym (stateOf a ns free app).rename) p = clashLine := by
    have e0 : renameSym (stateOf a ns free app).rename clashParam = clashParam := by
      have k0' : symKind a ns clashParam = .skip := k0
      rw [renameSym_stateOf, k0']
    have et : renameSym (stateOf a ns free app).rename "t".toList = "t".toList := by
      rw [renameSym_stateOf, kt]
    have ep : renameSym (stateOf a ns free app).rename "p_1".toList = "p1".toList := by
      rw [renameSym_stateOf, kp]
      simp only
      rw [if_pos (hf _ (by simp))]
      decide
    have eq0 : renameSym (stateOf a ns free app).rename "q_0".toList = "q0".toList := by
      rw [renameSym_stateOf, kq0]
      simp only
      rw [if_pos (hf _ (by simp))]
      decide
    have eq1 : renameSym (stateOf a ns free app).rename "q_1".toList = "q1".toList := by
      rw [renameSym_stateOf, kq1]
      simp only
      rw [if_pos (hf _ (by simp))]
      decide
    rw [hp]
    simp only [map_add, map_mul, rename_X, e0, et, ep, eq0, eq1]
    rfl
  unfold fromSympy
  rw [if_neg (by simp [ha, ns]), hscan]
  unfold finish
  simp only
  rw [if_neg (by simp only [stateOf, hns]; decide), if_neg (by simp [stateOf, indsOf, ha, ns]), hmd, hq, if_neg]
  rintro (h | h | ⟨g, hg, hg'⟩ | ⟨g, hg, hg', hg''⟩)
  · revert h; decide
  · revert h; decide
  · revert g; decide
  · exact (clashLine_vars g hg).elim hg' hg''

theorem clash_intersect {o : SymOrder} (ho : o.Valid) :
    intersectPoly (.generic clashPoly) o = .ok ⟨clashMeta, clashLine, clashMeta.varSyms⟩ := by
  obtain ⟨e, h1, h2, h3, h4⟩ := clash_call ho
  obtain ⟨p, g1, g2, g3, g4⟩ := expand_ok e h2
  have hp : p = X clashParam * (X clashParam + X "t".toList * X "q_0".toList) +
      (X "p_1".toList + X "t".toList * X "q_1".toList) := by
    apply MvPolynomial.funext
    intro τ
    rw [g3, h4]
    simp only [map_add, map_mul, eval_X]
    rfl
  have hmem : ∀ s ∈ ["t".toList, "p_0".toList, "p_1".toList, "q_0".toList, "q_1".toList], s ∈ p.vars := by
    intro s hs
    by_contra hcon
    -- the value would not depend on `s`
    have hind : ∀ (τ : Sym → ℂ) (c : ℂ), eval (Function.update τ s c) p = eval τ p := by
      intro τ c
      refine eval₂Hom_congr' rfl (fun t ht _ => ?_) rfl
      rw [Function.update_of_ne]
      rintro rfl
      exact hcon ht
    rw [hp] at hind
    simp only [map_add, map_mul, eval_X] at hind
    simp only [List.mem_cons, List.not_mem_nil, or_false] at hs
    rcases hs with rfl | rfl | rfl | rfl | rfl
    · have := hind (fun _ => 1) 0
      rw [Function.update_of_ne (by decide), Function.update_self, Function.update_of_ne (by decide),
        Function.update_of_ne (by decide), Function.update_of_ne (by decide)] at this
      norm_num at this
    · have := hind (fun _ => 1) 0
      rw [show clashParam = "p_0".toList from rfl, Function.update_self, Function.update_of_ne (by decide),
        Function.update_of_ne (by decide), Function.update_of_ne (by decide), Function.update_of_ne (by decide)] at this
      norm_num at this
    · have := hind (fun _ => 1) 0
      rw [Function.update_of_ne (by decide), Function.update_of_ne (by decide), Function.update_of_ne (by decide),
        Function.update_self, Function.update_of_ne (by decide)] at this
      norm_num at this
    · have := hind (fun _ => 1) 0
      rw [Function.update_of_ne (by decide), Function.update_of_ne (by decide), Function.update_self,
        Function.update_of_ne (by decide), Function.update_of_ne (by decide)] at this
      norm_num at this
    · have := hind (fun _ => 1) 0
      rw [Function.update_of_ne (by decide), Function.update_of_ne (by decide), Function.update_of_ne (by decide),
        Function.update_of_ne (by decide), Function.update_self] at this
      norm_num at this
  unfold intersectPoly
  have hdim : dimComplex (.generic clashPoly) = .ok 2 := rfl
  rw [hdim]
  simp only
  rw [show (HomKind.generic clashPoly).md = clashPoly.md from rfl, h1]
  simp only
  rw [symArrayArgs_line (by norm_num)]
  simp only
  rw [g1]
  exact clash_fromSympy hp (o.free e) (ho.nodup e) (fun s hs => h3 s (ho.mem e s hs))
    (fun s hs => ho.vars e p g1 s (hmem s hs))

/-- The values that evaluation reads: the symbol `p_0` gives the first entry of `p`, whatever the parameter is. -/
noncomputable def clashVal (p0 p1 q0 q1 : ℂ) (s : Sym) : ℂ :=
  if s = clashParam ∨ s = "p0".toList then p0 else if s = "p1".toList then p1 else if s = "q0".toList then q0
  else if s = "q1".toList then q1 else 0

theorem clash_eval (p0 p1 q0 q1 c : ℂ) (k : ℕ) (Q : UCoeff)
    (hQ : Q = if (uniCoeff clashLine tName k).vars = ∅ then .num (constantCoeff (uniCoeff clashLine tName k)) else
      .poly ⟨constMeta clashMeta tName, uniCoeff clashLine tName k, (constMeta clashMeta tName).varSyms⟩) :
    callCoeff [.vec [p0, p1], .vec [q0, q1], .vec [c]] Q =
      .ok (eval (clashVal p0 p1 q0 q1) (uniCoeff clashLine tName k)) := by
  have hreal : RealCoeffs clashLine := by
    rw [realCoeffs_iff]
    simp [clashLine]
  subst hQ
  split_ifs with h
  · simp only [callCoeff]
    rw [vars_eq_empty_iff_eq_C] at h
    rw [h]
    simp
  · have hmd : constMeta clashMeta tName = ⟨[(pName, some [0, 1]), (qName, some [0, 1])], [clashParam]⟩ :=
      constMeta_line (by norm_num) _
    simp only [callCoeff, PolyObj.call]
    rw [hmd]
    unfold callNum
    have hsort : sortVarArgs Val.len (Meta.names ⟨[(pName, some [0, 1]), (qName, some [0, 1])], [clashParam]⟩)
        (List.length [clashParam]) [.vec [p0, p1], .vec [q0, q1], .vec [c]] [] =
        .ok ([.vec [p0, p1], .vec [q0, q1]], some (.vec [c])) := by
      have := sortVarArgs_positional Val.len (Meta.names ⟨[(pName, some [0, 1]), (qName, some [0, 1])], [clashParam]⟩)
        (List.length [clashParam]) [.vec [p0, p1], .vec [q0, q1]] (.vec [c]) rfl rfl [] rfl
      exact this
    rw [hsort]
    simp only [Option.map_some]
    obtain ⟨f, f1, f2⟩ := compileExpr_read ⟨[(pName, some [0, 1]), (qName, some [0, 1])], [clashParam]⟩
      [(pName, .vec [p0, p1]), (qName, .vec [q0, q1])] (some [c]) (clashVal p0 p1 q0 q1)
      (polyExpr (uniCoeff clashLine tName k)) ((polyExpr_real _).2 (uniCoeff_real _ hreal _ _)) (by
        intro s hs
        obtain ⟨g1, g2⟩ := uniCoeff_vars _ _ _ _ (polyExpr_symbols _ s hs)
        have hcase : s = clashParam ∨ s = "p0".toList ∨ s = "p1".toList ∨ s = "q0".toList ∨ s = "q1".toList := by
          have := List.mem_append.2 (clashLine_vars s g1)
          clear g1 hs
          revert g2
          revert this
          revert s
          decide
        rcases hcase with rfl | rfl | rfl | rfl | rfl
        · refine ⟨readVec pName 0, ?_, ?_⟩
          · unfold compileSym
            rw [clash_split]
            rfl
          · rfl
        · refine ⟨readVec pName 0, ?_, ?_⟩
          · unfold compileSym
            rw [show "p0".toList = mergeSubscript pName 0 by decide, splitSubscript_merge pName good_p]
            rfl
          · rfl
        · refine ⟨readVec pName 1, ?_, ?_⟩
          · unfold compileSym
            rw [show "p1".toList = mergeSubscript pName 1 by decide, splitSubscript_merge pName good_p]
            rfl
          · rfl
        · refine ⟨readVec qName 0, ?_, ?_⟩
          · unfold compileSym
            rw [show "q0".toList = mergeSubscript qName 0 by decide, splitSubscript_merge qName good_q]
            rfl
          · rfl
        · refine ⟨readVec qName 1, ?_, ?_⟩
          · unfold compileSym
            rw [show "q1".toList = mergeSubscript qName 1 by decide, splitSubscript_merge qName good_q]
            rfl
          · rfl)
    unfold evalNum
    rw [f1]
    simp only
    rw [polyExpr_value] at f2
    exact f2

/-- The value of the polynomial on the line, as evaluation reads it. -/
theorem clash_line_eval (p0 p1 q0 q1 x : ℂ) : eval (Function.update (clashVal p0 p1 q0 q1) tName x) clashLine =
    p0 * (p0 + x * q0) + (p1 + x * q1) := by
  simp only [clashLine, map_add, map_mul, eval_X]
  rw [Function.update_of_ne (by decide), show "t".toList = tName from rfl, Function.update_self,
    Function.update_of_ne (by decide), Function.update_of_ne (by decide), Function.update_of_ne (by decide)]
  rfl

theorem clash_degree : degreeOf tName clashLine = 1 := by
  refine le_antisymm ?_ ?_
  · have hX : ∀ s : Sym, degreeOf tName (X s : MvPolynomial Sym ℂ) ≤ if tName = s then 1 else 0 := fun s => by
      rw [degreeOf_X]
    have h0 : ∀ s : Sym, s ≠ tName → degreeOf tName (X s : MvPolynomial Sym ℂ) = 0 := fun s hs => by
      rw [degreeOf_X, if_neg hs.symm]
    have ht : degreeOf tName (X "t".toList : MvPolynomial Sym ℂ) ≤ 1 := by
      refine (hX _).trans ?_
      split_ifs <;> norm_num
    have m1 : degreeOf tName (X "t".toList * X "q0".toList : MvPolynomial Sym ℂ) ≤ 1 := by
      refine (degreeOf_mul_le _ _ _).trans ?_
      rw [h0 "q0".toList (by decide)]
      simpa using ht
    have m2 : degreeOf tName (X "t".toList * X "q1".toList : MvPolynomial Sym ℂ) ≤ 1 := by
      refine (degreeOf_mul_le _ _ _).trans ?_
      rw [h0 "q1".toList (by decide)]
      simpa using ht
    unfold clashLine
    refine (degreeOf_add_le _ _ _).trans (max_le ?_ ?_)
    · refine (degreeOf_mul_le _ _ _).trans ?_
      rw [h0 clashParam (by decide), zero_add]
      refine (degreeOf_add_le _ _ _).trans (max_le ?_ m1)
      rw [h0 clashParam (by decide)]
      norm_num
    · refine (degreeOf_add_le _ _ _).trans (max_le ?_ m2)
      rw [h0 "p1".toList (by decide)]
      norm_num
  · by_contra hlt
    have hd : degreeOf tName clashLine = 0 := by omega
    have hsum := sum_uniCoeff clashLine tName
    rw [hd] at hsum
    simp only [zero_add, Finset.sum_range_one, pow_zero, mul_one] at hsum
    have hnot := uniCoeff_not_var clashLine tName 0
    rw [hsum] at hnot
    have hind : ∀ x, eval (Function.update (clashVal 0 0 0 1) tName x) clashLine = eval (clashVal 0 0 0 1) clashLine := by
      intro x
      refine eval₂Hom_congr' rfl (fun t ht _ => ?_) rfl
      rw [Function.update_of_ne]
      rintro rfl
      exact hnot ht
    have h1 := (hind 1).trans (hind 0).symm
    rw [clash_line_eval, clash_line_eval] at h1
    norm_num at h1

/-- The point found on the line through `(p0, p1)` in direction `(q0, q1)`. -/
theorem clash_sample {o : SymOrder} (ho : o.Valid) {roots : List ℂ → List ℂ} (hr : ExactRoots roots)
    (c p0 p1 q0 q1 : ℂ) (hq : p0 * q0 + q1 ≠ 0) :
    ∃ x : ℂ, sampleIntersect (.generic clashPoly) o roots [c] 1 [([p0, p1], [q0, q1])] =
        .ok [[p0 + x * q0, p1 + x * q1]] ∧ p0 * (p0 + x * q0) + (p1 + x * q1) = 0 := by
  set v := fun k => eval (clashVal p0 p1 q0 q1) (uniCoeff clashLine tName k) with hv
  have hval : ∀ x, v 0 + v 1 * x = p0 * (p0 + x * q0) + (p1 + x * q1) := by
    intro x
    rw [← clash_line_eval]
    conv_rhs => rw [← sum_uniCoeff clashLine tName]
    rw [clash_degree, Finset.sum_range_succ, Finset.sum_range_one]
    have hind : ∀ k, eval (Function.update (clashVal p0 p1 q0 q1) tName x) (uniCoeff clashLine tName k) = v k := by
      intro k
      refine eval₂Hom_congr' rfl (fun t ht _ => ?_) rfl
      rw [Function.update_of_ne]
      rintro rfl
      exact uniCoeff_not_var _ _ _ ht
    simp only [map_add, map_mul, eval_X, Function.update_self, hind, pow_zero, mul_one, pow_one]
  have h0 : v 0 = p0 * p0 + p1 := by simpa using hval 0
  have h1 : v 1 = p0 * q0 + q1 := by
    have := hval 1
    rw [h0] at this
    linear_combination this
  obtain ⟨hlen, hroot⟩ := hr (v 1) [v 0] (by rw [h1]; exact hq)
  obtain ⟨x, hx⟩ := List.length_eq_one_iff.1 hlen
  have hx0 := hroot x (by rw [hx]; simp)
  have hpoly : polyval [v 1, v 0] x = v 0 + v 1 * x := by
    simp [polyval, Finset.sum_range_succ]
  rw [hpoly, hval] at hx0
  refine ⟨x, ?_, hx0⟩
  unfold sampleIntersect
  rw [clash_intersect ho]
  simp only
  have huni : univariateCoefficients ⟨clashMeta, clashLine, clashMeta.varSyms⟩ tName =
      .ok ([1, 0].map fun k => if (uniCoeff clashLine tName k).vars = ∅ then
        .num (constantCoeff (uniCoeff clashLine tName k)) else
        .poly ⟨constMeta clashMeta tName, uniCoeff clashLine tName k, (constMeta clashMeta tName).varSyms⟩) := by
    unfold univariateCoefficients
    rw [if_neg (by decide), if_neg, clash_degree]
    · rfl
    · rintro ⟨h, -⟩
      have hmd : constMeta clashMeta tName = ⟨[(pName, some [0, 1]), (qName, some [0, 1])], [clashParam]⟩ :=
        constMeta_line (by norm_num) _
      rw [hmd] at h
      cases h
  rw [huni]
  simp only [List.mapM_cons, List.mapM_nil]
  have hsolve : solveIntersect roots ([1, 0].map fun k => if (uniCoeff clashLine tName k).vars = ∅ then
        .num (constantCoeff (uniCoeff clashLine tName k)) else
        .poly ⟨constMeta clashMeta tName, uniCoeff clashLine tName k, (constMeta clashMeta tName).varSyms⟩) [c]
        ([p0, p1], [q0, q1]) = .ok [[p0 + x * q0, p1 + x * q1]] := by
    unfold solveIntersect
    simp only [List.map_cons, List.map_nil, List.mapM_cons, List.mapM_nil]
    rw [clash_eval p0 p1 q0 q1 c 1 _ rfl, clash_eval p0 p1 q0 q1 c 0 _ rfl]
    change Except.ok ((roots [v 1, v 0]).map _) = _
    rw [hx]
    rfl
  rw [hsolve]
  rfl

end Cyjax.Variety
