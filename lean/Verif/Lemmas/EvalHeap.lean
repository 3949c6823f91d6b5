import Verif.Spec.EvalHeap
import Verif.Lemmas.PolyEval

/-! # Evaluation with object identity compared with evaluation on values -/

namespace Cyjax.Polynomial

open Cyjax.Util

/-- Two results: the same error, or related values. -/
inductive ExRel {α β : Type*} (R : α → β → Prop) : Except PyErr α → Except PyErr β → Prop
  | error (e : PyErr) : ExRel R (.error e) (.error e)
  | ok {a : α} {b : β} : R a b → ExRel R (.ok a) (.ok b)

/-- The inputs read at the time of the call. -/
def readVars (h : Heap ℂ) (var : List (List Char × HVal)) : List (List Char × Val) :=
  var.map fun p => (p.1, p.2.read h)

def readPars (h : Heap ℂ) (par : Option (List (Obj ℂ))) : Option (List ℂ) := par.map fun l => l.map (Obj.read h)

/-- No input is a mutable array. -/
def AllImm (var : List (List Char × HVal)) (par : Option (List (Obj ℂ))) : Prop :=
  (∀ p ∈ var, p.2.Imm) ∧ ∀ l ∈ par, ∀ o ∈ l, IsImm o

/-- `g` leaves the heap as it is and gives an object with the value of `f`; an immutable one if `fresh`. With `I`, only for
inputs without mutable arrays. -/
def Sim (I : Prop) (h : Heap ℂ) (fresh : Prop) (f : Fn) (g : HFn) : Prop :=
  ∀ var par, (I → AllImm var par) → ∃ r, g var par h = (h, r) ∧
    ExRel (fun v o => Obj.read h o = v ∧ (fresh → IsImm o)) (f (readVars h var) (readPars h par)) r

theorem dictGet_map {κ β γ : Type*} [DecidableEq κ] (l : List (κ × β)) (f : β → γ) (k : κ) :
    dictGet (l.map fun p => (p.1, f p.2)) k = (dictGet l k).map f := by
  unfold dictGet
  rw [← List.map_reverse, List.find?_map]
  simp only [Option.map_map]
  rfl

theorem readScalar_sim (I : Prop) (h : Heap ℂ) (name : List Char) : Sim I h I (readScalar name) (readScalarH name) := by
  intro var par hI
  unfold readScalar readScalarH readVars
  rw [dictGet_map]
  cases hv : dictGet var name with
  | none => exact ⟨_, rfl, .error _⟩
  | some v =>
    cases v with
    | scalar o => exact ⟨_, rfl, .ok ⟨rfl, fun hi => (hI hi).1 _ (dictGet_mem _ hv)⟩⟩
    | vec l => exact ⟨_, rfl, .error _⟩

theorem readVec_sim (I : Prop) (h : Heap ℂ) (name : List Char) (i : ℕ) : Sim I h I (readVec name i) (readVecH name i) := by
  intro var par hI
  unfold readVec readVecH readVars
  rw [dictGet_map]
  cases hv : dictGet var name with
  | none => exact ⟨_, rfl, .error _⟩
  | some v =>
    cases v with
    | scalar o => exact ⟨_, rfl, .error _⟩
    | vec l =>
      simp only [Option.map_some, HVal.read, List.getElem?_map]
      cases ho : l[i]? with
      | none => exact ⟨_, rfl, .error _⟩
      | some o =>
        refine ⟨_, rfl, .ok ⟨rfl, fun hi => ?_⟩⟩
        exact (hI hi).1 _ (dictGet_mem _ hv) o (List.mem_of_getElem? ho)

theorem readParam_sim (I : Prop) (h : Heap ℂ) (i : ℕ) : Sim I h I (readParam i) (readParamH i) := by
  intro var par hI
  unfold readParam readParamH readPars
  cases par with
  | none => exact ⟨_, rfl, .error _⟩
  | some l =>
    simp only [Option.map_some, List.getElem?_map]
    cases ho : l[i]? with
    | none => exact ⟨_, rfl, .error _⟩
    | some o => exact ⟨_, rfl, .ok ⟨rfl, fun hi => (hI hi).2 l rfl o (List.mem_of_getElem? ho)⟩⟩

theorem compileSym_sim (I : Prop) (h : Heap ℂ) (m : Meta) (s : Sym) : ExRel (Sim I h I) (compileSym m s) (compileSymH m s) := by
  unfold compileSym compileSymH
  cases splitSubscript s with
  | error e => exact .error e
  | ok p =>
    obtain ⟨name, index⟩ := p
    simp only
    split_ifs
    · cases dictGet m.vars name with
      | none => exact .error _
      | some v =>
        cases v with
        | none => exact .ok (readScalar_sim I h name)
        | some inds =>
          cases index with
          | none => exact .error _
          | some i =>
            simp only
            cases dictIndex (inds.map fun (n : ℕ) => (n : ℤ)) i with
            | none => exact .error _
            | some k => exact .ok (readVec_sim I h name k)
    · cases dictIndex m.params s with
      | none => exact .error _
      | some k => exact .ok (readParam_sim I h k)

theorem sumH_sim (I : Prop) (h : Heap ℂ) {fs : List Fn} {gs : List HFn} (hs : List.Forall₂ (Sim I h False) fs gs) (acc : ℂ)
    (var : List (List Char × HVal)) (par : Option (List (Obj ℂ))) (hI : I → AllImm var par) :
    ∃ r, sumH gs acc var par h = (h, r) ∧
      ExRel (fun xs o => o = .imm (xs.foldl (· + ·) acc)) (runAll (readVars h var) (readPars h par) fs) r := by
  induction hs generalizing acc with
  | nil => exact ⟨_, rfl, .ok rfl⟩
  | @cons f g fs gs hfg _ ih =>
    obtain ⟨r, h1, h2⟩ := hfg var par hI
    unfold runAll sumH
    rw [h1]
    revert h2
    generalize f (readVars h var) (readPars h par) = v
    intro h2
    cases h2 with
    | error e => exact ⟨_, rfl, .error e⟩
    | ok h2 =>
      obtain ⟨r', h3, h4⟩ := ih (acc + _)
      refine ⟨r', h3, ?_⟩
      simp only
      revert h4
      generalize runAll (readVars h var) (readPars h par) fs = w
      intro h4
      cases h4 with
      | error e => exact .error e
      | ok h4 => exact .ok (by rw [h4, ← h2.1]; rfl)

/-- The loop of `prod` once the running product is a new object. -/
theorem prodH_imm (I : Prop) (h : Heap ℂ) {fs : List Fn} {gs : List HFn} (hs : List.Forall₂ (Sim I h False) fs gs) (v : ℂ)
    (var : List (List Char × HVal)) (par : Option (List (Obj ℂ))) (hI : I → AllImm var par) :
    ∃ r, prodH gs (some (.imm v)) var par h = (h, r) ∧
      ExRel (fun xs o => ∃ c, o = .imm c ∧ prodLoop (some v) xs = some c)
        (runAll (readVars h var) (readPars h par) fs) r := by
  induction hs generalizing v with
  | nil => exact ⟨_, rfl, .ok ⟨v, rfl, rfl⟩⟩
  | @cons f g fs gs hfg _ ih =>
    obtain ⟨r, h1, h2⟩ := hfg var par hI
    unfold runAll prodH
    rw [h1]
    revert h2
    generalize f (readVars h var) (readPars h par) = w
    intro h2
    cases h2 with
    | error e => exact ⟨_, rfl, .error e⟩
    | @ok a b h2 =>
      obtain ⟨r', h3, h4⟩ := ih (v * b.read h)
      refine ⟨r', h3, ?_⟩
      simp only
      revert h4
      generalize runAll (readVars h var) (readPars h par) fs = w
      intro h4
      cases h4 with
      | error e => exact .error e
      | ok h4 =>
        obtain ⟨c, c1, c2⟩ := h4
        exact .ok ⟨c, c1, by rw [prodLoop, ← h2.1]; exact c2⟩

theorem Sim.weaken {I : Prop} {h : Heap ℂ} {p : Prop} {f : Fn} {g : HFn} (hs : Sim I h p f g) : Sim I h False f g := by
  intro var par hI
  obtain ⟨r, h1, h2⟩ := hs var par hI
  refine ⟨r, h1, ?_⟩
  revert h2
  generalize f (readVars h var) (readPars h par) = w
  intro h2
  cases h2 with
  | error e => exact .error e
  | ok h2 => exact .ok ⟨h2.1, False.elim⟩

/-- A product whose first factor is a new object (or the only factor). -/
theorem prodH_sim (I : Prop) (h : Heap ℂ) {fs : List Fn} {gs : List HFn} (p : Prop) (hs : List.Forall₂ (Sim I h False) fs gs)
    (h0 : ∀ f fs' g gs', fs = f :: fs' → gs = g :: gs' → Sim I h p f g) (hp : ∀ f f' fs', fs = f :: f' :: fs' → p) :
    Sim I h (fs = [] ∨ p) (applyOp Util.prod fs) (prodH gs none) := by
  intro var par hI
  cases hs with
  | nil => exact ⟨_, rfl, .ok ⟨rfl, fun _ => ⟨1, rfl⟩⟩⟩
  | @cons f g fs gs hfg hs =>
    obtain ⟨r, h1, h2⟩ := h0 f fs g gs rfl rfl var par hI
    unfold applyOp runAll prodH
    rw [h1]
    revert h2
    generalize f (readVars h var) (readPars h par) = w
    intro h2
    cases h2 with
    | error e => exact ⟨_, rfl, .error e⟩
    | @ok a b h2 =>
      simp only
      cases hs with
      | nil => exact ⟨_, rfl, .ok ⟨h2.1, fun hq => h2.2 (hq.resolve_left (List.cons_ne_nil _ _))⟩⟩
      | @cons f' g' fs gs hfg' hs' =>
        obtain ⟨c, rfl⟩ := h2.2 (hp f f' fs rfl)
        obtain ⟨r', h3, h4⟩ := prodH_imm I h (List.Forall₂.cons hfg' hs') c var par hI
        refine ⟨r', h3, ?_⟩
        revert h4
        generalize runAll (readVars h var) (readPars h par) (f' :: fs) = w
        intro h4
        cases h4 with
        | error e => exact .error e
        | ok h4 =>
          obtain ⟨d, rfl, d2⟩ := h4
          refine .ok ⟨?_, fun _ => ⟨d, rfl⟩⟩
          have hc : c = a := h2.1
          subst hc
          simp only [Util.prod, prodLoop, d2]
          rfl

theorem powH_sim (I : Prop) (h : Heap ℂ) (n : ℕ) {f : Fn} {g : HFn} (hs : Sim I h False f g) : Sim I h True (powFn f n) (powH g n) := by
  intro var par hI
  obtain ⟨r, h1, h2⟩ := hs var par hI
  unfold powFn powH
  rw [h1]
  revert h2
  generalize f (readVars h var) (readPars h par) = w
  intro h2
  cases h2 with
  | error e => exact ⟨_, rfl, .error e⟩
  | ok h2 => exact ⟨_, rfl, .ok ⟨by rw [← h2.1]; rfl, fun _ => ⟨_, rfl⟩⟩⟩

theorem ExRel.mono {α β : Type*} {R S : α → β → Prop} {a : Except PyErr α} {b : Except PyErr β} (h : ExRel R a b)
    (hRS : ∀ x y, R x y → S x y) : ExRel S a b := by
  cases h with
  | error e => exact .error e
  | ok h => exact .ok (hRS _ _ h)

mutual
theorem compileExpr_sim (I : Prop) (h : Heap ℂ) (m : Meta) : ∀ e : Expr, e.safe I →
    ExRel (Sim I h (e.fresh I)) (compileExpr m e) (compileExprH m e)
  | .sym s, _ => by
    unfold compileExpr compileExprH Expr.fresh
    exact compileSym_sim I h m s
  | .int n, _ => by
    unfold compileExpr compileExprH
    exact .ok fun _ _ _ => ⟨_, rfl, .ok ⟨rfl, fun _ => ⟨_, rfl⟩⟩⟩
  | .float n, _ => by
    unfold compileExpr compileExprH
    exact .ok fun _ _ _ => ⟨_, rfl, .ok ⟨rfl, fun _ => ⟨_, rfl⟩⟩⟩
  | .imagUnit, _ => by
    unfold compileExpr compileExprH
    exact .error _
  | .other, _ => by
    unfold compileExpr compileExprH
    exact .error _
  | .pow b n, hs => by
    unfold Expr.safe at hs
    have ih := compileExpr_sim I h m b hs
    unfold compileExpr compileExprH
    revert ih
    generalize compileExpr m b = x
    generalize compileExprH m b = y
    intro ih
    cases ih with
    | error e => exact .error e
    | ok ih => exact .ok (powH_sim I h n ih.weaken)
  | .add args, hs => by
    unfold Expr.safe at hs
    have ih := compileList_sim I h m args hs
    unfold compileExpr compileExprH
    revert ih
    generalize compileList m args = x
    generalize compileListH m args = y
    intro ih
    cases ih with
    | error e => exact .error e
    | @ok fs gs ih =>
      refine .ok fun var par hI => ?_
      obtain ⟨r, h1, h2⟩ := sumH_sim I h ih.1 0 var par hI
      refine ⟨r, h1, ?_⟩
      unfold applyOp
      revert h2
      generalize runAll (readVars h var) (readPars h par) fs = w
      intro h2
      cases h2 with
      | error e => exact .error e
      | ok h2 => exact .ok ⟨by rw [h2]; rfl, fun _ => ⟨_, h2⟩⟩
  | .mul args, hs => by
    unfold Expr.safe at hs
    have ih := compileList_sim I h m args hs.1
    unfold compileExpr compileExprH
    revert ih
    generalize compileList m args = x
    generalize compileListH m args = y
    intro ih
    cases ih with
    | error e => exact .error e
    | @ok fs gs ih =>
      obtain ⟨i1, i2, i3⟩ := ih
      cases args with
      | nil =>
        have hfs : fs = [] := List.length_eq_zero_iff.1 i2
        refine .ok fun var par hI => ?_
        obtain ⟨r, h1, h2⟩ := prodH_sim I h True i1 (fun f fs' g gs' e => by simp [hfs] at e)
          (fun _ _ _ _ => trivial) var par hI
        exact ⟨r, h1, h2.mono fun x y hxy => ⟨hxy.1, fun _ => hxy.2 (Or.inl hfs)⟩⟩
      | cons e es =>
        refine .ok fun var par hI => ?_
        obtain ⟨r, h1, h2⟩ := prodH_sim I h (e.fresh I) i1
          (fun f fs' g gs' e1 e2 => i3 e es rfl f fs' g gs' e1 e2) (fun f f' fs' e1 => by
            subst e1
            cases es with
            | nil => simp at i2
            | cons e' es => exact hs.2 e e' es rfl) var par hI
        refine ⟨r, h1, h2.mono fun x y hxy => ⟨hxy.1, fun hf => hxy.2 (Or.inr ?_)⟩⟩
        unfold Expr.fresh at hf
        exact hf

theorem compileList_sim (I : Prop) (h : Heap ℂ) (m : Meta) : ∀ es : List Expr, Expr.safeList I es →
    ExRel (fun fs gs => List.Forall₂ (Sim I h False) fs gs ∧ fs.length = es.length ∧
      ∀ e es', es = e :: es' → ∀ f fs' g gs', fs = f :: fs' → gs = g :: gs' → Sim I h (e.fresh I) f g)
      (compileList m es) (compileListH m es)
  | [], _ => by
    unfold compileList compileListH
    exact .ok ⟨.nil, rfl, fun e es' he => by simp at he⟩
  | e :: es, hs => by
    unfold Expr.safeList at hs
    have ih := compileExpr_sim I h m e hs.1
    have ih2 := compileList_sim I h m es hs.2
    unfold compileList compileListH
    revert ih ih2
    generalize compileExpr m e = x
    generalize compileExprH m e = y
    generalize compileList m es = z
    generalize compileListH m es = w
    intro ih ih2
    cases ih with
    | error e => exact .error e
    | ok ih =>
      cases ih2 with
      | error e => exact .error e
      | ok ih2 =>
        refine .ok ⟨.cons ih.weaken ih2.1, by simp [ih2.2.1], ?_⟩
        intro e' es' he f fs' g gs' hf hg
        simp only [List.cons.injEq] at he hf hg
        obtain ⟨rfl, rfl⟩ := he
        obtain ⟨rfl, rfl⟩ := hf
        obtain ⟨rfl, rfl⟩ := hg
        exact ih
end

/-! ## Argument binding -/

theorem kwVariables_map {α β : Type*} (f : α → β) (kwargs : List (List Char × α)) (ns : List (List Char)) :
    kwVariables (kwargs.map fun p => (p.1, f p.2)) ns = (kwVariables kwargs ns).map (List.map f) := by
  induction ns with
  | nil => rfl
  | cons n ns ih =>
    unfold kwVariables
    rw [dictGet_map, ih]
    cases dictGet kwargs n with
    | none => rfl
    | some v =>
      cases kwVariables kwargs ns with
      | error e => rfl
      | ok vs => rfl

theorem sortVarArgs_map {α β : Type*} (f : α → β) (len : α → Option ℕ) (len' : β → Option ℕ)
    (hlen : ∀ x, len' (f x) = len x) (names : List (List Char)) (n : ℕ) (args : List α)
    (kwargs : List (List Char × α)) :
    sortVarArgs len' names n (args.map f) (kwargs.map fun p => (p.1, f p.2)) =
      (sortVarArgs len names n args kwargs).map fun p => (p.1.map f, p.2.map f) := by
  unfold sortVarArgs
  rw [dictGet_map]
  cases hk : dictGet kwargs paramsKey with
  | some p =>
    simp only [Option.map_some]
    have hfil : (kwargs.map fun p => (p.1, f p.2)).filter (fun kv => kv.1 ≠ paramsKey) =
        (kwargs.filter (fun kv => kv.1 ≠ paramsKey)).map fun p => (p.1, f p.2) := by
      rw [List.filter_map]; rfl
    rw [hfil, ← List.map_take, List.length_map, kwVariables_map]
    cases kwVariables (kwargs.filter fun kv => kv.1 ≠ paramsKey) (names.drop (args.take names.length).length) with
    | error e => rfl
    | ok vs =>
      simp only [Except.map, hlen]
      cases len p with
      | none => rfl
      | some k =>
        simp only
        split_ifs <;> simp
  | none =>
    simp only [Option.map_none, List.length_map]
    by_cases h1 : args.length = names.length + 1
    · simp only [if_pos h1]
      rw [← List.map_dropLast, ← List.map_take, List.length_map, kwVariables_map, List.getLast?_map]
      cases kwVariables kwargs (names.drop (args.dropLast.take names.length).length) with
      | error e => rfl
      | ok vs =>
        simp only [Except.map]
        cases args.getLast? with
        | none => simp
        | some p =>
          simp only [Option.map_some, hlen]
          cases len p with
          | none => rfl
          | some k =>
            simp only
            split_ifs <;> simp
    · simp only [if_neg h1]
      by_cases h2 : args.length > names.length + 1
      · simp only [if_pos h2]; rfl
      · simp only [if_neg h2]
        rw [← List.map_take, List.length_map, kwVariables_map]
        cases kwVariables kwargs (names.drop (args.take names.length).length) with
        | error e => rfl
        | ok vs => simp [Except.map]

theorem kwVariables_mem {α : Type*} (kwargs : List (List Char × α)) (ns : List (List Char)) (vs : List α)
    (h : kwVariables kwargs ns = .ok vs) : ∀ v ∈ vs, ∃ p ∈ kwargs, p.2 = v := by
  induction ns generalizing vs with
  | nil =>
    unfold kwVariables at h
    obtain rfl := Except.ok.inj h
    simp
  | cons n ns ih =>
    unfold kwVariables at h
    cases hd : dictGet kwargs n with
    | none => rw [hd] at h; cases h
    | some v =>
      rw [hd] at h
      simp only at h
      cases hr : kwVariables kwargs ns with
      | error e => rw [hr] at h; cases h
      | ok ws =>
        rw [hr] at h
        obtain rfl := Except.ok.inj h
        intro x hx
        rcases List.mem_cons.1 hx with rfl | hx
        · exact ⟨_, dictGet_mem _ hd, rfl⟩
        · exact ih ws hr x hx

/-- All bound values come from the call. -/
theorem sortVarArgs_mem {α : Type*} (len : α → Option ℕ) (names : List (List Char)) (n : ℕ) (args : List α)
    (kwargs : List (List Char × α)) (vals : List α) (par : Option α)
    (h : sortVarArgs len names n args kwargs = .ok (vals, par)) :
    (∀ v ∈ vals, v ∈ args ∨ ∃ p ∈ kwargs, p.2 = v) ∧ ∀ v ∈ par, v ∈ args ∨ ∃ p ∈ kwargs, p.2 = v := by
  have key : ∀ (va : List α) (p : Option α) (kw : List (List Char × α)), (∀ v ∈ va, v ∈ args) →
      (∀ v ∈ p, v ∈ args ∨ ∃ q ∈ kwargs, q.2 = v) → (∀ q ∈ kw, q ∈ kwargs) →
      (match kwVariables kw (names.drop (va.take names.length).length) with
        | .error e => .error e
        | .ok rest =>
          match p with
          | none => .ok (va.take names.length ++ rest, none)
          | some p =>
            match len p with
            | none => .error .typeError
            | some k => if k = n then .ok (va.take names.length ++ rest, some p) else .error .assertionError) =
        (Except.ok (vals, par) : Except PyErr (List α × Option α)) →
      (∀ v ∈ vals, v ∈ args ∨ ∃ p ∈ kwargs, p.2 = v) ∧ ∀ v ∈ par, v ∈ args ∨ ∃ p ∈ kwargs, p.2 = v := by
    intro va p kw h1 h2 h3 h4
    cases hr : kwVariables kw (names.drop (va.take names.length).length) with
    | error e => rw [hr] at h4; cases h4
    | ok rest =>
      rw [hr] at h4
      have hv : ∀ v ∈ va.take names.length ++ rest, v ∈ args ∨ ∃ p ∈ kwargs, p.2 = v := by
        intro v hv
        rcases List.mem_append.1 hv with hv | hv
        · exact Or.inl (h1 v (List.mem_of_mem_take hv))
        · obtain ⟨q, q1, q2⟩ := kwVariables_mem _ _ _ hr v hv
          exact Or.inr ⟨q, h3 q q1, q2⟩
      cases p with
      | none =>
        obtain ⟨rfl, rfl⟩ := Prod.mk.inj (Except.ok.inj h4)
        exact ⟨hv, by simp⟩
      | some p =>
        simp only at h4
        cases hl : len p with
        | none => rw [hl] at h4; cases h4
        | some k =>
          rw [hl] at h4
          simp only at h4
          split_ifs at h4
          obtain ⟨rfl, rfl⟩ := Prod.mk.inj (Except.ok.inj h4)
          exact ⟨hv, h2⟩
  unfold sortVarArgs at h
  cases hk : dictGet kwargs paramsKey with
  | some p =>
    rw [hk] at h
    refine key args (some p) _ (fun v hv => hv) ?_ (fun q hq => List.mem_of_mem_filter hq) h
    intro v hv
    obtain rfl := Option.some.inj hv
    exact Or.inr ⟨_, dictGet_mem _ hk, rfl⟩
  | none =>
    rw [hk] at h
    simp only at h
    by_cases h1 : args.length = names.length + 1
    · simp only [if_pos h1] at h
      exact key args.dropLast args.getLast? kwargs (fun v hv => List.mem_of_mem_dropLast hv)
        (fun v hv => Or.inl (List.mem_of_getLast? hv)) (fun q hq => hq) h
    · simp only [if_neg h1] at h
      by_cases h2 : args.length > names.length + 1
      · simp only [if_pos h2] at h; cases h
      · simp only [if_neg h2] at h
        exact key args none kwargs (fun v hv => hv) (by simp) (fun q hq => hq) h

/-! ## Calls -/

theorem readVars_zip (h : Heap ℂ) (names : List (List Char)) (vals : List HVal) :
    readVars h (names.zip vals) = names.zip (vals.map (HVal.read h)) := by
  unfold readVars
  rw [List.zip_map_right]
  rfl

theorem readPars_entries (h : Heap ℂ) (par : Option HVal) :
    readPars h (par.map HVal.entries) = (par.map (HVal.read h)).map Val.entries := by
  cases par with
  | none => rfl
  | some p => cases p <;> rfl

theorem callHeap_sim (I : Prop) (h : Heap ℂ) (m : Meta) (e : Expr) (hs : e.safe I) (args : List HVal)
    (kwargs : List (List Char × HVal)) (hI : I → (∀ a ∈ args, a.Imm) ∧ ∀ p ∈ kwargs, p.2.Imm) :
    (callHeap m e args kwargs h).1 = h ∧ (callHeap m e args kwargs h).2.map (Obj.read h) =
      callNum m e (args.map (HVal.read h)) (kwargs.map fun p => (p.1, p.2.read h)) := by
  have hlen : ∀ x : HVal, (x.read h).len = x.len := by
    intro x
    cases x with
    | scalar o => rfl
    | vec l => simp [HVal.read, Val.len, HVal.len]
  unfold callHeap callNum
  rw [sortVarArgs_map (HVal.read h) HVal.len Val.len hlen]
  cases hb : sortVarArgs HVal.len m.names m.params.length args kwargs with
  | error e => exact ⟨rfl, rfl⟩
  | ok p =>
    obtain ⟨vals, par⟩ := p
    obtain ⟨m1, m2⟩ := sortVarArgs_mem _ _ _ _ _ _ _ hb
    have himm : I → ∀ v : HVal, (v ∈ args ∨ ∃ p ∈ kwargs, p.2 = v) → v.Imm := by
      intro hi v hv
      rcases hv with hv | ⟨q, hq, rfl⟩
      · exact (hI hi).1 v hv
      · exact (hI hi).2 q hq
    simp only [Except.map, evalNum]
    have hc := compileExpr_sim I h m e hs
    revert hc
    generalize compileExpr m e = x
    generalize compileExprH m e = y
    intro hc
    cases hc with
    | error e => exact ⟨rfl, rfl⟩
    | @ok f g hc =>
      obtain ⟨r, r1, r2⟩ := hc (m.names.zip vals) (par.map HVal.entries) fun hi => by
        refine ⟨fun q hq => himm hi _ (m1 _ (List.of_mem_zip hq).2), ?_⟩
        intro l hl o ho
        obtain ⟨v, hv, rfl⟩ := Option.map_eq_some_iff.1 hl
        have := himm hi v (m2 v hv)
        cases v with
        | scalar o' =>
          obtain rfl := List.mem_singleton.1 ho
          exact this
        | vec l => exact this o ho
      rw [readVars_zip, readPars_entries] at r2
      simp only
      rw [r1]
      refine ⟨rfl, ?_⟩
      revert r2
      generalize f (m.names.zip (vals.map (HVal.read h))) ((par.map (HVal.read h)).map Val.entries) = w
      intro r2
      cases r2 with
      | error e => rfl
      | ok r2 => exact congrArg Except.ok r2.1

theorem safeList_iff (I : Prop) (es : List Expr) : Expr.safeList I es ↔ ∀ e ∈ es, e.safe I := by
  induction es with
  | nil => simp [Expr.safeList]
  | cons e es ih => simp [Expr.safeList, ih]

theorem numExpr_safe (I : Prop) (c : ℂ) : (numExpr c).safe I ∧ (numExpr c).fresh I := by
  unfold numExpr
  split_ifs
  · exact ⟨by unfold Expr.safe; trivial, by unfold Expr.fresh; trivial⟩
  · refine ⟨?_, by unfold Expr.fresh; trivial⟩
    simp only [Expr.safe, Expr.safeList, true_and, and_true]
    intro e e' es he
    simp only [List.cons.injEq] at he
    rw [← he.1]
    unfold Expr.fresh
    trivial

theorem polyExpr_safe (I : Prop) (p : MvPolynomial Sym ℂ) : (polyExpr p).safe I := by
  unfold polyExpr Expr.safe
  rw [safeList_iff]
  intro e he
  obtain ⟨m, _, rfl⟩ := List.mem_map.1 he
  unfold termExpr Expr.safe
  refine ⟨?_, ?_⟩
  · rw [safeList_iff]
    intro e he
    rcases List.mem_cons.1 he with rfl | he
    · exact (numExpr_safe I _).1
    · obtain ⟨s, _, rfl⟩ := List.mem_map.1 he
      unfold powExpr
      split_ifs <;> simp [Expr.safe]
  · intro e e' es he
    simp only [List.cons.injEq] at he
    rw [← he.1]
    exact (numExpr_safe I _).2

mutual
theorem fresh_true : ∀ e : Expr, e.fresh True
  | .sym _ => by simp [Expr.fresh]
  | .int _ => by simp [Expr.fresh]
  | .float _ => by simp [Expr.fresh]
  | .imagUnit => by simp [Expr.fresh]
  | .other => by simp [Expr.fresh]
  | .add _ => by simp [Expr.fresh]
  | .pow _ _ => by simp [Expr.fresh]
  | .mul [] => by simp [Expr.fresh]
  | .mul (e :: _) => by
    unfold Expr.fresh
    exact fresh_true e
end

mutual
theorem safe_true : ∀ e : Expr, e.safe True
  | .sym _ => by simp [Expr.safe]
  | .int _ => by simp [Expr.safe]
  | .float _ => by simp [Expr.safe]
  | .imagUnit => by simp [Expr.safe]
  | .other => by simp [Expr.safe]
  | .add args => by
    unfold Expr.safe
    exact safeList_true args
  | .pow b _ => by
    unfold Expr.safe
    exact safe_true b
  | .mul args => by
    unfold Expr.safe
    exact ⟨safeList_true args, fun e _ _ _ => fresh_true e⟩

theorem safeList_true : ∀ es : List Expr, Expr.safeList True es
  | [] => by simp [Expr.safeList]
  | e :: es => by
    unfold Expr.safeList
    exact ⟨safe_true e, safeList_true es⟩
end

end Cyjax.Polynomial
