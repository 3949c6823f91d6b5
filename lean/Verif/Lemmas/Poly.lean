import Verif.Lemmas.PolyEval
import Verif.Spec.Poly

namespace Cyjax.Polynomial

open MvPolynomial

/-! ## Expressions of polynomials -/

theorem values_eq_map (ρ : Sym → ℂ) (l : List Expr) : Expr.values ρ l = l.map (Expr.value ρ) := by
  induction l with
  | nil => simp [Expr.values]
  | cons e l ih => simp [Expr.values, ih]

theorem symbolsList_eq (l : List Expr) : Expr.symbolsList l = l.flatMap Expr.symbols := by
  induction l with
  | nil => simp [Expr.symbolsList]
  | cons e l ih => simp [Expr.symbolsList, ih]

theorem realList_iff (l : List Expr) : Expr.RealList l ↔ ∀ e ∈ l, e.Real := by
  induction l with
  | nil => simp [Expr.RealList]
  | cons e l ih => simp [Expr.RealList, ih]

theorem numExpr_value (ρ : Sym → ℂ) (c : ℂ) : (numExpr c).value ρ = c := by
  unfold numExpr
  split_ifs with h
  · simp [Expr.value, Complex.ext_iff, h]
  · simp [Expr.value, Expr.values]

theorem powExpr_value (ρ : Sym → ℂ) (s : Sym) (k : ℕ) : (powExpr s k).value ρ = ρ s ^ k := by
  unfold powExpr
  split_ifs with h
  · simp [Expr.value, h]
  · simp [Expr.value]

theorem termExpr_value (ρ : Sym → ℂ) (c : ℂ) (m : Sym →₀ ℕ) :
    (termExpr c m).value ρ = c * ∏ s ∈ m.support, ρ s ^ m s := by
  unfold termExpr
  rw [Expr.value, values_eq_map, List.map_cons, List.prod_cons, numExpr_value, List.map_map]
  congr 1
  rw [← Finset.prod_map_toList]
  congr 1
  apply List.map_congr_left
  intro s _
  exact powExpr_value ρ s (m s)

theorem polyExpr_value (ρ : Sym → ℂ) (p : MvPolynomial Sym ℂ) :
    (polyExpr p).value ρ = eval ρ p := by
  unfold polyExpr
  rw [Expr.value, values_eq_map, List.map_map, eval_eq, ← Finset.sum_map_toList]
  congr 1
  apply List.map_congr_left
  intro m _
  exact termExpr_value ρ _ m

theorem numExpr_symbols (c : ℂ) : (numExpr c).symbols = [] := by
  unfold numExpr
  split_ifs <;> simp [Expr.symbols, Expr.symbolsList]

theorem polyExpr_symbols (p : MvPolynomial Sym ℂ) (s : Sym) (hs : s ∈ (polyExpr p).symbols) :
    s ∈ p.vars := by
  unfold polyExpr at hs
  rw [Expr.symbols, symbolsList_eq, List.mem_flatMap] at hs
  obtain ⟨e, he, hs⟩ := hs
  obtain ⟨m, hm, rfl⟩ := List.mem_map.1 he
  rw [Finset.mem_toList] at hm
  unfold termExpr at hs
  rw [Expr.symbols, symbolsList_eq, List.flatMap_cons, numExpr_symbols, List.nil_append,
    List.mem_flatMap] at hs
  obtain ⟨e, he, hs⟩ := hs
  obtain ⟨t, ht, rfl⟩ := List.mem_map.1 he
  rw [Finset.mem_toList] at ht
  have : s = t := by
    unfold powExpr at hs
    split_ifs at hs <;> simpa [Expr.symbols] using hs
  subst this
  exact (mem_vars_iff_mem_support s).2 ⟨m, hm, ht⟩

theorem polyExpr_real (p : MvPolynomial Sym ℂ) : (polyExpr p).Real ↔ RealCoeffs p := by
  unfold polyExpr
  rw [Expr.Real, realList_iff]
  have key : ∀ m, (termExpr (coeff m p) m).Real ↔ (coeff m p).im = 0 := by
    intro m
    unfold termExpr
    rw [Expr.Real, realList_iff]
    have hp : ∀ e ∈ m.support.toList.map (fun s => powExpr s (m s)), e.Real := by
      intro e he
      obtain ⟨t, _, rfl⟩ := List.mem_map.1 he
      unfold powExpr
      split_ifs <;> simp [Expr.Real]
    constructor
    · intro h
      have := h _ List.mem_cons_self
      by_contra hne
      unfold numExpr at this
      rw [if_neg hne] at this
      simp [Expr.Real, Expr.RealList] at this
    · intro h e he
      rcases List.mem_cons.1 he with rfl | he
      · unfold numExpr; rw [if_pos h]; simp [Expr.Real]
      · exact hp e he
  constructor
  · intro h m
    by_cases hm : m ∈ p.support
    · exact (key m).1 (h _ (List.mem_map.2 ⟨m, Finset.mem_toList.2 hm, rfl⟩))
    · rw [notMem_support_iff.1 hm]; simp
  · intro h e he
    obtain ⟨m, _, rfl⟩ := List.mem_map.1 he
    exact (key m).2 (h m)

/-! ## Calls -/

theorem names_length (m : Meta) : m.names.length = m.vars.length := List.length_map _
theorem inputs_length (m : Meta) (ρ : Sym → ℂ) : (m.inputs ρ).length = m.vars.length :=
  List.length_map _

theorem sortVarArgs_positional {α : Type*} (len : α → Option ℕ) (names : List (List Char)) (nParams : ℕ)
    (vals : List α) (p : α) (hv : vals.length = names.length) (hp : len p = some nParams)
    (kwargs : List (List Char × α)) (hk : dictGet kwargs paramsKey = none) :
    sortVarArgs len names nParams (vals ++ [p]) kwargs = .ok (vals, some p) := by
  unfold sortVarArgs
  rw [hk]
  have h1 : (vals ++ [p]).length = names.length + 1 := by simp [hv]
  have h2 : vals.take names.length = vals := by rw [← hv, List.take_length]
  have h3 : names.drop vals.length = [] := by rw [hv, List.drop_length]
  simp only [h1, if_true, List.dropLast_concat, List.getLast?_concat, h2, h3, kwVariables, hp,
    List.append_nil]

theorem callNum_inputs (m : Meta) (e : Expr) (ρ : Sym → ℂ) :
    callNum m e (m.inputs ρ ++ [.vec (m.paramInput ρ)]) [] =
      evalNum m e (m.inputs ρ) (some (m.paramInput ρ)) := by
  unfold callNum
  rw [sortVarArgs_positional Val.len m.names m.params.length (m.inputs ρ) (.vec (m.paramInput ρ))
    (by rw [inputs_length, names_length]) (by simp [Val.len, Meta.paramInput]) [] rfl]
  rfl

theorem evalNum_ok (m : Meta) (hm : m.WF) (ρ : Sym → ℂ) (e : Expr) (he : e.Real)
    (hs : ∀ s ∈ e.symbols, s ∈ m.allSymbols) :
    evalNum m e (m.inputs ρ) (some (m.paramInput ρ)) = .ok (e.value ρ) := by
  obtain ⟨f, h1, h2⟩ := compileExpr_ok m hm ρ e he hs
  unfold evalNum
  rw [h1]
  exact h2

theorem callAt_ok (P : PolyObj) (hm : P.md.WF) (hd : P.Declared) (hr : RealCoeffs P.poly)
    (ρ : Sym → ℂ) : P.callAt ρ = .ok (eval ρ P.poly) := by
  unfold PolyObj.callAt PolyObj.call
  rw [callNum_inputs, evalNum_ok P.md hm ρ _ ((polyExpr_real _).2 hr)
    (fun s hs => hd s (polyExpr_symbols _ s hs)), polyExpr_value]

/-! ## Substitution -/

mutual
theorem subst_value (ρ : Sym → ℂ) (s : Sym) (v : Expr) :
    (e : Expr) → (Expr.subst s v e).value ρ = e.value (Function.update ρ s (v.value ρ))
  | .sym t => by
    rw [Expr.subst, Expr.value]
    by_cases h : t = s
    · subst h; simp
    · rw [if_neg h, Function.update_of_ne h, Expr.value]
  | .int _ => by simp [Expr.subst, Expr.value]
  | .float _ => by simp [Expr.subst, Expr.value]
  | .imagUnit => by simp [Expr.subst, Expr.value]
  | .other => by simp [Expr.subst, Expr.value]
  | .add args => by rw [Expr.subst, Expr.value, Expr.value, substList_value ρ s v args]
  | .mul args => by rw [Expr.subst, Expr.value, Expr.value, substList_value ρ s v args]
  | .pow b n => by rw [Expr.subst, Expr.value, Expr.value, subst_value ρ s v b]

theorem substList_value (ρ : Sym → ℂ) (s : Sym) (v : Expr) :
    (es : List Expr) → Expr.values ρ (Expr.substList s v es) =
      Expr.values (Function.update ρ s (v.value ρ)) es
  | [] => by simp [Expr.substList, Expr.values]
  | e :: es => by
    rw [Expr.substList, Expr.values, Expr.values, subst_value ρ s v e, substList_value ρ s v es]
end

mutual
theorem value_congr (ρ ρ' : Sym → ℂ) :
    (e : Expr) → (∀ s ∈ e.symbols, ρ s = ρ' s) → e.value ρ = e.value ρ'
  | .sym t, h => by simpa [Expr.value] using h t (by simp [Expr.symbols])
  | .int _, _ => by simp [Expr.value]
  | .float _, _ => by simp [Expr.value]
  | .imagUnit, _ => by simp [Expr.value]
  | .other, _ => by simp [Expr.value]
  | .add args, h => by
    rw [Expr.value, Expr.value, values_congr ρ ρ' args (by simpa [Expr.symbols] using h)]
  | .mul args, h => by
    rw [Expr.value, Expr.value, values_congr ρ ρ' args (by simpa [Expr.symbols] using h)]
  | .pow b n, h => by
    rw [Expr.value, Expr.value, value_congr ρ ρ' b (by simpa [Expr.symbols] using h)]

theorem values_congr (ρ ρ' : Sym → ℂ) :
    (es : List Expr) → (∀ s ∈ Expr.symbolsList es, ρ s = ρ' s) → Expr.values ρ es = Expr.values ρ' es
  | [], _ => by simp [Expr.values]
  | e :: es, h => by
    rw [Expr.symbolsList] at h
    rw [Expr.values, Expr.values, value_congr ρ ρ' e (fun s hs => h s (List.mem_append_left _ hs)),
      values_congr ρ ρ' es (fun s hs => h s (List.mem_append_right _ hs))]
end

theorem substSeq_value (ρ : Sym → ℂ) (items : List (Sym × Expr)) (hn : (items.map Prod.fst).Nodup)
    (hfree : ∀ sv ∈ items, ∀ t ∈ sv.2.symbols, ∀ w, (t, w) ∈ items → w = .sym t) (e : Expr) :
    (Expr.substSeq items e).value ρ =
      e.value (fun s => match dictGet items s with | some v => v.value ρ | none => ρ s) := by
  induction items generalizing e with
  | nil => rfl
  | cons sv items ih =>
    obtain ⟨s, v⟩ := sv
    rw [List.map_cons, List.nodup_cons] at hn
    have hfree' : ∀ sv ∈ items, ∀ t ∈ sv.2.symbols, ∀ w, (t, w) ∈ items → w = .sym t :=
      fun sv hsv t ht w hw => hfree sv (List.mem_cons_of_mem _ hsv) t ht w (List.mem_cons_of_mem _ hw)
    rw [Expr.substSeq, List.foldl_cons]
    change (Expr.substSeq items (Expr.subst s v e)).value ρ = _
    rw [ih hn.2 hfree', subst_value]
    apply value_congr
    intro t _
    have hv : v.value (fun s => match dictGet items s with | some v => v.value ρ | none => ρ s) =
        v.value ρ := by
      apply value_congr
      intro t ht
      cases hd : dictGet items t with
      | none => rfl
      | some w =>
        rw [hfree (s, v) List.mem_cons_self t ht w (List.mem_cons_of_mem _ (dictGet_mem items hd))]
        rfl
    by_cases hts : t = s
    · subst hts
      rw [Function.update_self, hv, dictGet_of_mem ((t, v) :: items)
        (by rw [List.map_cons, List.nodup_cons]; exact hn) List.mem_cons_self]
    · rw [Function.update_of_ne hts]
      have : dictGet ((s, v) :: items) t = dictGet items t := by
        unfold dictGet
        rw [List.reverse_cons, List.find?_append]
        simp [Ne.symm hts]
      rw [this]

/-! ## Monomials -/

theorem foldl_opt {R : Type*} [CommSemiring R] (l : List (R × ℕ)) (acc : R) :
    l.foldl monScalarOpt acc = acc * (l.map (fun ap => ap.1 ^ ap.2)).prod := by
  induction l generalizing acc with
  | nil => simp
  | cons a l ih =>
    rw [List.foldl_cons, ih, List.map_cons, List.prod_cons, ← mul_assoc]
    congr 1
    unfold monScalarOpt
    split_ifs with h
    · simp [h]
    · rfl

theorem zip_prod {R : Type*} [CommSemiring R] (v : List R) (p : List ℕ) :
    ((v.zip p).map (fun ap => ap.1 ^ ap.2)).prod = powProd v p := by
  unfold powProd
  rw [List.zip, List.map_zipWith]

theorem foldl_log (v : List ℂ) (p : List ℕ) (h : ∀ ap ∈ v.zip p, ap.2 ≠ 0 → ap.1 ≠ 0) (acc : ℂ) :
    Complex.exp (((v.map Complex.log).zip p).foldl monScalarLog acc) =
      Complex.exp acc * powProd v p := by
  induction v generalizing p acc with
  | nil => simp [powProd]
  | cons x v ih =>
    cases p with
    | nil => simp [powProd]
    | cons n p =>
      rw [List.map_cons, List.zip_cons_cons, List.foldl_cons,
        ih p (fun ap hap => h ap (by rw [List.zip_cons_cons]; exact List.mem_cons_of_mem _ hap))]
      unfold powProd monScalarLog
      rw [List.zipWith_cons_cons, List.prod_cons, ← mul_assoc]
      congr 1
      by_cases hn : n = 0
      · simp [hn]
      · rw [if_neg hn]
        have hx : x ≠ 0 := h (x, n) (by rw [List.zip_cons_cons]; exact List.mem_cons_self) hn
        rw [Complex.exp_add, mul_comm (Complex.log x), Complex.exp_nat_mul, Complex.exp_log hx]

theorem powProd_eq {R : Type*} [CommSemiring R] (v : List R) (p : List ℕ) (h : p.length = v.length) :
    powProd v p = entryProd v p := by
  unfold powProd entryProd
  induction v generalizing p with
  | nil => simp
  | cons x v ih =>
    cases p with
    | nil => simp at h
    | cons n p =>
      rw [List.zipWith_cons_cons, List.prod_cons, ih p (by simpa using h), List.length_cons,
        Finset.prod_range_succ']
      simp [mul_comm]

theorem monLoop_prod {R : Type*} [CommSemiring R] {M : ℕ}
    (step : List R → (Fin M → List ℕ) → (Fin M → R) → (Fin M → R))
    (hstep : ∀ v p acc, (∀ c, (p c).length = v.length) →
      step v p acc = fun c => acc c * entryProd v (p c))
    (values : Values R) (powers : Powers M) (hc : Compatible values powers) (acc : Fin M → R) :
    monLoop step values powers acc = some (fun c => acc c * monSpec values powers c) := by
  unfold Compatible at hc
  induction hc generalizing acc with
  | nil => simp [monLoop, monSpec]
  | @cons v p values powers hvp _ ih =>
    cases p with
    | none =>
      have : monLoop step (v :: values) (none :: powers) acc = monLoop step values powers acc := by
        cases v <;> rw [monLoop]
      rw [this, ih]
      congr 1
      funext c
      unfold monSpec
      rw [List.zip_cons_cons, List.map_cons, List.prod_cons]
      cases v <;> simp
    | some p =>
      obtain ⟨v', rfl, hlen⟩ := hvp p rfl
      rw [monLoop, hstep v' p acc hlen, ih]
      congr 1
      funext c
      simp only [monSpec, List.zip_cons_cons, List.map_cons, List.prod_cons, mul_assoc]

theorem monLog_loop {M : ℕ} (values : Values ℂ) (powers : Powers M) (hc : Compatible values powers)
    (hz : NonZeroWherePowered values powers) (acc : Fin M → ℂ) :
    ∃ r, monLoop (fun v p acc c => ((v.map Complex.log).zip (p c)).foldl monScalarLog (acc c))
      values powers acc = some r ∧
      ∀ c, Complex.exp (r c) = Complex.exp (acc c) * monSpec values powers c := by
  unfold Compatible at hc
  induction hc generalizing acc with
  | nil => exact ⟨acc, by simp [monLoop], by simp [monSpec]⟩
  | @cons v p values powers hvp _ ih =>
    have hz' : NonZeroWherePowered values powers := fun v p hm => hz v p (by
      rw [List.zip_cons_cons]; exact List.mem_cons_of_mem _ hm)
    cases p with
    | none =>
      obtain ⟨r, h1, h2⟩ := ih hz' acc
      refine ⟨r, ?_, ?_⟩
      · rw [← h1]; cases v <;> rw [monLoop]
      · intro c
        rw [h2 c]
        unfold monSpec
        rw [List.zip_cons_cons, List.map_cons, List.prod_cons]
        cases v <;> simp
    | some p =>
      obtain ⟨v', rfl, hlen⟩ := hvp p rfl
      obtain ⟨r, h1, h2⟩ := ih hz' (fun c => ((v'.map Complex.log).zip (p c)).foldl monScalarLog (acc c))
      refine ⟨r, by rw [monLoop]; exact h1, ?_⟩
      intro c
      rw [h2 c, foldl_log v' (p c) ?_ (acc c), powProd_eq v' (p c) (hlen c)]
      · simp only [monSpec, List.zip_cons_cons, List.map_cons, List.prod_cons, mul_assoc]
      · intro ap hap hne
        obtain ⟨i, hi, rfl⟩ := List.getElem_of_mem hap
        rw [List.length_zip] at hi
        have h1 : i < v'.length := by omega
        have h2 : i < (p c).length := by omega
        have := hz v' p (by rw [List.zip_cons_cons]; exact List.mem_cons_self) c i h1
        rw [List.getElem_zip] at hne ⊢
        simp only [List.getD_eq_getElem?_getD, List.getElem?_eq_getElem h1,
          List.getElem?_eq_getElem h2, Option.getD_some] at this
        exact this hne

theorem collectValues_symInput (σ : Sym → Expr) (vars : List (List Char × Option (List ℕ))) :
    collectValues vars (vars.map (symInput σ)) = some ((vars.flatMap varSymbols).map σ) := by
  induction vars with
  | nil => rfl
  | cons v vars ih =>
    obtain ⟨name, inds⟩ := v
    cases inds with
    | none => simp [symInput, collectValues, ih, varSymbols]
    | some inds =>
      simp [symInput, collectValues, ih, varSymbols, Function.comp_def]

theorem zip_map_self {α β : Type*} (S : List α) (σ : α → β) :
    S.zip (S.map σ) = S.map (fun s => (s, σ s)) := by
  induction S with
  | nil => rfl
  | cons a S ih => simp [ih]

theorem dictGet_perm {κ β : Type*} [DecidableEq κ] (l l' : List (κ × β)) (h : l'.Perm l)
    (hl : (l.map Prod.fst).Nodup) (k : κ) : dictGet l' k = dictGet l k := by
  have hl' : (l'.map Prod.fst).Nodup := ((h.map Prod.fst).nodup_iff).2 hl
  cases hk : dictGet l k with
  | some v => exact dictGet_of_mem l' hl' (h.mem_iff.2 (dictGet_mem l hk))
  | none =>
    rw [dictGet_none] at hk ⊢
    exact fun hm => hk ((h.map Prod.fst).mem_iff.1 hm)

end Cyjax.Polynomial
