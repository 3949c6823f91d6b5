import Verif.Model.PolyDefaults
import Verif.Spec.PolyDefaults
import Verif.Props.PolyOps

/-! # Property C144: default arguments when building a polynomial from coefficients and powers -/

namespace Cyjax

open Cyjax.Polynomial Cyjax.Spec MvPolynomial

/-! ## Helper lemmas -/

theorem defaultNames_eq (n : ℕ) (hn : n ≤ 26) :
    defaultNames n = (alphabet.take n).map fun c => [c] := by
  interval_cases n <;> decide

theorem defaultIndices_ofFn {M : ℕ} (hM : 0 < M) : (n : ℕ) → (d : Fin n → ℕ) →
    (p : (v : Fin n) → Fin M → Fin (d v) → ℕ) →
    defaultIndices (List.ofFn fun v => some fun c => List.ofFn (p v c)) =
      .ok (List.ofFn fun v => some (List.range (d v)))
  | 0, _, _ => by simp [defaultIndices]
  | n + 1, d, p => by
    rw [List.ofFn_succ, List.ofFn_succ, defaultIndices, dif_pos hM,
      defaultIndices_ofFn hM n (fun v => d v.succ) (fun v => p v.succ)]
    simp

theorem goodName_identifier (s : List Char) (h : GoodName s) : isIdentifier s = true := by
  obtain ⟨h1, h2⟩ := h
  cases s with
  | nil => exact absurd rfl h1
  | cons c cs =>
    have hc : c.isAlpha = true := h2 c (by simp)
    have hcs : ∀ d ∈ cs, d.isAlpha = true := fun d hd => h2 d (by simp [hd])
    simp only [isIdentifier, hc, Bool.true_or, Bool.true_and, List.all_eq_true, Bool.or_eq_true]
    intro d hd
    left
    simp [Char.isAlphanum, hcs d hd]

/-- What the defaults amount to. -/
theorem fromCoeffsAndPowers_eq {M n : ℕ} (hM : 0 < M) (setOrder : List Sym → List Sym)
    (coeffs : Fin M → ℂ) (cp : Option (Fin M → List Sym)) (names : Option (List (List Char)))
    (ns : Fin n → List Char) (d : Fin n → ℕ) (p : (v : Fin n) → Fin M → Fin (d v) → ℕ)
    (hns : names.getD (defaultNames n) = List.ofFn ns) (hsig : signatureOk (List.ofFn ns) = true) :
    fromCoeffsAndPowers setOrder coeffs (List.ofFn fun v => some fun c => List.ofFn (p v c)) cp names
        none none =
      fromCoeffs coeffs (List.ofFn fun v => some fun c => List.ofFn (p v c)) (cp.getD fun _ => [])
        ⟨List.ofFn fun v => (ns v, some (List.range (d v))),
          setOrder ((List.finRange M).flatMap (cp.getD fun _ => [])).dedup⟩ := by
  have hz : (List.ofFn ns).zip (List.ofFn fun v => some (List.range (d v))) =
      List.ofFn fun v => (ns v, some (List.range (d v))) := by
    apply List.ext_getElem <;> simp
  simp only [fromCoeffsAndPowers, Option.elim, defaultIndices_ofFn hM, defaultParams, hM.ne',
    if_false, List.length_ofFn, hns, hsig, if_true, hz]

theorem documentedSum_eq {M n : ℕ} (ns : Fin n → List Char) (coeffs : Fin M → ℂ)
    (cp : Fin M → List Sym) (d : Fin n → ℕ) (p : (v : Fin n) → Fin M → Fin (d v) → ℕ)
    (ρ : Sym → ℂ) :
    (∑ c, coeffs c * ((cp c).map ρ).prod *
      monSpec (((List.ofFn fun v => (ns v, some (List.range (d v)))).map
        fun v => (varSymbols v).map ρ).map some)
        (List.ofFn fun v => some fun c => List.ofFn (p v c)) c) = documentedSum ns coeffs cp p ρ := by
  unfold documentedSum
  refine Finset.sum_congr rfl fun c _ => ?_
  congr 1
  unfold monSpec
  rw [List.map_ofFn, List.map_ofFn]
  have hz : (List.ofFn (some ∘ (fun v => List.map ρ (varSymbols v)) ∘
        fun v => (ns v, some (List.range (d v))))).zip
        (List.ofFn fun v => some fun c => List.ofFn (p v c)) =
      List.ofFn fun v => (some (List.map ρ (varSymbols (ns v, some (List.range (d v))))),
        some fun c => List.ofFn (p v c)) := by
    apply List.ext_getElem <;> simp
  rw [hz, List.map_ofFn, List.prod_ofFn]
  refine Finset.prod_congr rfl fun v _ => ?_
  simp only [Function.comp, entryProd, varSymbols, List.length_map, List.length_range]
  rw [Finset.prod_range]
  refine Finset.prod_congr rfl fun i _ => ?_
  simp [List.getD_eq_getElem?_getD]

theorem compatible_defaults {M n : ℕ} (ns : Fin n → List Char) (d : Fin n → ℕ)
    (p : (v : Fin n) → Fin M → Fin (d v) → ℕ) :
    Compatible (M := M) ((List.ofFn fun v => (ns v, some (List.range (d v)))).map
      fun v => some (varPolys v)) (List.ofFn fun v => some fun c => List.ofFn (p v c)) := by
  unfold Compatible
  rw [List.forall₂_iff_get]
  refine ⟨by simp, fun i h1 h2 p' hp => ⟨varPolys (ns ⟨i, by simpa using h2⟩, some (List.range (d ⟨i, by simpa using h2⟩))), by simp, fun c => ?_⟩⟩
  have := hp
  simp only [List.get_eq_getElem, List.getElem_ofFn, Option.some.injEq] at this
  subst this
  simp [varPolys, varSymbols]

theorem wf_defaults {n : ℕ} (ns : Fin n → List Char) (d : Fin n → ℕ) (params : List Sym)
    (hinj : Function.Injective ns) (hgood : ∀ v, GoodName (ns v)) (hnd : params.Nodup)
    (hp : ∀ s ∈ params, ∃ name ix, splitSubscript s = .ok (name, ix) ∧ ∀ v, name ≠ ns v) :
    Meta.WF ⟨List.ofFn fun v => (ns v, some (List.range (d v))), params⟩ := by
  have hn : Meta.names ⟨List.ofFn fun v => (ns v, some (List.range (d v))), params⟩ = List.ofFn ns := by
    simp only [Meta.names, List.map_ofFn]; rfl
  refine ⟨by rw [hn]; exact List.nodup_ofFn.2 hinj, ?_, ?_, hnd, ?_⟩
  · intro v hv
    obtain ⟨i, rfl⟩ := (List.mem_ofFn' _ _).1 hv
    exact hgood i
  · intro v hv inds hi
    obtain ⟨i, rfl⟩ := (List.mem_ofFn' _ _).1 hv
    cases hi
    exact List.nodup_range
  · intro s hs
    obtain ⟨name, ix, h1, h2⟩ := hp s hs
    refine ⟨name, ix, h1, ?_⟩
    rw [hn, List.mem_ofFn']
    rintro ⟨v, hv⟩
    exact h2 v hv.symm

/-- The general form: names given or derived. -/
theorem defaults_general {M n : ℕ} (hM : 0 < M) (setOrder : List Sym → List Sym)
    (hset : ∀ l, (setOrder l).Perm l) (coeffs : Fin M → ℂ) (hr : ∀ c, (coeffs c).im = 0)
    (cp : Fin M → List Sym) (ns : Fin n → List Char) (d : Fin n → ℕ)
    (p : (v : Fin n) → Fin M → Fin (d v) → ℕ) (names : Option (List (List Char)))
    (hns : names.getD (defaultNames n) = List.ofFn ns)
    (hinj : Function.Injective ns) (hgood : ∀ v, GoodName (ns v)) (hpar : ∀ v, ns v ≠ "params".toList)
    (hcp : ∀ c, ∀ s ∈ cp c, ∃ name ix, splitSubscript s = .ok (name, ix) ∧ ∀ v, name ≠ ns v) :
    (∀ R, fromCoeffsAndPowers setOrder coeffs (List.ofFn fun v => some fun c => List.ofFn (p v c))
        (some cp) names none none = .ok R →
      R.md.vars = List.ofFn (fun v => (ns v, some (List.range (d v)))) ∧
      R.md.params.Nodup ∧ (∀ s, s ∈ R.md.params ↔ ∃ c, s ∈ cp c) ∧
      ∀ ρ, R.callAt ρ = .ok (documentedSum ns coeffs cp p ρ)) ∧
    ((∃ ρ ρ' : Sym → ℂ, (∀ c, ∀ s ∈ cp c, ρ s = ρ' s) ∧
        documentedSum ns coeffs cp p ρ ≠ documentedSum ns coeffs cp p ρ') →
      ∃ R, fromCoeffsAndPowers setOrder coeffs (List.ofFn fun v => some fun c => List.ofFn (p v c))
        (some cp) names none none = .ok R) := by
  have hsig : signatureOk (List.ofFn ns) = true := by
    unfold signatureOk
    rw [Bool.and_eq_true]
    constructor
    · rw [List.all_eq_true]
      intro s hs
      obtain ⟨v, rfl⟩ := (List.mem_ofFn' _ _).1 hs
      exact goodName_identifier _ (hgood v)
    · rw [decide_eq_true_iff, List.nodup_append]
      refine ⟨List.nodup_ofFn.2 hinj, by simp, ?_⟩
      intro a ha b hb
      obtain ⟨v, rfl⟩ := (List.mem_ofFn' _ _).1 ha
      rw [List.mem_singleton.1 hb]
      exact hpar v
  have hmem : ∀ s, s ∈ setOrder ((List.finRange M).flatMap cp).dedup ↔ ∃ c, s ∈ cp c := by
    intro s
    rw [(hset _).mem_iff, List.mem_dedup]
    simp
  have hnd : (setOrder ((List.finRange M).flatMap cp).dedup).Nodup :=
    (hset _).nodup_iff.2 (List.nodup_dedup _)
  have hwf := wf_defaults ns d _ hinj hgood hnd (fun s hs => by
    obtain ⟨c, hc⟩ := (hmem s).1 hs
    exact hcp c s hc)
  have hps : ∀ c, ∀ s ∈ cp c, s ∈ setOrder ((List.finRange M).flatMap cp).dedup :=
    fun c s hs => (hmem s).2 ⟨c, hs⟩
  have heq := fromCoeffsAndPowers_eq hM setOrder coeffs (some cp) names ns d p hns hsig
  rw [heq]
  constructor
  · intro R hR
    obtain ⟨h1, h2⟩ := C43_from_coeffs coeffs _ cp _ hwf hr hps (compatible_defaults ns d p) R hR
    rw [h1]
    refine ⟨rfl, hnd, hmem, fun ρ => ?_⟩
    rw [h2 ρ, documentedSum_eq]
  · rintro ⟨ρ, ρ', h1, h2⟩
    refine C43_from_coeffs_succeeds coeffs _ cp _ hwf hps (compatible_defaults ns d p) ⟨ρ, ρ', ?_, ?_⟩
    · intro s hs
      obtain ⟨c, hc⟩ := (hmem s).1 hs
      exact h1 c s hc
    · rw [documentedSum_eq, documentedSum_eq]; exact h2

theorem fromCoeffs_md {M : ℕ} (coeffs : Fin M → ℂ) (powers : Powers M) (ps : Fin M → List Sym)
    (md : Meta) (R : PolyObj) (hR : fromCoeffs coeffs powers ps md = .ok R) : R.md = md := by
  unfold fromCoeffs at hR
  split at hR
  · cases hR
  · split at hR
    · cases hR
    · dsimp only at hR
      split_ifs at hR
      cases hR
      rfl

/-! ## C144 -/

/-- C144, the part that holds, for given names: the indices of the variables are `0, 1, …` as many as
there are powers, the parameters are the symbols occurring in the symbolic coefficients, each once,
and the object evaluates to the documented sum. Missing: the order of the parameters (see
`C144_order_violated`), and symbols with the name of a variable (see `C144_clash_violated`). -/
theorem C144_named_partial {M n : ℕ} (hM : 0 < M) (setOrder : List Sym → List Sym)
    (hset : ∀ l, (setOrder l).Perm l) (coeffs : Fin M → ℂ) (hr : ∀ c, (coeffs c).im = 0)
    (cp : Fin M → List Sym) (ns : Fin n → List Char) (d : Fin n → ℕ)
    (p : (v : Fin n) → Fin M → Fin (d v) → ℕ)
    (hinj : Function.Injective ns) (hgood : ∀ v, GoodName (ns v)) (hpar : ∀ v, ns v ≠ "params".toList)
    (hcp : ∀ c, ∀ s ∈ cp c, ∃ name ix, splitSubscript s = .ok (name, ix) ∧ ∀ v, name ≠ ns v) :
    (∀ R, fromCoeffsAndPowers setOrder coeffs (List.ofFn fun v => some fun c => List.ofFn (p v c))
        (some cp) (some (List.ofFn ns)) none none = .ok R →
      R.md.vars = List.ofFn (fun v => (ns v, some (List.range (d v)))) ∧
      R.md.params.Nodup ∧ (∀ s, s ∈ R.md.params ↔ ∃ c, s ∈ cp c) ∧
      ∀ ρ, R.callAt ρ = .ok (documentedSum ns coeffs cp p ρ)) ∧
    ((∃ ρ ρ' : Sym → ℂ, (∀ c, ∀ s ∈ cp c, ρ s = ρ' s) ∧
        documentedSum ns coeffs cp p ρ ≠ documentedSum ns coeffs cp p ρ') →
      ∃ R, fromCoeffsAndPowers setOrder coeffs (List.ofFn fun v => some fun c => List.ofFn (p v c))
        (some cp) (some (List.ofFn ns)) none none = .ok R) :=
  defaults_general hM setOrder hset coeffs hr cp ns d p _ rfl hinj hgood hpar hcp

/-- C144, the part that holds, for default names: up to 26 variables are called `a`, `b`, `c` and so
on; indices, parameters and value as in `C144_named_partial`. -/
theorem C144_defaults_partial {M n : ℕ} (hM : 0 < M) (hn : n ≤ 26) (setOrder : List Sym → List Sym)
    (hset : ∀ l, (setOrder l).Perm l) (coeffs : Fin M → ℂ) (hr : ∀ c, (coeffs c).im = 0)
    (cp : Fin M → List Sym) (d : Fin n → ℕ) (p : (v : Fin n) → Fin M → Fin (d v) → ℕ)
    (hcp : ∀ c, ∀ s ∈ cp c, ∃ name ix, splitSubscript s = .ok (name, ix) ∧
      ∀ v : Fin n, name ≠ [alphabet.getD v ' ']) :
    (∀ R, fromCoeffsAndPowers setOrder coeffs (List.ofFn fun v => some fun c => List.ofFn (p v c))
        (some cp) none none none = .ok R →
      R.md.vars = List.ofFn (fun v : Fin n => ([alphabet.getD v ' '], some (List.range (d v)))) ∧
      R.md.params.Nodup ∧ (∀ s, s ∈ R.md.params ↔ ∃ c, s ∈ cp c) ∧
      ∀ ρ, R.callAt ρ =
        .ok (documentedSum (fun v : Fin n => [alphabet.getD v ' ']) coeffs cp p ρ)) ∧
    ((∃ ρ ρ' : Sym → ℂ, (∀ c, ∀ s ∈ cp c, ρ s = ρ' s) ∧
        documentedSum (fun v : Fin n => [alphabet.getD v ' ']) coeffs cp p ρ ≠
          documentedSum (fun v : Fin n => [alphabet.getD v ' ']) coeffs cp p ρ') →
      ∃ R, fromCoeffsAndPowers setOrder coeffs (List.ofFn fun v => some fun c => List.ofFn (p v c))
        (some cp) none none none = .ok R) := by
  have halpha : ∀ i j : Fin 26, alphabet.getD i ' ' = alphabet.getD j ' ' → i = j := by decide
  have hgood : ∀ i : Fin 26, GoodName [alphabet.getD i ' '] := by decide
  have hlen : alphabet.length = 26 := by decide
  refine defaults_general hM setOrder hset coeffs hr cp _ d p none ?_ ?_ ?_ ?_ hcp
  · rw [Option.getD_none, defaultNames_eq n hn]
    apply List.ext_getElem
    · simp [hlen, hn]
    · intro i h1 h2
      have hi : i < alphabet.length := by simp at h2; omega
      simp [List.getD_eq_getElem?_getD, List.getElem?_eq_getElem hi]
  · intro v w h
    have := halpha ⟨v, by omega⟩ ⟨w, by omega⟩ (by simpa using h)
    exact Fin.ext (Fin.mk.inj_iff.1 this)
  · exact fun v => hgood ⟨v, by omega⟩
  · intro v h
    have := congrArg List.length h
    simp at this

/-- C144: without symbolic coefficients the polynomial has no parameters. -/
theorem C144_no_coeffs_params {M : ℕ} (hM : 0 < M) (setOrder : List Sym → List Sym)
    (hset : ∀ l, (setOrder l).Perm l) (coeffs : Fin M → ℂ) (powers : Powers M)
    (names : Option (List (List Char))) (indices : Option (List (Option (List ℕ)))) (R : PolyObj)
    (hR : fromCoeffsAndPowers setOrder coeffs powers none names indices none = .ok R) :
    R.md.params = [] := by
  have h0 : setOrder ((List.finRange M).flatMap fun _ => ([] : List Sym)).dedup = [] := by
    have : ((List.finRange M).flatMap fun _ => ([] : List Sym)) = [] := by simp
    rw [this]
    exact (hset _).eq_nil
  simp only [fromCoeffsAndPowers, Option.elim, Option.getD_none, defaultParams, hM.ne', if_false,
    h0] at hR
  split at hR
  · cases hR
  · split_ifs at hR
    rw [fromCoeffs_md _ _ _ _ _ hR]

/-- C144: with all arguments given nothing is derived: names, indices and parameters of the result, in
this order, are the given ones. -/
theorem C144_explicit {M : ℕ} (setOrder : List Sym → List Sym) (coeffs : Fin M → ℂ)
    (powers : Powers M) (cp : Option (Fin M → List Sym)) (ns : List (List Char))
    (inds : List (Option (List ℕ))) (ps : List Sym) (R : PolyObj)
    (hR : fromCoeffsAndPowers setOrder coeffs powers cp (some ns) (some inds) (some ps) = .ok R) :
    R.md.vars = ns.zip inds ∧ R.md.params = ps := by
  simp only [fromCoeffsAndPowers, Option.elim, Option.getD_some] at hR
  split_ifs at hR
  rw [fromCoeffs_md _ _ _ _ _ hR]
  exact ⟨rfl, rfl⟩

/-- C144 is violated: there are no default names for more than 26 variables, the call raises. -/
theorem C144_many_violated {M n : ℕ} (hM : 0 < M) (hn : 26 < n) (setOrder : List Sym → List Sym)
    (coeffs : Fin M → ℂ) (cp : Option (Fin M → List Sym)) (d : Fin n → ℕ)
    (p : (v : Fin n) → Fin M → Fin (d v) → ℕ) :
    fromCoeffsAndPowers setOrder coeffs (List.ofFn fun v => some fun c => List.ofFn (p v c)) cp
      none none none = .error .valueError := by
  have hsig : signatureOk (defaultNames n) = false := by
    unfold signatureOk
    rw [Bool.and_eq_false_iff]
    left
    rw [List.all_eq_false]
    refine ⟨['{'], ?_, by decide⟩
    unfold defaultNames
    rw [List.mem_map]
    exact ⟨26, List.mem_range.2 hn, by decide⟩
  simp only [fromCoeffsAndPowers, Option.elim, defaultIndices_ofFn hM, defaultParams, hM.ne',
    if_false, List.length_ofFn, Option.getD_none, hsig]
  rfl

/-- C144 is violated: a variable without powers (`None`, as `to_coeffs_and_powers` returns it for a
variable that does not occur) makes the call with default indices raise, even if all variables
before it are fine. -/
theorem C144_absent_violated {M n : ℕ} (hM : 0 < M) (setOrder : List Sym → List Sym)
    (coeffs : Fin M → ℂ) (cp : Option (Fin M → List Sym)) (d : Fin n → ℕ)
    (p : (v : Fin n) → Fin M → Fin (d v) → ℕ) (rest : Powers M) (names : Option (List (List Char)))
    (parameters : Option (List Sym)) :
    fromCoeffsAndPowers setOrder coeffs
      ((List.ofFn fun v => some fun c => List.ofFn (p v c)) ++ none :: rest) cp names none parameters =
      .error .typeError := by
  have h : ∀ (n : ℕ) (d : Fin n → ℕ) (p : (v : Fin n) → Fin M → Fin (d v) → ℕ),
      defaultIndices ((List.ofFn fun v => some fun c => List.ofFn (p v c)) ++ none :: rest) =
        .error .typeError := by
    intro n
    induction n with
    | zero => intro d p; simp [defaultIndices]
    | succ n ih =>
      intro d p
      rw [List.ofFn_succ, List.cons_append, defaultIndices, dif_pos hM,
        ih (fun v => d v.succ) (fun v => p v.succ)]
  simp only [fromCoeffsAndPowers, Option.elim, h]

/-- Compiling fails if it fails for one of the symbols. -/
theorem compileExpr_sym_error (m : Meta) (s : Sym) (e0 : PyErr) (hs : compileSym m s = .error e0) :
    (e : Expr) → s ∈ e.symbols → ∃ err, compileExpr m e = .error err := by
  have hlist : ∀ l : List Expr, (∀ e ∈ l, s ∈ e.symbols → ∃ err, compileExpr m e = .error err) →
      s ∈ Expr.symbolsList l → ∃ err, compileList m l = .error err := by
    intro l
    induction l with
    | nil => intro _ h; simp [Expr.symbolsList] at h
    | cons e l ih =>
      intro he h
      cases hc : compileExpr m e with
      | error err => exact ⟨err, by simp only [compileList, hc]⟩
      | ok f =>
        rw [Expr.symbolsList, List.mem_append] at h
        rcases h with h | h
        · obtain ⟨err, h'⟩ := he e (by simp) h
          rw [hc] at h'; cases h'
        · obtain ⟨err, h'⟩ := ih (fun e' he' => he e' (by simp [he'])) h
          exact ⟨err, by simp only [compileList, hc, h']⟩
  intro e
  induction e using Expr.rec (motive_2 := fun l => ∀ e ∈ l, s ∈ e.symbols → ∃ err, compileExpr m e = .error err) with
  | sym t =>
    intro h
    rw [Expr.symbols, List.mem_singleton] at h
    subst h
    exact ⟨e0, by rw [compileExpr, hs]⟩
  | int n => intro h; simp [Expr.symbols] at h
  | float r => intro h; simp [Expr.symbols] at h
  | imagUnit => intro h; simp [Expr.symbols] at h
  | other => intro h; simp [Expr.symbols] at h
  | add args ih =>
    intro h
    rw [Expr.symbols] at h
    obtain ⟨err, h'⟩ := hlist args ih h
    exact ⟨err, by simp only [compileExpr, h']⟩
  | mul args ih =>
    intro h
    rw [Expr.symbols] at h
    obtain ⟨err, h'⟩ := hlist args ih h
    exact ⟨err, by simp only [compileExpr, h']⟩
  | pow b n ih =>
    intro h
    rw [Expr.symbols] at h
    obtain ⟨err, h'⟩ := ih h
    exact ⟨err, by simp only [compileExpr, h']⟩
  | nil e he => simp at he
  | cons e l h1 h2 e' he' =>
    rcases List.mem_cons.1 he' with rfl | he'
    · exact h1 ‹_›
    · exact h2 e' he' ‹_›

theorem vars_polyExpr (p : MvPolynomial Sym ℂ) (s : Sym) (hs : s ∈ p.vars) :
    s ∈ (polyExpr p).symbols := by
  obtain ⟨m, hm, ht⟩ := (mem_vars_iff_mem_support s).1 hs
  unfold polyExpr
  rw [Expr.symbols, symbolsList_eq, List.mem_flatMap]
  refine ⟨_, List.mem_map.2 ⟨m, Finset.mem_toList.2 hm, rfl⟩, ?_⟩
  unfold termExpr
  rw [Expr.symbols, symbolsList_eq, List.flatMap_cons, List.mem_append, List.mem_flatMap]
  right
  refine ⟨_, List.mem_map.2 ⟨s, Finset.mem_toList.2 ht, rfl⟩, ?_⟩
  unfold powExpr
  split_ifs <;> simp [Expr.symbols]

/-- A polynomial in which the bare name of an array variable occurs cannot be evaluated. -/
theorem call_clash (P : PolyObj) (hn : P.md.names.Nodup) (name : List Char) (inds : List ℕ)
    (hv : (name, some inds) ∈ P.md.vars) (hg : GoodName name) (hs : name ∈ P.poly.vars)
    (args : List Val) (kwargs : List (List Char × Val)) : ∃ err, P.call args kwargs = .error err := by
  unfold PolyObj.call callNum
  cases sortVarArgs Val.len P.md.names P.md.params.length args kwargs with
  | error e => exact ⟨e, rfl⟩
  | ok r =>
    obtain ⟨vals, params⟩ := r
    have hc : compileSym P.md name = .error .keyError := by
      unfold compileSym
      rw [splitSubscript_good name hg]
      have h1 : name ∈ P.md.names := List.mem_map.2 ⟨_, hv, rfl⟩
      simp only [h1, if_true, dictGet_of_mem P.md.vars hn hv]
    obtain ⟨err, he⟩ := compileExpr_sym_error P.md name _ hc _ (vars_polyExpr _ _ hs)
    exact ⟨err, by simp only [evalNum, he]⟩

/-- C144 is violated: a symbolic coefficient called like a default variable. The polynomial `a * a0` is
built from the coefficient `1`, the symbolic coefficient `a` and the power `1` without complaint,
but every call of it raises. -/
theorem C144_clash_violated (setOrder : List Sym → List Sym) (hset : ∀ l, (setOrder l).Perm l) :
    ∃ R, fromCoeffsAndPowers (M := 1) setOrder (fun _ => 1) [some fun _ => [1]]
        (some fun _ => ["a".toList]) none none none = .ok R ∧
      R.md.names = ["a".toList] ∧ R.md.params = ["a".toList] ∧
      ∀ args kwargs, ∃ err, R.call args kwargs = .error err := by
  have h0 : setOrder ((List.finRange 1).flatMap fun _ => ["a".toList]).dedup = ["a".toList] :=
    List.perm_singleton.1 (hset _)
  have heq := fromCoeffsAndPowers_eq (M := 1) (n := 1) one_pos setOrder (fun _ => 1)
    (some fun _ => ["a".toList]) none (fun _ => "a".toList) (fun _ => 1) (fun _ _ _ => 1)
    (by decide) (by decide)
  rw [Option.getD_some, h0] at heq
  have hpow : (List.ofFn fun _ : Fin 1 => some fun _ : Fin 1 => List.ofFn fun _ : Fin 1 => 1) =
    [some fun _ => [1]] := rfl
  rw [hpow] at heq
  have hpoly : coeffsPoly (M := 1) (fun _ => 1) [some fun _ => [1]] (fun _ => ["a".toList])
      ⟨List.ofFn fun _ : Fin 1 => ("a".toList, some (List.range 1)), ["a".toList]⟩ =
      X "a".toList * X (mergeSubscript "a".toList 0) := by
    simp [coeffsPoly, monSpec, entryProd, varPolys, varSymbols, List.range_succ]
  have hvars : (X "a".toList * X (mergeSubscript "a".toList 0) : MvPolynomial Sym ℂ).vars =
      {"a".toList, mergeSubscript "a".toList 0} := by
    have hne : "a".toList ≠ mergeSubscript "a".toList 0 := by decide
    rw [X, X, monomial_mul, vars_monomial (by simp),
      Finsupp.support_add_eq (by
        rw [Finsupp.support_single _ one_ne_zero, Finsupp.support_single _ one_ne_zero]
        simpa using hne),
      Finsupp.support_single _ one_ne_zero, Finsupp.support_single _ one_ne_zero]
    rfl
  rw [fromCoeffs_eq (M := 1) (fun _ => 1) [some fun _ => [1]] (fun _ => ["a".toList])
    ⟨List.ofFn fun _ : Fin 1 => ("a".toList, some (List.range 1)), ["a".toList]⟩ (by simp)
    (fun c s h => h)
    (compatible_defaults (M := 1) (n := 1) (fun _ => "a".toList) (fun _ => 1) (fun _ _ _ => 1)),
    hpoly, hvars, if_neg] at heq
  · refine ⟨_, heq, rfl, rfl, fun args kwargs => ?_⟩
    refine call_clash _ (by simp [Meta.names]) "a".toList (List.range 1) (by simp) (by decide) ?_ _ _
    dsimp only
    rw [hvars]
    simp
  · intro h
    rw [List.filter_eq_nil_iff] at h
    have := h (mergeSubscript "a".toList 0) (by simp)
    revert this
    decide

/-- C144 is violated: the order of derived parameters is not determined. From the coefficients `1, 1`,
the symbolic coefficients `s` and `t` and the powers `1, 0`, two orders in which python may list the
set of symbols (they differ between processes) give objects that return different values, `5 s + t`
with `(s, t) = (2, 3)` and with `(s, t) = (3, 2)`, for the same call. -/
theorem C144_order_violated :
    ∃ order order' : List Sym → List Sym, (∀ l, (order l).Perm l) ∧ (∀ l, (order' l).Perm l) ∧
      ∃ R R', fromCoeffsAndPowers (M := 2) order (fun _ => 1) [some fun c => [1 - c.val]]
          (some ![["s".toList], ["t".toList]]) none none none = .ok R ∧
        fromCoeffsAndPowers (M := 2) order' (fun _ => 1) [some fun c => [1 - c.val]]
          (some ![["s".toList], ["t".toList]]) none none none = .ok R' ∧
        R.call [.vec [5], .vec [2, 3]] [] = .ok 13 ∧ R'.call [.vec [5], .vec [2, 3]] [] = .ok 17 := by
  have hcp : ∀ c : Fin 2, ∀ s ∈ ![["s".toList], ["t".toList]] c, ∃ name ix,
      splitSubscript s = .ok (name, ix) ∧ ∀ v : Fin 1, name ≠ [alphabet.getD v ' '] := by
    intro c s hs
    refine ⟨s, none, splitSubscript_good s ?_, ?_⟩ <;> revert s c <;> decide
  have hr : ∀ c : Fin 2, ((fun _ => 1 : Fin 2 → ℂ) c).im = 0 := by simp
  have key := fun (order : List Sym → List Sym) (h : ∀ l, (order l).Perm l) =>
    C144_defaults_partial (M := 2) (n := 1) two_pos (by norm_num) order h (fun _ => 1) hr
      ![["s".toList], ["t".toList]] (fun _ => 1) (fun _ c _ => 1 - c.val) hcp
  have hpow : (List.ofFn fun _ : Fin 1 => some fun c : Fin 2 => List.ofFn fun _ : Fin 1 => 1 - c.val) =
    [some fun c => [1 - c.val]] := rfl
  have hval : ∀ ρ : Sym → ℂ, documentedSum (M := 2) (n := 1) (d := fun _ => 1)
      (fun v : Fin 1 => [alphabet.getD v ' ']) (fun _ => 1) ![["s".toList], ["t".toList]]
      (fun _ c _ => 1 - c.val) ρ = ρ "s".toList * ρ "a0".toList + ρ "t".toList := by
    intro ρ
    have h0 : mergeSubscript ([alphabet[0]?.getD ' ']) 0 = ['a', '0'] := by decide
    simp [documentedSum, Fin.sum_univ_two, h0]
  have hdep : ∃ ρ ρ' : Sym → ℂ, (∀ c : Fin 2, ∀ s ∈ ![["s".toList], ["t".toList]] c, ρ s = ρ' s) ∧
      documentedSum (M := 2) (n := 1) (d := fun _ => 1)
      (fun v : Fin 1 => [alphabet.getD v ' ']) (fun _ => 1) ![["s".toList], ["t".toList]]
      (fun _ c _ => 1 - c.val) ρ ≠ documentedSum (M := 2) (n := 1) (d := fun _ => 1)
      (fun v : Fin 1 => [alphabet.getD v ' ']) (fun _ => 1) ![["s".toList], ["t".toList]]
      (fun _ c _ => 1 - c.val) ρ' := by
    refine ⟨fun _ => 1, fun s => if s = "a0".toList then 0 else 1, ?_, ?_⟩
    · intro c s hs
      have : s ≠ "a0".toList := by revert s c; decide
      dsimp only
      rw [if_neg this]
    · rw [hval, hval]; simp
  have hmd : ∀ (order : List Sym → List Sym) (R : PolyObj), fromCoeffsAndPowers (M := 2) order (fun _ => 1)
      [some fun c => [1 - c.val]] (some ![["s".toList], ["t".toList]]) none none none = .ok R →
      R.md.params = order ["s".toList, "t".toList] := by
    intro order R hR
    have heq := fromCoeffsAndPowers_eq (M := 2) (n := 1) two_pos order (fun _ => 1)
      (some ![["s".toList], ["t".toList]]) none (fun _ => "a".toList) (fun _ => 1)
      (fun _ c _ => 1 - c.val) (by decide) (by decide)
    rw [hpow, hR] at heq
    rw [fromCoeffs_md _ _ _ _ _ heq.symm]
    congr 1
  have hcall : ∀ (order : List Sym → List Sym) (R : PolyObj), (∀ l, (order l).Perm l) →
      fromCoeffsAndPowers (M := 2) order (fun _ => 1) [some fun c => [1 - c.val]]
        (some ![["s".toList], ["t".toList]]) none none none = .ok R → ∀ ρ : Sym → ℂ,
      R.call [.vec [ρ "a0".toList], .vec ((order ["s".toList, "t".toList]).map ρ)] [] =
        .ok (ρ "s".toList * ρ "a0".toList + ρ "t".toList) := by
    intro order R ho hR ρ
    obtain ⟨h1, -, -, h4⟩ := (key order ho).1 R hR
    rw [← hval, ← h4 ρ]
    have h0 : mergeSubscript ([alphabet.getD 0 ' ']) 0 = "a0".toList := by decide
    unfold PolyObj.callAt Meta.inputs Meta.paramInput
    rw [h1, hmd order R hR]
    simp only [List.ofFn_succ, List.ofFn_zero, List.map_cons, List.map_nil, varInput, List.cons_append,
      List.nil_append, List.range_succ, List.range_zero, Fin.val_zero, h0]
  obtain ⟨R, hR⟩ := (key id fun l => List.Perm.refl l).2 hdep
  obtain ⟨R', hR'⟩ := (key List.reverse fun l => List.reverse_perm l).2 hdep
  refine ⟨id, List.reverse, fun l => List.Perm.refl l, fun l => List.reverse_perm l, R, R', hR, hR', ?_, ?_⟩
  · have := hcall id R (fun l => List.Perm.refl l) hR
      (fun s => if s = "a0".toList then 5 else if s = "s".toList then 2 else 3)
    simp at this
    rw [this]; norm_num
  · have := hcall List.reverse R' (fun l => List.reverse_perm l) hR'
      (fun s => if s = "a0".toList then 5 else if s = "s".toList then 3 else 2)
    simp at this
    rw [this]; norm_num

/-! ## The hypotheses can be met -/

/-- Two variables, `a` with two entries and `b` with one, and two parameters:
`3 * psi * a0^2 * b0 - phi * a1`. -/
example (ρ : Sym → ℂ) : ∃ R, fromCoeffsAndPowers (M := 2) id ![3, -1]
      [some ![[2, 0], [0, 1]], some ![[1], [0]]] (some ![["psi".toList], ["phi".toList]]) none none none =
        .ok R ∧
    R.callAt ρ = .ok (3 * ρ "psi".toList * (ρ "a0".toList ^ 2 * ρ "b0".toList) -
      ρ "phi".toList * ρ "a1".toList) := by
  have hcp : ∀ c : Fin 2, ∀ s ∈ ![["psi".toList], ["phi".toList]] c, ∃ name ix,
      splitSubscript s = .ok (name, ix) ∧ ∀ v : Fin 2, name ≠ [alphabet.getD v ' '] := by
    intro c s hs
    refine ⟨s, none, splitSubscript_good s ?_, ?_⟩ <;> revert s c <;> decide
  have hr : ∀ c : Fin 2, ((![3, -1] : Fin 2 → ℂ) c).im = 0 := by
    intro c; fin_cases c <;> simp
  have key := C144_defaults_partial (M := 2) (n := 2) two_pos (by norm_num) id (fun l => List.Perm.refl l)
    ![3, -1] hr ![["psi".toList], ["phi".toList]] ![2, 1]
    (Fin.cons ![![2, 0], ![0, 1]] (Fin.cons ![![1], ![0]] finZeroElim)) hcp
  have hpow : (List.ofFn fun v : Fin 2 => some fun c : Fin 2 => List.ofFn
      ((Fin.cons ![![2, 0], ![0, 1]] (Fin.cons ![![1], ![0]] finZeroElim) :
        (v : Fin 2) → Fin 2 → Fin ((![2, 1] : Fin 2 → ℕ) v) → ℕ) v c)) =
      [some ![[2, 0], [0, 1]], some ![[1], [0]]] := by
    simp only [List.ofFn_succ, List.ofFn_zero]
    congr 2
    · funext c; fin_cases c <;> rfl
    · congr 1; funext c; fin_cases c <;> rfl
  rw [hpow] at key
  have e0 : mergeSubscript ([alphabet.getD 0 ' ']) 0 = "a0".toList := by decide
  have e1 : mergeSubscript ([alphabet.getD 0 ' ']) 1 = "a1".toList := by decide
  have e2 : mergeSubscript ([alphabet.getD 1 ' ']) 0 = "b0".toList := by decide
  have hval : ∀ ρ : Sym → ℂ, documentedSum (M := 2) (n := 2) (d := ![2, 1])
      (fun v : Fin 2 => [alphabet.getD v ' ']) ![3, -1] ![["psi".toList], ["phi".toList]]
      (Fin.cons ![![2, 0], ![0, 1]] (Fin.cons ![![1], ![0]] finZeroElim)) ρ =
      3 * ρ "psi".toList * (ρ "a0".toList ^ 2 * ρ "b0".toList) - ρ "phi".toList * ρ "a1".toList := by
    intro ρ
    rw [← e0, ← e1, ← e2]
    unfold documentedSum
    rw [Fin.sum_univ_two]
    simp only [Fin.prod_univ_two]
    change _ * _ * ((∏ i : Fin 2, _) * ∏ i : Fin 1, _) + _ * _ * ((∏ i : Fin 2, _) * ∏ i : Fin 1, _) = _
    simp only [Fin.prod_univ_two, Fin.prod_univ_one]
    change (3 : ℂ) * (List.map ρ ["psi".toList]).prod *
        ((ρ (mergeSubscript [alphabet.getD 0 ' '] 0) ^ 2 * ρ (mergeSubscript [alphabet.getD 0 ' '] 1) ^ 0) *
          ρ (mergeSubscript [alphabet.getD 1 ' '] 0) ^ 1) +
      (-1 : ℂ) * (List.map ρ ["phi".toList]).prod *
        ((ρ (mergeSubscript [alphabet.getD 0 ' '] 0) ^ 0 * ρ (mergeSubscript [alphabet.getD 0 ' '] 1) ^ 1) *
          ρ (mergeSubscript [alphabet.getD 1 ' '] 0) ^ 0) = _
    simp only [List.map_cons, List.map_nil, List.prod_cons, List.prod_nil]
    ring
  obtain ⟨R, hR⟩ := key.2 ⟨fun _ => 1, fun s => if s = "a1".toList then 0 else 1, by
    intro c s hs
    have : s ≠ "a1".toList := by revert s c; decide
    dsimp only
    rw [if_neg this], by
    rw [hval, hval]; simp⟩
  refine ⟨R, hR, ?_⟩
  rw [(key.1 R hR).2.2.2 ρ, hval]

end Cyjax
