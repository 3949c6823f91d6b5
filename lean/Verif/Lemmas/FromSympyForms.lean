import Verif.Lemmas.FromSympy
import Verif.Lemmas.PolyEval
import Verif.Spec.FromSympyForms
import Mathlib.Algebra.MvPolynomial.Variables

/-! # Lemmas: the other inputs of `from_sympy` -/

namespace Cyjax.Polynomial

open MvPolynomial

variable {vars : List (List Char × Option (List ℕ))} {params : Option (List Sym)} {p : MvPolynomial Sym ℂ}
  {free : List Sym} {a : FromSympyArgs}

theorem split_unique {s : Sym} {n n' : List Char} {i i' : Option ℤ} (h : splitSubscript s = .ok (n, i))
    (h' : splitSubscript s = .ok (n', i')) : n = n' ∧ i = i' := by
  rw [h] at h'
  simpa using h'

theorem isOther_split {names : List (List Char)} {s : Sym} (h : IsOther names s) :
    ∃ n i, splitSubscript s = .ok (n, i) ∧ n ∉ names := by
  obtain ⟨n, hn, h | ⟨i, h⟩⟩ := h
  · exact ⟨n, _, h, hn⟩
  · exact ⟨n, _, h, hn⟩

theorem isEntry_split (hg : ∀ v ∈ vars, GoodName v.1) {s : Sym} (h : IsEntry vars s) :
    ∃ n i, splitSubscript s = .ok (n, i) ∧ n ∈ vars.map Prod.fst := by
  obtain ⟨⟨n, inds⟩, hv, h⟩ := h
  cases inds with
  | none =>
    simp only at h
    subst h
    exact ⟨_, _, splitSubscript_good _ (hg _ hv), List.mem_map.2 ⟨_, hv, rfl⟩⟩
  | some inds =>
    obtain ⟨i, _, hi⟩ := h
    exact ⟨_, _, hi, List.mem_map.2 ⟨_, hv, rfl⟩⟩

theorem isEntry_not_other (hg : ∀ v ∈ vars, GoodName v.1) {s : Sym} (h : IsEntry vars s) :
    ¬ IsOther (vars.map Prod.fst) s := by
  intro h'
  obtain ⟨n, i, h1, h2⟩ := isEntry_split hg h
  obtain ⟨n', i', h3, h4⟩ := isOther_split h'
  exact h4 ((split_unique h1 h3).1 ▸ h2)

/-- A variable is determined by its name. -/
theorem var_unique (h : (vars.map Prod.fst).Nodup) {v w : List Char × Option (List ℕ)} (hv : v ∈ vars) (hw : w ∈ vars)
    (e : v.1 = w.1) : v = w := by
  exact List.inj_on_of_nodup_map h hv hw e

theorem entry_cases (h : FitsExpr vars params p free) (ha : a.params = params) {s : Sym} (hs : IsEntry vars s) :
    ∃ v ∈ vars, ∃ k : ℕ, ∃ hk : k < vars.length, vars[k] = v ∧
      ((v.2 = none ∧ s = v.1 ∧ symKind a (vars.map Prod.fst) s = .scalar k) ∨
        ∃ l i, v.2 = some l ∧ i ∈ l ∧ Indexed s v.1 i ∧
          symKind a (vars.map Prod.fst) s = .idx k i (mergeSubscript v.1 i)) := by
  have hpar : s ∉ a.params.getD [] := by
    intro hsp
    rw [ha] at hsp
    cases hp : params with
    | none => rw [hp] at hsp; simp at hsp
    | some l =>
      rw [hp] at hsp
      exact isEntry_not_other h.good hs ((h.params_ok l hp).2 s hsp)
  obtain ⟨v, hv, hvs⟩ := hs
  obtain ⟨k, hk, hkv⟩ := List.getElem_of_mem hv
  refine ⟨v, hv, k, hk, hkv, ?_⟩
  have hmem : v.1 ∈ vars.map Prod.fst := List.mem_map.2 ⟨v, hv, rfl⟩
  have hd : dictIndex (vars.map Prod.fst) v.1 = some k := by
    have := dictIndex_nodup h.names (k := k) (by simpa using hk)
    rwa [List.getElem_map, hkv] at this
  rcases hv2 : v.2 with _ | l
  · rw [hv2] at hvs
    simp only at hvs
    refine Or.inl ⟨rfl, hvs, symKind_scalar_iff.2 ⟨hpar, v.1, hmem, hd, ?_⟩⟩
    rw [hvs]
    exact splitSubscript_good _ (h.good v hv)
  · rw [hv2] at hvs
    obtain ⟨i, hi, hin⟩ := hvs
    exact Or.inr ⟨l, i, rfl, hi, hin, symKind_idx_iff.2 ⟨hpar, v.1, hmem, hd, hin, rfl⟩⟩

theorem other_kind (ha : a.params = params) {s : Sym}
    (hs : IsOther (vars.map Prod.fst) s) (hp : ∀ l, params = some l → s ∈ l) :
    (params = none ∧ symKind a (vars.map Prod.fst) s = .par) ∨
      (∃ l, params = some l ∧ s ∈ l ∧ symKind a (vars.map Prod.fst) s = .skip) := by
  cases hpa : params with
  | some l =>
    refine Or.inr ⟨l, rfl, hp l hpa, ?_⟩
    unfold symKind
    rw [ha, hpa, if_pos (by simpa using hp l hpa)]
  | none =>
    refine Or.inl ⟨rfl, ?_⟩
    unfold symKind
    rw [ha, hpa, if_neg (by simp)]
    obtain ⟨n, hn, hu | ⟨i, hi⟩⟩ := hs
    · rw [splitNat_scalar.2 hu]
      simp only
      rw [if_neg hn]
      simp
    · rw [splitNat_indexed.2 hi]
      simp only
      rw [if_neg hn]
      simp

/-- Every free symbol is a variable, an entry, or a parameter, and is read as such. -/
theorem fits_kind (h : FitsExpr vars params p free) (ha : a.params = params) {s : Sym} (hs : s ∈ free) :
    (∃ v ∈ vars, ∃ k : ℕ, ∃ hk : k < vars.length, vars[k] = v ∧
      ((v.2 = none ∧ s = v.1 ∧ symKind a (vars.map Prod.fst) s = .scalar k) ∨
        ∃ l i, v.2 = some l ∧ i ∈ l ∧ Indexed s v.1 i ∧
          symKind a (vars.map Prod.fst) s = .idx k i (mergeSubscript v.1 i))) ∨
    (IsOther (vars.map Prod.fst) s ∧ ((params = none ∧ symKind a (vars.map Prod.fst) s = .par) ∨
      (∃ l, params = some l ∧ s ∈ l ∧ symKind a (vars.map Prod.fst) s = .skip))) := by
  rcases h.symbols s hs with h1 | ⟨h1, h2⟩
  · exact Or.inl (entry_cases h ha h1)
  · exact Or.inr ⟨h1, other_kind ha h1 h2⟩

theorem fits_noMix (h : FitsExpr vars params p free) (ha : a.params = params) :
    NoMixK a (vars.map Prod.fst) free := by
  intro _ v hv w hw k i t h1 h2
  rcases fits_kind h ha hv with ⟨x, -, kx, hkx, rfl, ⟨ex, -, h3⟩ | ⟨_, _, -, -, -, h3⟩⟩ | ⟨-, ⟨-, h3⟩ | ⟨_, -, -, h3⟩⟩
  · rcases fits_kind h ha hw with ⟨y, -, ky, hky, rfl, ⟨-, -, h4⟩ | ⟨_, _, ey, -, -, h4⟩⟩ | ⟨-, ⟨-, h4⟩ | ⟨_, -, -, h4⟩⟩
    · rw [h2] at h4; cases h4
    · rw [h1] at h3
      rw [h2] at h4
      cases h3
      cases h4
      rw [ex] at ey
      cases ey
    · rw [h2] at h4; cases h4
    · rw [h2] at h4; cases h4
  · rw [h1] at h3; cases h3
  · rw [h1] at h3; cases h3
  · rw [h1] at h3; cases h3

/-- The call succeeds, with these variables, if the variables found are these. -/
theorem fits_fromSympy (h : FitsExpr vars params p free) (ha : a.params = params)
    (hn : a.names = some (vars.map Prod.fst)) (hi : a.indices = none ∨ a.indices = some (vars.map Prod.snd))
    (hlen : (indsOf a (vars.map Prod.fst) free).length = vars.length)
    (hvars : ∀ app, (finishMeta a (stateOf a (vars.map Prod.fst) free app)).vars = vars) :
    ∃ P, fromSympy a p free = .ok P ∧ P.md.vars = vars ∧ P.gens = P.md.varSyms ∧ P.md.WF ∧ P.Declared ∧
      (∀ l, params = some l → P.md.params = l) ∧
      (params = none → P.md.params.Pairwise (· ≤ ·) ∧
        ∀ s, s ∈ P.md.params ↔ s ∈ free ∧ IsOther (vars.map Prod.fst) s) ∧
      ∃ f : Sym → Sym, P.poly = rename f p ∧
        (∀ s ∈ free, ∀ v ∈ vars, ∀ i, Indexed s v.1 i → f s = mergeSubscript v.1 i) ∧
        ∀ s ∈ free, (∀ v ∈ vars, ∀ i, ¬ Indexed s v.1 i) → f s = s := by
  set ns := vars.map Prod.fst with hns
  obtain ⟨app, hs⟩ := (scan_ok_iff a ns hn free h.nodup (fits_noMix h ha)).1 (by
    intro s hs
    unfold okSym
    rcases fits_kind h ha hs with ⟨v, -, k, hk, rfl, ⟨e, -, h3⟩ | ⟨l, i, e, hil, -, h3⟩⟩ | ⟨-, ⟨-, h3⟩ | ⟨_, -, -, h3⟩⟩
    · rw [h3]
      intro I hI
      rcases hi with hi | hi
      · rw [hi] at hI; cases hI
      · rw [hi] at hI
        cases hI
        rw [List.getElem?_map, List.getElem?_eq_getElem hk, Option.map_some, e]
    · rw [h3]
      intro I hI
      rcases hi with hi | hi
      · rw [hi] at hI; cases hI
      · rw [hi] at hI
        cases hI
        exact ⟨l, by rw [List.getElem?_map, List.getElem?_eq_getElem hk, Option.map_some, e], hil⟩
    · rw [h3]; trivial
    · rw [h3]; trivial)
  set st := stateOf a ns free app with hst
  have hv := hvars app
  rw [← hst] at hv
  have hpar1 : ∀ l, params = some l → (finishMeta a st).params = l := by
    intro l hl
    have : free.filter (fun v => isPar (symKind a ns v)) = [] := by
      rw [List.filter_eq_nil_iff]
      intro s hs
      rcases fits_kind h ha hs with ⟨_, -, _, -, -, ⟨-, -, h3⟩ | ⟨_, _, -, -, -, h3⟩⟩ | ⟨-, ⟨h0, -⟩ | ⟨_, -, -, h3⟩⟩
      · rw [hns, h3]; simp [isPar]
      · rw [hns, h3]; simp [isPar]
      · rw [hl] at h0; cases h0
      · rw [hns, h3]; simp [isPar]
    unfold finishMeta
    simp only [hst, stateOf, this]
    simp [ha, hl]
  have hpar2 : params = none → (finishMeta a st).params = sortSyms (free.filter (fun v => isPar (symKind a ns v))) := by
    intro hl
    unfold finishMeta
    simp only [hst, stateOf]
    simp [ha, hl]
  have hmem : params = none → ∀ s, s ∈ (finishMeta a st).params ↔ s ∈ free ∧ IsOther ns s := by
    intro hl s
    rw [hpar2 hl, sortSyms, List.mem_mergeSort, List.mem_filter]
    constructor
    · rintro ⟨h1, h2⟩
      refine ⟨h1, ?_⟩
      rcases fits_kind h ha h1 with ⟨_, -, _, -, -, ⟨-, -, h3⟩ | ⟨_, _, -, -, -, h3⟩⟩ | ⟨h3, -⟩
      · rw [hns, h3] at h2; simp [isPar] at h2
      · rw [hns, h3] at h2; simp [isPar] at h2
      · exact h3
    · rintro ⟨h1, h2⟩
      refine ⟨h1, ?_⟩
      rcases other_kind (a := a) ha h2 (fun l hl' => by rw [hl] at hl'; cases hl') with ⟨-, h3⟩ | ⟨l, hl', -⟩
      · rw [hns, h3]; rfl
      · rw [hl] at hl'; cases hl'
  have hpm : ∀ s ∈ (finishMeta a st).params, IsOther ns s := by
    intro s hs
    cases hp : params with
    | none => exact ((hmem hp s).1 hs).2
    | some l => exact (h.params_ok l hp).2 s (by rwa [hpar1 l hp] at hs)
  have hpn : (finishMeta a st).params.Nodup := by
    cases hp : params with
    | none =>
      rw [hpar2 hp]
      exact (List.mergeSort_perm _ _).nodup_iff.2 (h.nodup.filter _)
    | some l => rw [hpar1 l hp]; exact (h.params_ok l hp).1
  have hnames : (finishMeta a st).names = ns := by
    rw [Meta.names, hv]
  have hwf : (finishMeta a st).WF := by
    refine ⟨by rw [hnames]; exact h.names, by rw [hv]; exact h.good, ?_, hpn, ?_⟩
    · rw [hv]
      exact fun v hv' l hl => (h.inds v hv' l hl).2
    · intro s hs
      rw [hnames]
      exact isOther_split (hpm s hs)
  have hf1 : ∀ s ∈ free, ∀ v ∈ vars, ∀ i, Indexed s v.1 i → renameSym st.rename s = mergeSubscript v.1 i := by
    intro s hs v hv' i hi'
    rw [hst, renameSym_stateOf]
    rcases fits_kind h ha hs with ⟨w, hw, _, -, -, ⟨-, e, h3⟩ | ⟨_, j, -, -, hj, h3⟩⟩ | ⟨h3, -⟩
    · have := splitSubscript_good _ (h.good w hw)
      rw [← e] at this
      exact absurd (split_unique this hi').2 (by simp)
    · rw [hns, h3]
      simp only [hs, if_true]
      obtain ⟨e1, e2⟩ := split_unique hj hi'
      simp only [Option.some.injEq, Nat.cast_inj] at e2
      rw [e1, e2]
    · obtain ⟨n, j, h4, h5⟩ := isOther_split h3
      exact absurd ((split_unique hi' h4).1 ▸ List.mem_map.2 ⟨v, hv', rfl⟩) h5
  have hf2 : ∀ s ∈ free, (∀ v ∈ vars, ∀ i, ¬ Indexed s v.1 i) → renameSym st.rename s = s := by
    intro s hs hno
    rw [hst, renameSym_stateOf]
    rcases fits_kind h ha hs with ⟨w, hw, _, -, -, ⟨-, e, h3⟩ | ⟨_, j, -, -, hj, h3⟩⟩ | ⟨-, ⟨-, h3⟩ | ⟨_, -, -, h3⟩⟩
    · rw [hns, h3]
    · exact absurd hj (hno w hw j)
    · rw [hns, h3]
    · rw [hns, h3]
  have hdecl : ∀ g ∈ (rename (renameSym st.rename) p).vars,
      g ∈ (finishMeta a st).varSyms ∨ g ∈ (finishMeta a st).params := by
    intro g hg
    obtain ⟨s, hs, rfl⟩ := mem_vars_rename _ _ hg
    have hsf := h.vars_free s hs
    rw [Meta.varSyms, hv]
    rcases fits_kind (a := a) h ha hsf with ⟨w, hw, _, -, -, ⟨e0, e, h3⟩ | ⟨l, j, e0, hjl, hj, h3⟩⟩ | ⟨h3, h4⟩
    · left
      rw [hf2 s hsf]
      · refine List.mem_flatMap.2 ⟨w, hw, ?_⟩
        unfold varSymbols
        rw [e0, e]
        simp
      · intro v hv' i hi'
        have := splitSubscript_good _ (h.good w hw)
        rw [← e] at this
        exact absurd (split_unique this hi').2 (by simp)
    · left
      rw [hf1 s hsf w hw j hj]
      refine List.mem_flatMap.2 ⟨w, hw, ?_⟩
      unfold varSymbols
      rw [e0]
      exact List.mem_map.2 ⟨j, hjl, rfl⟩
    · right
      rw [hf2 s hsf]
      · cases hp : params with
        | none => exact (hmem hp s).2 ⟨hsf, h3⟩
        | some l =>
          rw [hpar1 l hp]
          rcases h4 with ⟨h5, -⟩ | ⟨l', h5, h6, -⟩
          · rw [hp] at h5; cases h5
          · rw [hp] at h5; cases h5; exact h6
      · intro v hv' i hi'
        obtain ⟨n, j, h5, h6⟩ := isOther_split h3
        exact absurd ((split_unique hi' h5).1 ▸ List.mem_map.2 ⟨v, hv', rfl⟩) h6
  refine ⟨⟨finishMeta a st, rename (renameSym st.rename) p, (finishMeta a st).varSyms⟩, ?_, hv, rfl, hwf, ?_, hpar1,
    fun hl => ⟨?_, hmem hl⟩, renameSym st.rename, rfl, hf1, hf2⟩
  · unfold fromSympy
    rw [if_neg, hs]
    · unfold finish
      simp only
      rw [if_neg, if_neg, if_neg]
      · rintro (h1 | h1 | ⟨g, hg, hg'⟩ | ⟨g, hg, hg', hg''⟩)
        · rw [Meta.varSyms, hv, List.flatMap_eq_nil_iff] at h1
          obtain ⟨v, hv'⟩ := List.exists_mem_of_ne_nil _ h.ne
          have := h1 v hv'
          unfold varSymbols at this
          cases hv2 : v.2 with
          | none => rw [hv2] at this; cases this
          | some l =>
            rw [hv2] at this
            exact (h.inds v hv' l hv2).1 (by simpa using this)
        · exact h1 (varSyms_nodup _ hwf)
        · exact varSyms_not_param _ hwf g hg hg'
        · rcases hdecl g hg with h5 | h5
          · exact hg' h5
          · exact hg'' h5
      · rw [not_not, hst]
        change ns.length = (indsOf a ns free).length
        rw [hlen, hns, List.length_map]
      · rw [not_not, hst]
        change (ns ++ [paramsKey]).Nodup
        rw [List.nodup_append]
        refine ⟨h.names, by simp, ?_⟩
        intro x hx y hy
        simp only [List.mem_singleton] at hy
        subst hy
        rintro rfl
        exact h.key hx
    · rw [hn]
      rintro (h1 | ⟨h1, -⟩)
      · simp only [Option.some.injEq] at h1
        exact h.ne (by simpa [hns] using h1)
      · cases h1
  · intro s hs
    rcases hdecl s hs with h5 | h5
    · exact List.mem_append_left _ h5
    · exact List.mem_append_right _ h5
  · rw [hpar2 hl]
    have := List.pairwise_mergeSort (le := fun a b : Sym => decide (a ≤ b))
      (fun a b c h1 h2 => by simp only [decide_eq_true_eq] at *; exact List.le_trans h1 h2)
      (fun a b => by simpa using List.le_total a b) (free.filter (fun v => isPar (symKind a ns v)))
    simpa [sortSyms] using this

/-! ## Arrays of symbols -/

theorem arraySubscripts_ok {arr : List Sym} {n : List Char} {l : List ℕ}
    (h : List.Forall₂ (fun s i => Indexed s n i) arr l) : arraySubscripts arr = .ok l := by
  induction h with
  | nil => rfl
  | cons h _ ih => simp [arraySubscripts, splitNat_indexed.2 h, ih]

theorem array_ok {arr : List Sym} {v : List Char × Option (List ℕ)} (hg : GoodName v.1) (h : Describes arr v) :
    arrayName arr = .ok v.1 ∧ arrayIndices arr = .ok v.2 := by
  obtain ⟨n, inds⟩ := v
  unfold Describes at h
  cases inds with
  | none =>
    simp only at h
    subst h
    have := splitNat_scalar.2 (splitSubscript_good _ hg)
    simp only at this
    simp [arrayName, arrayIndices, this]
  | some l =>
    obtain ⟨hne, h⟩ := h
    cases h with
    | nil => exact absurd rfl hne
    | @cons s i arr l h1 h2 =>
      have h3 := splitNat_indexed.2 h1
      simp only at h1 h3
      refine ⟨by simp [arrayName, h3], ?_⟩
      cases h2 with
      | nil => simp [arrayIndices, h3]
      | cons h4 h5 =>
        have := arraySubscripts_ok (List.Forall₂.cons h1 (List.Forall₂.cons h4 h5))
        unfold arrayIndices
        simp only
        rw [this]

theorem arrayVars_ok {arrays : List (List Sym)} (hg : ∀ v ∈ vars, GoodName v.1)
    (h : List.Forall₂ Describes arrays vars) : arrayVars arrays = .ok vars := by
  induction h with
  | nil => rfl
  | @cons arr v arrays vars h _ ih =>
    obtain ⟨h1, h2⟩ := array_ok (hg v (by simp)) h
    simp [arrayVars, h1, h2, ih (fun w hw => hg w (by simp [hw]))]

theorem fits_arrays {arrays : List (List Sym)} (hv : arrayVars arrays = .ok vars)
    (hne : arrays ≠ []) : fromSympyArrays arrays params p free =
      fromSympy ⟨some (vars.map Prod.fst), params, some (vars.map Prod.snd)⟩ p free ∧
    (indsOf ⟨some (vars.map Prod.fst), params, some (vars.map Prod.snd)⟩ (vars.map Prod.fst) free).length = vars.length ∧
    ∀ app, (finishMeta ⟨some (vars.map Prod.fst), params, some (vars.map Prod.snd)⟩
      (stateOf ⟨some (vars.map Prod.fst), params, some (vars.map Prod.snd)⟩ (vars.map Prod.fst) free app)).vars = vars := by
  refine ⟨?_, by simp [indsOf], fun app => ?_⟩
  · unfold fromSympyArrays
    rw [if_neg hne, hv]
  · simp only [finishMeta, stateOf, indsOf, Option.isSome_some, if_true]
    rw [List.zip_map', List.map_id']

/-! ## Generators -/

theorem genNames_mem : ∀ {gens : List Sym} {ns : List (List Char)}, genNames gens = .ok ns →
    ∀ n, n ∈ ns ↔ ∃ g ∈ gens, ∃ i, splitNat g = .ok (n, i)
  | [], ns, h, n => by
    simp only [genNames, Except.ok.injEq] at h
    subst h
    simp
  | g :: gs, ns, h, n => by
    unfold genNames at h
    rcases hg : splitNat g with e | ⟨m, i⟩
    · rw [hg] at h; cases h
    · rcases hl : genNames gs with e | l
      · rw [hg, hl] at h; cases h
      · rw [hg, hl] at h
        simp only [Except.ok.injEq] at h
        subst h
        rw [List.mem_cons, genNames_mem hl n]
        constructor
        · rintro (rfl | ⟨g', hg', i', e⟩)
          · exact ⟨g, by simp, i, hg⟩
          · exact ⟨g', by simp [hg'], i', e⟩
        · rintro ⟨g', hg', i', e⟩
          rcases List.mem_cons.1 hg' with rfl | hg'
          · rw [hg] at e
            cases e
            exact Or.inl rfl
          · exact Or.inr ⟨g', hg', i', e⟩

theorem genNames_ok {gens : List Sym} (h : ∀ g ∈ gens, ∃ r, splitNat g = .ok r) : ∃ ns, genNames gens = .ok ns := by
  induction gens with
  | nil => exact ⟨[], rfl⟩
  | cons g gs ih =>
    obtain ⟨ns, hns⟩ := ih (fun g' hg' => h g' (by simp [hg']))
    obtain ⟨⟨n, i⟩, hr⟩ := h g (by simp)
    exact ⟨n :: ns, by simp [genNames, hr, hns]⟩

theorem genNames_forall {gens : List Sym} {ns : List (List Char)}
    (h : List.Forall₂ (fun g n => Unindexed g n ∨ ∃ i, Indexed g n i) gens ns) : genNames gens = .ok ns := by
  induction h with
  | nil => rfl
  | cons h _ ih =>
    rcases h with h | ⟨i, h⟩
    · simp [genNames, splitNat_scalar.2 h, ih]
    · simp [genNames, splitNat_indexed.2 h, ih]

theorem fits_perm {vars' : List (List Char × Option (List ℕ))} (h : FitsExpr vars params p free) (hp : vars.Perm vars') :
    FitsExpr vars' params p free where
  ne := by
    rintro rfl
    exact h.ne hp.eq_nil
  names := (hp.map Prod.fst).nodup_iff.1 h.names
  key := fun hk => h.key ((hp.map Prod.fst).mem_iff.2 hk)
  good := fun v hv => h.good v (hp.mem_iff.2 hv)
  inds := fun v hv => h.inds v (hp.mem_iff.2 hv)
  nodup := h.nodup
  vars_free := h.vars_free
  symbols := by
    intro s hs
    rcases h.symbols s hs with ⟨v, hv, h1⟩ | ⟨⟨n, hn, h1⟩, h2⟩
    · exact Or.inl ⟨v, hp.mem_iff.1 hv, h1⟩
    · exact Or.inr ⟨⟨n, fun hn' => hn ((hp.map Prod.fst).mem_iff.2 hn'), h1⟩, h2⟩
  params_ok := by
    intro l hl
    refine ⟨(h.params_ok l hl).1, fun s hs => ?_⟩
    obtain ⟨n, hn, h1⟩ := (h.params_ok l hl).2 s hs
    exact ⟨n, fun hn' => hn ((hp.map Prod.fst).mem_iff.2 hn'), h1⟩

/-- Without indices, the variables found are those with the subscripts that occur. -/
theorem fits_found (h : FitsExpr vars params p free)
    (hocc : ∀ v ∈ vars, ∀ l, v.2 = some l → l.Pairwise (· < ·) ∧ ∀ i ∈ l, ∃ s ∈ free, Indexed s v.1 i)
    (huniq : ∀ s ∈ free, ∀ s' ∈ free, ∀ v ∈ vars, ∀ i, Indexed s v.1 i → Indexed s' v.1 i → s = s') (app : List Bool) :
    (finishMeta ⟨some (vars.map Prod.fst), params, none⟩
      (stateOf ⟨some (vars.map Prod.fst), params, none⟩ (vars.map Prod.fst) free app)).vars = vars := by
  set a : FromSympyArgs := ⟨some (vars.map Prod.fst), params, none⟩ with ha
  have hap : a.params = params := rfl
  have hmem : ∀ k (hk : k < vars.length) i, i ∈ collected a (vars.map Prod.fst) free k ↔ ∃ l, vars[k].2 = some l ∧ i ∈ l := by
    intro k hk i
    unfold collected
    rw [List.mem_filterMap]
    constructor
    · rintro ⟨s, hs, h1⟩
      rcases fits_kind (a := a) h hap hs with ⟨v, -, k', hk', rfl, ⟨e, -, h3⟩ | ⟨l, i', e, hil, -, h3⟩⟩ | ⟨-, ⟨-, h3⟩ | ⟨_, -, -, h3⟩⟩
      · rw [h3] at h1; cases h1
      · rw [h3] at h1
        unfold idxOf at h1
        simp only at h1
        split_ifs at h1 with hkk
        subst hkk
        cases h1
        exact ⟨l, e, hil⟩
      · rw [h3] at h1; cases h1
      · rw [h3] at h1; cases h1
    · rintro ⟨l, e, hil⟩
      obtain ⟨s, hs, hsi⟩ := (hocc _ (List.getElem_mem hk) l e).2 i hil
      refine ⟨s, hs, ?_⟩
      have hent : IsEntry vars s := ⟨vars[k], List.getElem_mem hk, by rw [e]; exact ⟨i, hil, hsi⟩⟩
      obtain ⟨v, hv, k', hk', rfl, ⟨-, e', -⟩ | ⟨l', i', e', hil', hsi', h3⟩⟩ := entry_cases (a := a) h hap hent
      · have := splitSubscript_good _ (h.good _ hv)
        rw [← e'] at this
        exact absurd (split_unique this hsi).2 (by simp)
      · obtain ⟨e1, e2⟩ := split_unique hsi' hsi
        simp only [Option.some.injEq, Nat.cast_inj] at e2
        have e3 : k' = k := by
          have := h.names.getElem_inj_iff (i := k') (j := k) (hi := by simpa using hk') (hj := by simpa using hk)
          rw [List.getElem_map, List.getElem_map] at this
          exact this.1 e1
        subst e3
        rw [h3, e2]
        simp [idxOf]
  have hnd : ∀ k (hk : k < vars.length), (collected a (vars.map Prod.fst) free k).Nodup := by
    intro k hk
    unfold collected List.Nodup
    rw [List.pairwise_filterMap]
    refine List.Pairwise.imp_of_mem ?_ h.nodup
    intro s s' hs hs' hne i hi i' hi' e
    subst e
    have get : ∀ t ∈ free, idxOf k (symKind a (vars.map Prod.fst) t) = some i → Indexed t vars[k].1 i := by
      intro t ht h1
      rcases fits_kind (a := a) h hap ht with ⟨v, -, k', hk', rfl, ⟨e, -, h3⟩ | ⟨l, i', e, -, hil, h3⟩⟩ | ⟨-, ⟨-, h3⟩ | ⟨_, -, -, h3⟩⟩
      · rw [h3] at h1; cases h1
      · rw [h3] at h1
        unfold idxOf at h1
        simp only at h1
        split_ifs at h1 with hkk
        subst hkk
        cases h1
        exact hil
      · rw [h3] at h1; cases h1
      · rw [h3] at h1; cases h1
    exact hne (huniq s hs s' hs' vars[k] (List.getElem_mem hk) i (get s hs hi) (get s' hs' hi'))
  have hfin : (finishMeta a (stateOf a (vars.map Prod.fst) free app)).vars =
      (vars.map Prod.fst).zip (((List.range (vars.map Prod.fst).length).map fun k =>
        if collected a (vars.map Prod.fst) free k = [] then none
        else some (collected a (vars.map Prod.fst) free k)).map (Option.map sortNat)) := by
    simp [finishMeta, stateOf, indsOf, ha]
  rw [hfin]
  apply List.ext_getElem
  · simp
  · intro k h1 h2
    simp only [List.getElem_zip, List.getElem_map, List.getElem_range]
    refine Prod.ext rfl ?_
    simp only
    cases hv : vars[k].2 with
    | none =>
      rw [if_pos]
      · rfl
      · rw [List.eq_nil_iff_forall_not_mem]
        intro i hi
        obtain ⟨l, e, -⟩ := (hmem k h2 i).1 hi
        rw [hv] at e
        cases e
    | some l =>
      have hperm : (collected a (vars.map Prod.fst) free k).Perm l := by
        rw [List.perm_ext_iff_of_nodup (hnd k h2) (h.inds _ (List.getElem_mem h2) l hv).2]
        intro i
        rw [hmem k h2, hv]
        simp
      rw [if_neg]
      · rw [Option.map_some, sortNat_perm hperm]
        congr 1
        apply List.Perm.eq_of_pairwise (le := fun a b : ℕ => a ≤ b)
        · intro a b _ _ h1 h2
          omega
        · have := List.pairwise_mergeSort (le := fun a b : ℕ => decide (a ≤ b)) (by simp; omega) (by simp; omega) l
          simpa [sortNat] using this
        · exact ((hocc _ (List.getElem_mem h2) l hv).1).imp (fun h => le_of_lt h)
        · exact List.mergeSort_perm _ _
      · intro hnil
        rw [hnil] at hperm
        exact (h.inds _ (List.getElem_mem h2) l hv).1 hperm.nil_eq.symm

end Cyjax.Polynomial
