import Verif.Spec.FromSympy
import Verif.Lemmas.Poly
import Mathlib.Data.List.Sort

/-! # Lemmas about `from_sympy` -/

namespace Cyjax.Polynomial

open MvPolynomial

/-- What the loop does with a symbol when names are given. -/
inductive SymKind where
  | skip | par | scalar (k : ℕ) | idx (k i : ℕ) (target : Sym) | bad
  deriving DecidableEq

def symKind (a : FromSympyArgs) (ns : List (List Char)) (v : Sym) : SymKind :=
  if v ∈ a.params.getD [] then .skip
  else
    match splitNat v with
    | .error _ => .bad
    | .ok (name, index) =>
      if name ∈ ns then
        match dictIndex ns name, index with
        | none, _ => .bad
        | some k, none => .scalar k
        | some k, some i => .idx k i (mergeSubscript name i)
      else if a.params.isSome then .bad else .par

def isPar : SymKind → Bool
  | .par => true
  | _ => false

def idxOf (k : ℕ) : SymKind → Option ℕ
  | .idx k' i _ => if k' = k then some i else none
  | _ => none

def targetOf (v : Sym) : SymKind → Option (Sym × Sym)
  | .idx _ _ t => some (v, t)
  | _ => none

def collected (a : FromSympyArgs) (ns : List (List Char)) (done : List Sym) (k : ℕ) : List ℕ :=
  done.filterMap (fun v => idxOf k (symKind a ns v))

def indsOf (a : FromSympyArgs) (ns : List (List Char)) (done : List Sym) : List (Option (List ℕ)) :=
  match a.indices with
  | some I => I
  | none => (List.range ns.length).map fun k =>
      if collected a ns done k = [] then none else some (collected a ns done k)

def stateOf (a : FromSympyArgs) (ns : List (List Char)) (done : List Sym) (app : List Bool) : ScanState where
  names := ns
  inds := indsOf a ns done
  appeared := app
  params := a.params.getD [] ++ done.filter (fun v => isPar (symKind a ns v))
  rename := done.filterMap (fun v => targetOf v (symKind a ns v))

/-- The condition on one symbol. -/
def okSym (a : FromSympyArgs) (ns : List (List Char)) (v : Sym) : Prop :=
  match symKind a ns v with
  | .skip => True
  | .par => True
  | .scalar k => ∀ I, a.indices = some I → I[k]? = some none
  | .idx k i _ => ∀ I, a.indices = some I → ∃ l, I[k]? = some (some l) ∧ i ∈ l
  | .bad => False

theorem dictGet_nil {κ β : Type*} [DecidableEq κ] (k : κ) : dictGet ([] : List (κ × β)) k = none := rfl

theorem dictIndex_lt {κ : Type*} [DecidableEq κ] {l : List κ} {k : κ} {i : ℕ} (h : dictIndex l k = some i) :
    ∃ hi : i < l.length, l[i] = k := by
  unfold dictIndex dictGet at h
  rw [Option.map_eq_some_iff] at h
  obtain ⟨⟨x, j⟩, hx, rfl⟩ := h
  have h1 := List.mem_of_find?_eq_some hx
  have h2 := List.find?_some hx
  rw [List.mem_reverse] at h1
  simp only [decide_eq_true_eq] at h2
  subst h2
  have := List.mem_zipIdx h1
  simp only [Nat.zero_add, Nat.sub_zero] at this
  exact ⟨this.2.1, this.2.2.symm⟩

theorem dictIndex_isSome {κ : Type*} [DecidableEq κ] {l : List κ} {k : κ} (h : k ∈ l) :
    ∃ i, dictIndex l k = some i := by
  obtain ⟨i, hi, rfl⟩ := List.getElem_of_mem h
  unfold dictIndex dictGet
  have hmem : (l[i], i) ∈ l.zipIdx.reverse := by
    rw [List.mem_reverse, List.mem_zipIdx_iff_getElem?]
    simp [hi]
  have : (l.zipIdx.reverse.find? (fun p => p.1 = l[i])).isSome := by
    rw [List.find?_isSome]
    exact ⟨_, hmem, by simp⟩
  rw [Option.isSome_iff_exists] at this
  obtain ⟨x, hx⟩ := this
  exact ⟨x.2, by rw [hx]; rfl⟩

theorem symKind_lt {a : FromSympyArgs} {ns : List (List Char)} {v : Sym} {k i : ℕ} {t : Sym}
    (h : symKind a ns v = .idx k i t) : k < ns.length := by
  unfold symKind at h
  split at h; · cases h
  split at h; · cases h
  split at h
  · split at h
    · cases h
    · cases h
    · next hk _ =>
      cases h
      exact (dictIndex_lt hk).1
  · split at h <;> cases h

theorem symKind_scalar_lt {a : FromSympyArgs} {ns : List (List Char)} {v : Sym} {k : ℕ}
    (h : symKind a ns v = .scalar k) : k < ns.length := by
  unfold symKind at h
  split at h; · cases h
  split at h; · cases h
  split at h
  · split at h
    · cases h
    · next hk _ => cases h; exact (dictIndex_lt hk).1
    · cases h
  · split at h <;> cases h

theorem collected_append (a : FromSympyArgs) (ns : List (List Char)) (done : List Sym) (v : Sym) (k : ℕ) :
    collected a ns (done ++ [v]) k = collected a ns done k ++ (idxOf k (symKind a ns v)).toList := by
  unfold collected
  rw [List.filterMap_append]
  cases h : idxOf k (symKind a ns v) <;> simp [h]

theorem indsOf_append_of_none (a : FromSympyArgs) (ns : List (List Char)) (done : List Sym) (v : Sym)
    (h : ∀ k, idxOf k (symKind a ns v) = none) : indsOf a ns (done ++ [v]) = indsOf a ns done := by
  unfold indsOf
  cases a.indices with
  | some I => rfl
  | none =>
    simp only [collected_append, h, Option.toList_none, List.append_nil]

theorem indsOf_append_of_idx (a : FromSympyArgs) (ns : List (List Char)) (done : List Sym) (v : Sym)
    (k i : ℕ) (t : Sym) (h : symKind a ns v = .idx k i t) (ha : a.indices = none) :
    indsOf a ns (done ++ [v]) = (indsOf a ns done).set k (some (collected a ns done k ++ [i])) := by
  unfold indsOf
  rw [ha]
  simp only [collected_append]
  apply List.ext_getElem
  · simp
  · intro j hj hj'
    rw [List.getElem_set]
    simp only [List.getElem_map, List.getElem_range]
    split_ifs with h1 h2 h3
    · subst h2; simp [h, idxOf] at h1
    · have : idxOf j (symKind a ns v) = none := by simp [h, idxOf, h2]
      simp [this] at h1 ⊢
    · have : idxOf j (symKind a ns v) = none := by simp [h, idxOf, h2]
      simp [this, h3] at h1
    · next h2' => subst h2'; simp [h, idxOf]
    · next h2' h3 =>
      have : idxOf j (symKind a ns v) = none := by simp [h, idxOf, h2']
      simp [this, h3] at h1
    · next h2' h3 =>
      have : idxOf j (symKind a ns v) = none := by simp [h, idxOf, h2']
      simp [this]

theorem mem_filter_par {a : FromSympyArgs} {ns : List (List Char)} {done : List Sym} {v : Sym}
    (hv : v ∉ done) :
    v ∈ a.params.getD [] ++ done.filter (fun v => isPar (symKind a ns v)) ↔ v ∈ a.params.getD [] := by
  simp [hv]


theorem stateOf_append_skip (a : FromSympyArgs) (ns : List (List Char)) (done : List Sym) (app : List Bool)
    (v : Sym) (h : ∀ k, idxOf k (symKind a ns v) = none) (h2 : isPar (symKind a ns v) = false)
    (h3 : targetOf v (symKind a ns v) = none) :
    stateOf a ns (done ++ [v]) app = stateOf a ns done app := by
  unfold stateOf
  rw [indsOf_append_of_none a ns done v h]
  simp [List.filter_append, List.filterMap_append, h2, h3]

theorem indsOf_getElem? (a : FromSympyArgs) (ns : List (List Char)) (done : List Sym) (ha : a.indices = none)
    {k : ℕ} (hk : k < ns.length) : (indsOf a ns done)[k]? =
      some (if collected a ns done k = [] then none else some (collected a ns done k)) := by
  unfold indsOf
  rw [ha]
  simp [hk]

theorem scanSymbol_spec (a : FromSympyArgs) (ns : List (List Char)) (hns : a.names = some ns)
    (done : List Sym) (app : List Bool)
    (happ : a.indices = none → ∀ k, app.getD k false = true → collected a ns done k ≠ [])
    (v : Sym) (hv : v ∉ done)
    (hmix : a.indices = none → ∀ k, symKind a ns v = .scalar k → collected a ns done k = []) :
    (okSym a ns v → ∃ app', scanSymbol a (stateOf a ns done app) v = .ok (stateOf a ns (done ++ [v]) app') ∧
      (a.indices = none → ∀ k, app'.getD k false = true → collected a ns (done ++ [v]) k ≠ [])) ∧
    (¬ okSym a ns v → ∃ e, scanSymbol a (stateOf a ns done app) v = .error e) := by
  have happ' : a.indices = none → ∀ k, app.getD k false = true → collected a ns (done ++ [v]) k ≠ [] := by
    intro h k hk hc
    rw [collected_append] at hc
    exact happ h k hk (List.append_eq_nil_iff.1 hc).1
  unfold scanSymbol
  have hpar : v ∈ (stateOf a ns done app).params ↔ v ∈ a.params.getD [] := mem_filter_par hv
  by_cases hvp : v ∈ a.params.getD []
  · rw [if_pos (hpar.2 hvp)]
    have hk : symKind a ns v = .skip := by unfold symKind; rw [if_pos hvp]
    constructor
    · intro _
      exact ⟨app, by rw [stateOf_append_skip] <;> simp [hk, idxOf, isPar, targetOf], happ'⟩
    · intro h; exact absurd (by simp [okSym, hk]) h
  rw [if_neg (fun h => hvp (hpar.1 h))]
  cases hsp : splitNat v with
  | error e =>
    have hk : symKind a ns v = .bad := by unfold symKind; rw [if_neg hvp, hsp]
    constructor
    · intro h; simp [okSym, hk] at h
    · intro _; exact ⟨e, rfl⟩
  | ok r =>
    obtain ⟨name, index⟩ := r
    simp only
    by_cases hn : name ∈ ns
    · rw [if_neg (by simp [stateOf, hn])]
      obtain ⟨k, hk⟩ := dictIndex_isSome hn
      rw [hns, Option.getD_some, hk]
      simp only
      cases index with
      | none =>
        have hkind : symKind a ns v = .scalar k := by
          unfold symKind; rw [if_neg hvp, hsp]; simp [hn, hk]
        have hst : stateOf a ns (done ++ [v]) app = stateOf a ns done app := by
          rw [stateOf_append_skip] <;> simp [hkind, idxOf, isPar, targetOf]
        cases ha : a.indices with
        | none =>
          have : (stateOf a ns done app).inds[k]? = some none := by
            change (indsOf a ns done)[k]? = _
            rw [indsOf_getElem? a ns done ha (dictIndex_lt hk).1, if_pos (hmix ha k hkind)]
          rw [this]
          constructor
          · intro _; exact ⟨app, by rw [hst], fun _ => happ' ha⟩
          · intro h; exact absurd (by simp [okSym, hkind, ha]) h
        | some I =>
          have hI : (stateOf a ns done app).inds = I := by
            change indsOf a ns done = I
            unfold indsOf; rw [ha]
          rw [hI]
          have hok : okSym a ns v ↔ I[k]? = some none := by simp [okSym, hkind, ha]
          rw [hok]
          constructor
          · intro h; rw [h]; exact ⟨app, by rw [hst], by simp⟩
          · intro h
            rcases hg : I[k]? with _ | _ | l
            · exact ⟨_, rfl⟩
            · exact absurd hg h
            · exact ⟨_, rfl⟩
      | some i =>
        have hkind : symKind a ns v = .idx k i (mergeSubscript name i) := by
          unfold symKind; rw [if_neg hvp, hsp]; simp [hn, hk]
        cases ha : a.indices with
        | none =>
          have hok : okSym a ns v := by simp [okSym, hkind, ha]
          refine ⟨fun _ => ?_, fun h => absurd hok h⟩
          have hg : (stateOf a ns done app).inds[k]? = _ := indsOf_getElem? a ns done ha (dictIndex_lt hk).1
          rw [hg]
          have hrename : (stateOf a ns (done ++ [v]) app).rename =
              (stateOf a ns done app).rename ++ [(v, mergeSubscript name i)] := by
            simp [stateOf, List.filterMap_append, hkind, targetOf]
          have hparams : (stateOf a ns (done ++ [v]) app).params = (stateOf a ns done app).params := by
            simp [stateOf, List.filter_append, hkind, isPar]
          have hinds := indsOf_append_of_idx a ns done v k i _ hkind ha
          by_cases hc : collected a ns done k = []
          · have happk : ¬ (app.getD k false = true) := fun h => happ ha k h hc
            rw [if_pos hc]
            simp only [Option.isSome_none, Bool.false_eq_true, if_false]
            rw [if_neg (by simpa [stateOf] using happk)]
            refine ⟨app, ?_, fun _ => happ' ha⟩
            congr 1
            rw [hc, List.nil_append] at hinds
            unfold stateOf at hrename hparams ⊢
            simp only at hrename hparams ⊢
            rw [hrename, hparams, hinds]
          · rw [if_neg hc]
            simp only [Option.isSome_none, Bool.false_eq_true, if_false]
            refine ⟨app.set k true, ?_, ?_⟩
            · congr 1
              unfold stateOf at hrename hparams ⊢
              simp only at hrename hparams ⊢
              rw [hrename, hparams, hinds]
            · intro _ j hj
              by_cases hjk : j = k
              · subst hjk
                rw [collected_append]
                intro h
                exact hc (List.append_eq_nil_iff.1 h).1
              · apply happ' ha j
                rw [List.getD_eq_getElem?_getD, List.getElem?_set_ne (fun h => hjk h.symm)] at hj
                rw [List.getD_eq_getElem?_getD]
                exact hj
        | some I =>
          have hI : (stateOf a ns done app).inds = I := by
            change indsOf a ns done = I
            unfold indsOf; rw [ha]
          rw [hI]
          have hok : okSym a ns v ↔ ∃ l, I[k]? = some (some l) ∧ i ∈ l := by simp [okSym, hkind, ha]
          rw [hok]
          constructor
          · rintro ⟨l, hl, hil⟩
            rw [hl]
            refine ⟨app, ?_, by simp⟩
            simp only [Option.isSome_some, if_true]
            rw [if_pos hil]
            congr 1
            unfold stateOf indsOf
            simp [ha, List.filter_append, List.filterMap_append, hkind, isPar, targetOf]
          · intro h
            rcases hg : I[k]? with _ | _ | l
            · exact ⟨_, rfl⟩
            · exact ⟨_, rfl⟩
            · refine ⟨.assertionError, ?_⟩
              simp only [Option.isSome_some, if_true]
              rw [if_neg]
              intro hil
              exact h ⟨l, hg, hil⟩
    · rw [if_pos ⟨by simp [hns], hn⟩]
      by_cases hp : a.params.isSome
      · rw [if_pos hp]
        have hk : symKind a ns v = .bad := by
          unfold symKind; rw [if_neg hvp, hsp]; simp [hn, hp]
        exact ⟨fun h => by simp [okSym, hk] at h, fun _ => ⟨_, rfl⟩⟩
      · rw [if_neg hp]
        have hk : symKind a ns v = .par := by
          unfold symKind; rw [if_neg hvp, hsp]; simp [hn, hp]
        refine ⟨fun _ => ⟨app, ?_, happ'⟩, fun h => absurd (by simp [okSym, hk]) h⟩
        unfold stateOf
        rw [indsOf_append_of_none a ns done v (by simp [hk, idxOf])]
        simp [List.filter_append, List.filterMap_append, hk, isPar, targetOf]

/-- No name occurs both with and without subscript (as variables, without given indices). -/
def NoMixK (a : FromSympyArgs) (ns : List (List Char)) (free : List Sym) : Prop :=
  a.indices = none → ∀ v ∈ free, ∀ w ∈ free, ∀ k i t, symKind a ns v = .scalar k → symKind a ns w ≠ .idx k i t

theorem collected_eq_nil {a : FromSympyArgs} {ns : List (List Char)} {free : List Sym} {k : ℕ}
    (h : ∀ w ∈ free, ∀ i t, symKind a ns w ≠ .idx k i t) : collected a ns free k = [] := by
  unfold collected
  rw [List.filterMap_eq_nil_iff]
  intro w hw
  cases hk : symKind a ns w with
  | idx k' i t =>
    have : k' ≠ k := by rintro rfl; exact h w hw i t hk
    simp [idxOf, this]
  | _ => rfl

theorem scanSymbols_spec (a : FromSympyArgs) (ns : List (List Char)) (hns : a.names = some ns) :
    ∀ (todo done : List Sym) (app : List Bool), (done ++ todo).Nodup → NoMixK a ns (done ++ todo) →
    (a.indices = none → ∀ k, app.getD k false = true → collected a ns done k ≠ []) →
    ((∀ v ∈ todo, okSym a ns v) → ∃ app', scanSymbols a (stateOf a ns done app) todo =
        .ok (stateOf a ns (done ++ todo) app')) ∧
    ((¬ ∀ v ∈ todo, okSym a ns v) → ∃ e, scanSymbols a (stateOf a ns done app) todo = .error e) := by
  intro todo
  induction todo with
  | nil =>
    intro done app _ _ _
    exact ⟨fun _ => ⟨app, by simp [scanSymbols]⟩, fun h => absurd (by simp) h⟩
  | cons v vs ih =>
    intro done app hnd hmix happ
    have hv : v ∉ done := by
      intro h
      rw [List.nodup_append] at hnd
      exact hnd.2.2 v h v List.mem_cons_self rfl
    have hs := scanSymbol_spec a ns hns done app happ v hv (by
      intro ha k hk
      apply collected_eq_nil
      intro w hw i t
      exact hmix ha v (by simp) w (by simp [hw]) k i t hk)
    unfold scanSymbols
    by_cases hok : okSym a ns v
    · obtain ⟨app', he, happ'⟩ := hs.1 hok
      rw [he]
      simp only
      have := ih (done ++ [v]) app' (by simpa using hnd) (by simpa using hmix) happ'
      simp only [List.append_assoc, List.singleton_append] at this
      refine ⟨fun h => this.1 (fun w hw => h w (List.mem_cons_of_mem _ hw)), fun h => this.2 ?_⟩
      intro h'
      apply h
      intro w hw
      rcases List.mem_cons.1 hw with rfl | hw
      · exact hok
      · exact h' w hw
    · obtain ⟨e, he⟩ := hs.2 hok
      rw [he]
      exact ⟨fun h => absurd (h v List.mem_cons_self) hok, fun _ => ⟨e, rfl⟩⟩

theorem init_eq (a : FromSympyArgs) (ns : List (List Char)) (hns : a.names = some ns) :
    a.init = stateOf a ns [] (List.replicate ns.length false) := by
  unfold FromSympyArgs.init stateOf
  rw [hns]
  simp only [Option.getD_some, List.filter_nil, List.append_nil, List.filterMap_nil, ScanState.mk.injEq,
    true_and, and_true]
  unfold indsOf
  cases a.indices with
  | some I => rfl
  | none =>
    simp only [Option.getD_none]
    apply List.ext_getElem
    · simp
    · intro i h1 h2
      simp [collected]

/-- Success and result of the loop when names are given. -/
theorem scan_ok_iff (a : FromSympyArgs) (ns : List (List Char)) (hns : a.names = some ns) (free : List Sym)
    (hnd : free.Nodup) (hmix : NoMixK a ns free) :
    ((∀ v ∈ free, okSym a ns v) → ∃ app', scanSymbols a a.init free = .ok (stateOf a ns free app')) ∧
    ((¬ ∀ v ∈ free, okSym a ns v) → ∃ e, scanSymbols a a.init free = .error e) := by
  rw [init_eq a ns hns]
  have := scanSymbols_spec a ns hns free [] (List.replicate ns.length false) (by simpa using hnd)
    (by simpa using hmix) (by
      intro _ k hk
      rw [List.getD_eq_getElem?_getD] at hk
      rcases lt_or_ge k ns.length with h | h
      · simp [h] at hk
      · simp [h] at hk)
  simpa using this

/-! ## Order independence of the end -/

theorem sortNat_perm {l l' : List ℕ} (h : l.Perm l') : sortNat l = sortNat l' := by
  unfold sortNat
  apply List.Perm.eq_of_pairwise (le := fun a b : ℕ => a ≤ b)
  · intro a b _ _ h1 h2
    omega
  · have := List.pairwise_mergeSort (le := fun a b : ℕ => decide (a ≤ b)) (by simp; omega) (by simp; omega) l
    simpa using this
  · have := List.pairwise_mergeSort (le := fun a b : ℕ => decide (a ≤ b)) (by simp; omega) (by simp; omega) l'
    simpa using this
  · exact ((List.mergeSort_perm _ _).trans h).trans (List.mergeSort_perm _ _).symm

theorem sortSyms_perm {l l' : List Sym} (h : l.Perm l') : sortSyms l = sortSyms l' := by
  unfold sortSyms
  apply List.Perm.eq_of_pairwise (le := fun a b : Sym => a ≤ b)
  · intro a b _ _ h1 h2
    exact List.le_antisymm h1 h2
  · have := List.pairwise_mergeSort (le := fun a b : Sym => decide (a ≤ b))
      (fun a b c h1 h2 => by simp only [decide_eq_true_eq] at *; exact List.le_trans h1 h2)
      (fun a b => by simpa using List.le_total a b) l
    simpa using this
  · have := List.pairwise_mergeSort (le := fun a b : Sym => decide (a ≤ b))
      (fun a b c h1 h2 => by simp only [decide_eq_true_eq] at *; exact List.le_trans h1 h2)
      (fun a b => by simpa using List.le_total a b) l'
    simpa using this
  · exact ((List.mergeSort_perm _ _).trans h).trans (List.mergeSort_perm _ _).symm

/-- The value after renaming depends on the symbol only. -/
theorem renameSym_stateOf (a : FromSympyArgs) (ns : List (List Char)) (free : List Sym) (app : List Bool)
    (v : Sym) : renameSym (stateOf a ns free app).rename v =
      match symKind a ns v with
      | .idx _ _ t => if v ∈ free then t else v
      | _ => v := by
  unfold renameSym dictGet
  have hkey : ∀ x ∈ (stateOf a ns free app).rename, targetOf x.1 (symKind a ns x.1) = some x ∧ x.1 ∈ free := by
    intro x hx
    simp only [stateOf, List.mem_filterMap] at hx
    obtain ⟨w, hw, hx⟩ := hx
    have : x.1 = w := by
      unfold targetOf at hx
      split at hx
      · simp only [Option.some.injEq] at hx; rw [← hx]
      · cases hx
    rw [this]
    exact ⟨hx, hw⟩
  cases hf : (stateOf a ns free app).rename.reverse.find? (fun p => p.1 = v) with
  | some x =>
    have h1 := List.mem_of_find?_eq_some hf
    have h2 := List.find?_some hf
    simp only [decide_eq_true_eq] at h2
    obtain ⟨h3, h4⟩ := hkey x (List.mem_reverse.1 h1)
    rw [h2] at h3 h4
    unfold targetOf at h3
    split at h3
    · next hk =>
      simp only [Option.some.injEq] at h3
      simp [h4, ← h3]
    · cases h3
  | none =>
    rw [List.find?_eq_none] at hf
    simp only [Option.map_none, Option.getD_none]
    split
    · next k i t hk =>
      split_ifs with hv
      · exfalso
        refine hf (v, t) (List.mem_reverse.2 ?_) (by simp)
        simp only [stateOf, List.mem_filterMap]
        exact ⟨v, hv, by rw [hk]; rfl⟩
      · rfl
    · rfl

theorem collected_perm (a : FromSympyArgs) (ns : List (List Char)) {free free' : List Sym} (h : free.Perm free')
    (k : ℕ) : (collected a ns free k).Perm (collected a ns free' k) := h.filterMap _

theorem finish_perm (a : FromSympyArgs) (ns : List (List Char)) (p : MvPolynomial Sym ℂ)
    {free free' : List Sym} (h : free.Perm free') (app app' : List Bool) :
    finish a p (stateOf a ns free app) = finish a p (stateOf a ns free' app') := by
  have hr : renameSym (stateOf a ns free app).rename = renameSym (stateOf a ns free' app').rename := by
    funext v
    rw [renameSym_stateOf, renameSym_stateOf]
    split
    · simp only [h.mem_iff]
    · rfl
  have hm : finishMeta a (stateOf a ns free app) = finishMeta a (stateOf a ns free' app') := by
    unfold finishMeta
    congr 1
    · change ns.zip _ = ns.zip _
      congr 1
      split_ifs with hi
      · change indsOf a ns free = indsOf a ns free'
        unfold indsOf
        rw [Option.isSome_iff_exists] at hi
        obtain ⟨I, hI⟩ := hi
        rw [hI]
      · change (indsOf a ns free).map _ = (indsOf a ns free').map _
        unfold indsOf
        have : a.indices = none := by simpa using hi
        rw [this]
        simp only [List.map_map]
        apply List.map_congr_left
        intro k _
        simp only [Function.comp]
        have hp := collected_perm a ns h k
        by_cases hc : collected a ns free k = []
        · rw [if_pos hc, if_pos (by rw [hc] at hp; exact hp.nil_eq.symm)]
        · rw [if_neg hc, if_neg (by intro h'; rw [h'] at hp; exact hc hp.eq_nil)]
          simp only [Option.map_some]
          rw [sortNat_perm hp]
    · split_ifs with hp
      · change a.params.getD [] ++ _ = a.params.getD [] ++ _
        have hnil : ∀ l : List Sym, l.filter (fun v => isPar (symKind a ns v)) = [] := by
          intro l
          rw [List.filter_eq_nil_iff]
          intro v _
          have : symKind a ns v ≠ .par := by
            unfold symKind
            intro hk
            split at hk; · cases hk
            split at hk; · cases hk
            split at hk
            · split at hk <;> cases hk
            · cases hk
          cases hk : symKind a ns v <;> simp_all [isPar]
        rw [hnil, hnil]
      · exact sortSyms_perm (List.Perm.append_left _ (h.filter _))
  have hl : (stateOf a ns free app).inds.length = (stateOf a ns free' app').inds.length := by
    change (indsOf a ns free).length = (indsOf a ns free').length
    unfold indsOf
    cases a.indices <;> simp
  unfold finish
  rw [hm, hr, hl]
  rfl

theorem splitNat_scalar {v : Sym} {n : List Char} : splitNat v = .ok (n, none) ↔ Unindexed v n := by
  unfold splitNat Unindexed
  rcases splitSubscript v with e | ⟨m, _ | i⟩
  · simp
  · simp
  · simp only
    split_ifs <;> simp

theorem splitNat_indexed {v : Sym} {n : List Char} {i : ℕ} : splitNat v = .ok (n, some i) ↔ Indexed v n i := by
  unfold splitNat Indexed
  rcases splitSubscript v with e | ⟨m, _ | j⟩
  · simp
  · simp
  · simp only
    split_ifs with h
    · simp only [Except.ok.injEq, Prod.mk.injEq, Option.some.injEq, false_iff, not_and]
      intro _ h'
      omega
    · simp only [Except.ok.injEq, Prod.mk.injEq, Option.some.injEq, and_congr_right_iff]
      intro _
      omega

theorem symKind_idx_iff {a : FromSympyArgs} {ns : List (List Char)} {v : Sym} {k i : ℕ} {t : Sym} :
    symKind a ns v = .idx k i t ↔ v ∉ a.params.getD [] ∧
      ∃ n, n ∈ ns ∧ dictIndex ns n = some k ∧ Indexed v n i ∧ t = mergeSubscript n i := by
  unfold symKind
  by_cases h : v ∈ a.params.getD []
  · simp [h]
  · rw [if_neg h]
    simp only [h, not_false_eq_true, true_and]
    rcases hs : splitNat v with e | ⟨n, _ | j⟩
    · simp only [reduceCtorEq, false_iff, not_exists, not_and]
      intro n _ _ hi
      rw [← splitNat_indexed, hs] at hi
      cases hi
    · simp only
      constructor
      · intro h'
        split at h'
        · cases hd : dictIndex ns n <;> rw [hd] at h' <;> cases h'
        · split_ifs at h'
      · rintro ⟨n', _, _, hi, _⟩
        rw [← splitNat_indexed, hs] at hi
        cases hi
    · simp only
      constructor
      · intro h'
        split at h'
        · next hn =>
          cases hd : dictIndex ns n with
          | none => rw [hd] at h'; cases h'
          | some k' =>
            rw [hd] at h'
            cases h'
            exact ⟨n, hn, hd, splitNat_indexed.1 hs, rfl⟩
        · split_ifs at h'
      · rintro ⟨n', hn, hd, hi, rfl⟩
        rw [← splitNat_indexed, hs] at hi
        cases hi
        rw [if_pos hn, hd]

theorem symKind_scalar_iff {a : FromSympyArgs} {ns : List (List Char)} {v : Sym} {k : ℕ} :
    symKind a ns v = .scalar k ↔ v ∉ a.params.getD [] ∧
      ∃ n, n ∈ ns ∧ dictIndex ns n = some k ∧ Unindexed v n := by
  unfold symKind
  by_cases h : v ∈ a.params.getD []
  · simp [h]
  · rw [if_neg h]
    simp only [h, not_false_eq_true, true_and]
    rcases hs : splitNat v with e | ⟨n, _ | j⟩
    · simp only [reduceCtorEq, false_iff, not_exists, not_and]
      intro n _ _ hi
      rw [← splitNat_scalar, hs] at hi
      cases hi
    · simp only
      constructor
      · intro h'
        split at h'
        · next hn =>
          cases hd : dictIndex ns n with
          | none => rw [hd] at h'; cases h'
          | some k' =>
            rw [hd] at h'
            cases h'
            exact ⟨n, hn, hd, splitNat_scalar.1 hs⟩
        · split_ifs at h'
      · rintro ⟨n', hn, hd, hi⟩
        rw [← splitNat_scalar, hs] at hi
        cases hi
        rw [if_pos hn, hd]
    · simp only
      constructor
      · intro h'
        split at h'
        · cases hd : dictIndex ns n <;> rw [hd] at h' <;> cases h'
        · split_ifs at h'
      · rintro ⟨n', _, _, hi⟩
        rw [← splitNat_scalar, hs] at hi
        cases hi

theorem noMix_kind {a : FromSympyArgs} {free : List Sym} (h : NoMix a free) (ns : List (List Char)) :
    NoMixK a ns free := by
  intro ha v hv w hw k i t h1 h2
  rw [symKind_scalar_iff] at h1
  rw [symKind_idx_iff] at h2
  obtain ⟨hvp, n, _, hd, hvn⟩ := h1
  obtain ⟨hwp, n', _, hd', hwn, _⟩ := h2
  obtain ⟨_, e1⟩ := dictIndex_lt hd
  obtain ⟨_, e2⟩ := dictIndex_lt hd'
  have : n = n' := e1.symm.trans e2
  subst this
  exact h ha v hv w hw hvp hwp n i hvn hwn

/-- What a successful call with names looks like. -/
theorem fromSympy_ok {a : FromSympyArgs} {ns : List (List Char)} (hns : a.names = some ns)
    {p : MvPolynomial Sym ℂ} {free : List Sym} (hnd : free.Nodup) (hmix : NoMix a free) {P : PolyObj}
    (hP : fromSympy a p free = .ok P) :
    (∀ v ∈ free, okSym a ns v) ∧ ∃ app, P.md = finishMeta a (stateOf a ns free app) ∧
      P.poly = rename (renameSym (stateOf a ns free app).rename) p ∧ P.gens = P.md.varSyms ∧
      (ns ++ [paramsKey]).Nodup ∧ ns.length = (indsOf a ns free).length ∧ P.md.varSyms.Nodup ∧
      (∀ g ∈ P.md.varSyms, g ∉ P.md.params) ∧ P.Declared := by
  unfold fromSympy at hP
  split_ifs at hP
  have h1 := scan_ok_iff a ns hns free hnd (noMix_kind hmix ns)
  by_cases hok : ∀ v ∈ free, okSym a ns v
  · refine ⟨hok, ?_⟩
    obtain ⟨app, e1⟩ := h1.1 hok
    rw [e1] at hP
    simp only at hP
    unfold finish at hP
    dsimp only at hP
    split_ifs at hP with h2 h3 h4
    simp only [Except.ok.injEq] at hP
    rw [not_not] at h3
    push Not at h4
    subst hP
    refine ⟨app, rfl, rfl, rfl, h2, h3, h4.2.1, h4.2.2.1, ?_⟩
    intro s hs
    by_cases hv : s ∈ (finishMeta a (stateOf a ns free app)).varSyms
    · exact List.mem_append_left _ hv
    · exact List.mem_append_right _ (h4.2.2.2 s hs hv)
  · obtain ⟨e, e1⟩ := h1.2 hok
    rw [e1] at hP
    cases hP

theorem dictIndex_nodup {l : List (List Char)} (h : l.Nodup) {k : ℕ} (hk : k < l.length) :
    dictIndex l l[k] = some k := by
  obtain ⟨i, hi⟩ := dictIndex_isSome (List.getElem_mem hk)
  obtain ⟨hl, e⟩ := dictIndex_lt hi
  rw [hi, (List.Nodup.getElem_inj_iff h).1 e]

/-! ## Without names -/

/-- The variable made from one symbol when no names are given. -/
def varOf (a : FromSympyArgs) (v : Sym) : Option (List Char × Option (List ℕ)) :=
  if v ∈ a.params.getD [] then none
  else
    match splitNat v with
    | .error _ => none
    | .ok (n, i) => some (n, i.map fun i => [i])

/-- The symbol can be read. -/
def readable (a : FromSympyArgs) (v : Sym) : Prop := v ∈ a.params.getD [] ∨ ∃ r, splitNat v = .ok r

theorem scan_no_names (a : FromSympyArgs) (hns : a.names = none) : ∀ (L : List Sym) (s : ScanState),
    s.params = a.params.getD [] → s.rename = [] →
    ((∀ v ∈ L, readable a v) → ∃ app, scanSymbols a s L = .ok
      ⟨s.names ++ (L.filterMap (varOf a)).map Prod.fst, s.inds ++ (L.filterMap (varOf a)).map Prod.snd, app,
        a.params.getD [], []⟩) ∧
    ((¬ ∀ v ∈ L, readable a v) → ∃ e, scanSymbols a s L = .error e) := by
  intro L
  induction L with
  | nil =>
    intro s h1 h2
    refine ⟨fun _ => ⟨s.appeared, ?_⟩, fun h => absurd (by simp) h⟩
    rcases s with ⟨n, i, ap, p, r⟩
    simp only at h1 h2
    subst h1 h2
    simp [scanSymbols]
  | cons v L ih =>
    intro s h1 h2
    unfold scanSymbols scanSymbol
    rw [h1]
    by_cases hv : v ∈ a.params.getD []
    · rw [if_pos hv]
      simp only
      have hr : readable a v := Or.inl hv
      have hvo : varOf a v = none := by unfold varOf; rw [if_pos hv]
      have := ih s h1 h2
      refine ⟨fun h => ?_, fun h => this.2 (fun h' => h ?_)⟩
      · rw [List.filterMap_cons_none hvo]
        exact this.1 (fun w hw => h w (List.mem_cons_of_mem _ hw))
      · intro w hw
        rcases List.mem_cons.1 hw with rfl | hw
        · exact hr
        · exact h' w hw
    · rw [if_neg hv]
      cases hs : splitNat v with
      | error e =>
        refine ⟨fun h => ?_, fun _ => ⟨e, rfl⟩⟩
        rcases h v List.mem_cons_self with h' | ⟨r, h'⟩
        · exact absurd h' hv
        · rw [hs] at h'; cases h'
      | ok r =>
        obtain ⟨n, i⟩ := r
        have hvo : varOf a v = some (n, i.map fun i => [i]) := by unfold varOf; rw [if_neg hv, hs]
        have hd : dictIndex ([] : List (List Char)) n = none := rfl
        simp only [hns, Option.isSome_none, Bool.false_eq_true, false_and, if_false, Option.getD_none, hd]
        have := ih ⟨s.names ++ [n], s.inds ++ [i.map fun i => [i]], s.appeared ++ [true], a.params.getD [], []⟩
          rfl rfl
        rw [h2]
        refine ⟨fun h => ?_, fun h => this.2 (fun h' => h ?_)⟩
        · obtain ⟨app, he⟩ := this.1 (fun w hw => h w (List.mem_cons_of_mem _ hw))
          refine ⟨app, ?_⟩
          rw [he, List.filterMap_cons_some hvo]
          simp
        · intro w hw
          rcases List.mem_cons.1 hw with rfl | hw
          · exact Or.inr ⟨_, hs⟩
          · exact h' w hw

theorem sortNat_single (i : ℕ) : sortNat [i] = [i] := by
  simp [sortNat]

/-- Success and result without names. -/
theorem fromSympy_no_names (a : FromSympyArgs) (hns : a.names = none) (p : MvPolynomial Sym ℂ)
    (free : List Sym) :
    let md : Meta := ⟨free.filterMap (varOf a), a.params.getD []⟩
    (a.indices = none ∧ (∀ v ∈ free, readable a v) ∧ (md.names ++ [paramsKey]).Nodup ∧ md.varSyms ≠ [] ∧
      md.varSyms.Nodup ∧ (∀ g ∈ md.varSyms, g ∉ md.params) ∧
      (∀ g ∈ p.vars, g ∈ md.varSyms ∨ g ∈ md.params) ∧
      ∃ md', md'.vars = md.vars ∧ md'.params = (if a.params.isSome then md.params else sortSyms md.params) ∧
        fromSympy a p free = .ok ⟨md', p, md.varSyms⟩) ∨
    (¬ (a.indices = none ∧ (∀ v ∈ free, readable a v) ∧ (md.names ++ [paramsKey]).Nodup ∧ md.varSyms ≠ [] ∧
      md.varSyms.Nodup ∧ (∀ g ∈ md.varSyms, g ∉ md.params) ∧
      (∀ g ∈ p.vars, g ∈ md.varSyms ∨ g ∈ md.params)) ∧ ∃ e, fromSympy a p free = .error e) := by
  intro md
  by_cases hi : a.indices = none
  swap
  · right
    refine ⟨fun h => hi h.1, .assertionError, ?_⟩
    unfold fromSympy
    rw [if_pos (Or.inr ⟨hns, by cases h : a.indices <;> simp_all⟩)]
  have hF : fromSympy a p free =
      match scanSymbols a a.init free with
      | .error e => .error e
      | .ok s => finish a p s := by
    unfold fromSympy
    rw [if_neg (by simp [hns, hi])]
    rfl
  rw [hF]
  have hscan := scan_no_names a hns free a.init rfl rfl
  by_cases hr : ∀ v ∈ free, readable a v
  swap
  · right
    obtain ⟨e, he⟩ := hscan.2 hr
    exact ⟨fun h => hr h.2.1, e, by rw [he]⟩
  obtain ⟨app, he⟩ := hscan.1 hr
  rw [he]
  have hn0 : a.init.names = [] := by simp [FromSympyArgs.init, hns]
  have hi0 : a.init.inds = [] := by simp [FromSympyArgs.init, hns, hi]
  rw [hn0, hi0]
  simp only [List.nil_append]
  set st : ScanState := ⟨(free.filterMap (varOf a)).map Prod.fst, (free.filterMap (varOf a)).map Prod.snd, app,
    a.params.getD [], []⟩ with hst
  have hvars : (finishMeta a st).vars = md.vars := by
    unfold finishMeta
    simp only [hi, Option.isSome_none, Bool.false_eq_true, if_false, hst]
    rw [List.map_map]
    have : (free.filterMap (varOf a)).map (Option.map sortNat ∘ Prod.snd) =
        (free.filterMap (varOf a)).map Prod.snd := by
      apply List.map_congr_left
      intro v hv
      rw [List.mem_filterMap] at hv
      obtain ⟨w, _, hw⟩ := hv
      unfold varOf at hw
      split_ifs at hw
      split at hw
      · cases hw
      · next n i _ =>
        simp only [Option.some.injEq] at hw
        subst hw
        cases i <;> simp [sortNat_single]
    rw [this, List.zip_map', List.map_id'']
    intro x
    rfl
  have hparams : (finishMeta a st).params = (if a.params.isSome then md.params else sortSyms md.params) := rfl
  have hvs : (finishMeta a st).varSyms = md.varSyms := by
    unfold Meta.varSyms; rw [hvars]
  have hmem : ∀ g, g ∈ (finishMeta a st).params ↔ g ∈ md.params := by
    intro g
    rw [hparams]
    split_ifs
    · rfl
    · simp [sortSyms]
  have hq : rename (renameSym st.rename) p = p := by
    have : renameSym st.rename = id := by funext v; rfl
    rw [this, rename_id_apply]
  have hnames : st.names = md.names := rfl
  have hlen : ¬ (st.names.length ≠ st.inds.length) := by simp [hst]
  by_cases h1 : (md.names ++ [paramsKey]).Nodup
  swap
  · right
    refine ⟨fun h => h1 h.2.2.1, .valueError, ?_⟩
    unfold finish
    dsimp only
    rw [if_pos (by rw [hnames]; exact h1)]
  have hfin : finish a p st = if md.varSyms = [] ∨ ¬ md.varSyms.Nodup ∨
      (∃ g ∈ md.varSyms, g ∈ (finishMeta a st).params) ∨
      (∃ g ∈ p.vars, g ∉ md.varSyms ∧ g ∉ (finishMeta a st).params) then .error .polynomialError
      else .ok ⟨finishMeta a st, p, md.varSyms⟩ := by
    unfold finish
    dsimp only
    rw [if_neg (by rw [hnames]; exact not_not.2 h1), if_neg hlen, hq, hvs]
  rw [hfin]
  by_cases h2 : md.varSyms = [] ∨ ¬ md.varSyms.Nodup ∨
      (∃ g ∈ md.varSyms, g ∈ (finishMeta a st).params) ∨
      (∃ g ∈ p.vars, g ∉ md.varSyms ∧ g ∉ (finishMeta a st).params)
  · right
    rw [if_pos h2]
    refine ⟨?_, _, rfl⟩
    rintro ⟨_, _, _, h3, h4, h5, h6⟩
    rcases h2 with h2 | h2 | ⟨g, hg, hg'⟩ | ⟨g, hg, hg', hg''⟩
    · exact h3 h2
    · exact h2 h4
    · exact h5 g hg ((hmem g).1 hg')
    · rcases h6 g hg with h | h
      · exact hg' h
      · exact hg'' ((hmem g).2 h)
  · left
    rw [if_neg h2]
    push Not at h2
    refine ⟨hi, hr, h1, h2.1, h2.2.1, fun g hg hp => h2.2.2.1 g hg ((hmem g).2 hp), ?_, _, hvars, hparams, rfl⟩
    intro g hg
    by_cases hgv : g ∈ md.varSyms
    · exact Or.inl hgv
    · exact Or.inr ((hmem g).1 (h2.2.2.2 g hg hgv))

end Cyjax.Polynomial
