import Mathlib.Algebra.MvPolynomial.CommRing
import Verif.Spec.FromSympy
import Verif.Lemmas.FromSympy
import Verif.Lemmas.PolyOps

/-! # Properties C54, C55 and C89: `Poly.from_sympy` -/

namespace Cyjax

open Cyjax.Polynomial MvPolynomial

/-! ## C54 -/

/-- C54: with variable names given, the result (or that there is an error) does not depend on the order in
which the free symbols are visited, provided no name occurs both with and without subscript. Missing:
calls without variable names, see `C54_no_names_violated` and `C54_no_names_partial`; for the proviso see
`C54_mixed_violated`. -/
theorem C54_order_partial (a : FromSympyArgs) (ns : List (List Char)) (hns : a.names = some ns)
    (p : MvPolynomial Sym ℂ) (free free' : List Sym) (h : free.Perm free') (hnd : free.Nodup)
    (hmix : NoMix a free) :
    (fromSympy a p free).toOption = (fromSympy a p free').toOption := by
  unfold fromSympy
  split_ifs
  · rfl
  have h1 := scan_ok_iff a ns hns free hnd (noMix_kind hmix ns)
  have h2 := scan_ok_iff a ns hns free' (h.nodup_iff.1 hnd) (noMix_kind (by
    intro ha v hv w hw
    exact hmix ha v (h.mem_iff.2 hv) w (h.mem_iff.2 hw)) ns)
  by_cases hok : ∀ v ∈ free, okSym a ns v
  · obtain ⟨app, e1⟩ := h1.1 hok
    obtain ⟨app', e2⟩ := h2.1 (fun v hv => hok v (h.mem_iff.2 hv))
    rw [e1, e2]
    simp only
    rw [finish_perm a ns p h app app']
  · obtain ⟨e, e1⟩ := h1.2 hok
    obtain ⟨e', e2⟩ := h2.2 (fun h' => hok (fun v hv => h' v (h.mem_iff.1 hv)))
    rw [e1, e2]
    rfl

/-- C54: with names given, the found indices of every variable are exactly the subscripts in the
expression, strictly increasing; a variable is scalar iff it occurs with no subscript. Parameters that
are not given are exactly the other symbols, sorted by name. -/
theorem C54_indices_complete (a : FromSympyArgs) (ns : List (List Char)) (hns : a.names = some ns)
    (ha : a.indices = none) (p : MvPolynomial Sym ℂ) (free : List Sym) (hnd : free.Nodup)
    (hmix : NoMix a free) (P : PolyObj) (hP : fromSympy a p free = .ok P) :
    P.md.names = ns ∧
    (∀ v ∈ P.md.vars, (∀ l, v.2 = some l → l.Pairwise (· < ·)) ∧
      ∀ i, (∃ l, v.2 = some l ∧ i ∈ l) ↔ ∃ s ∈ free, s ∉ a.params.getD [] ∧ Indexed s v.1 i) ∧
    (a.params = none → P.md.params.Pairwise (· ≤ ·) ∧
      ∀ s, s ∈ P.md.params ↔ s ∈ free ∧ ∃ n i, splitSubscript s = .ok (n, i) ∧ n ∉ ns) ∧
    (∀ ps, a.params = some ps → P.md.params = ps) := by
  obtain ⟨hok, app, hmd, hpoly, hgens, hns2, hlen, hvs, hgp, _⟩ := fromSympy_ok hns hnd hmix hP
  have hnsnd : ns.Nodup := (List.nodup_append.1 hns2).1
  have hvars : P.md.vars = ns.zip ((indsOf a ns free).map (Option.map sortNat)) := by
    rw [hmd]
    simp [finishMeta, ha, stateOf]
  have hinds : (indsOf a ns free) = (List.range ns.length).map fun k =>
      if collected a ns free k = [] then none else some (collected a ns free k) := by
    unfold indsOf
    rw [ha]
  have hcoll : ∀ k (hk : k < ns.length) i, i ∈ collected a ns free k ↔
      ∃ s ∈ free, s ∉ a.params.getD [] ∧ Indexed s ns[k] i := by
    intro k hk i
    unfold collected
    rw [List.mem_filterMap]
    constructor
    · rintro ⟨s, hs, hsi⟩
      cases hsk : symKind a ns s with
      | idx k' i' t =>
        rw [hsk] at hsi
        simp only [idxOf] at hsi
        split_ifs at hsi with hkk
        simp only [Option.some.injEq] at hsi
        subst hkk hsi
        obtain ⟨h1, n, _, hd, hi, _⟩ := symKind_idx_iff.1 hsk
        obtain ⟨_, e⟩ := dictIndex_lt hd
        exact ⟨s, hs, h1, by rw [e]; exact hi⟩
      | _ => rw [hsk] at hsi; simp [idxOf] at hsi
    · rintro ⟨s, hs, hsp, hi⟩
      refine ⟨s, hs, ?_⟩
      rw [symKind_idx_iff.2 ⟨hsp, ns[k], List.getElem_mem hk, dictIndex_nodup hnsnd hk, hi, rfl⟩]
      simp [idxOf]
  refine ⟨?_, ?_, ?_, ?_⟩
  · unfold Meta.names
    rw [hvars, List.map_fst_zip]
    rw [List.length_map, ← hlen]
  · intro v hv
    have hv' := hv
    rw [hvars] at hv
    obtain ⟨k, hk, rfl⟩ := List.getElem_of_mem hv
    rw [List.length_zip, List.length_map] at hk
    have hk' : k < ns.length := by omega
    rw [List.getElem_zip] at hv' ⊢
    simp only [List.getElem_map, hinds, List.getElem_range] at hv' ⊢
    constructor
    · intro l hl
      split_ifs at hl with hc
      · cases hl
      simp only [Option.map_some, Option.some.injEq] at hl
      have hsort : l.Pairwise (· ≤ ·) := by
        rw [← hl]
        have := List.pairwise_mergeSort (le := fun a b : ℕ => decide (a ≤ b)) (by simp; omega)
          (by simp; omega) (collected a ns free k)
        simpa [sortNat] using this
      have hnodup : l.Nodup := by
        have : (varSymbols (ns[k], some l)).Nodup := by
          unfold Meta.varSyms at hvs
          rw [List.nodup_flatMap] at hvs
          refine hvs.1 _ ?_
          rw [if_neg hc, Option.map_some, hl] at hv'
          exact hv'
        unfold varSymbols at this
        exact List.Nodup.of_map _ this
      have := hsort.and hnodup
      exact this.imp (fun h => lt_of_le_of_ne h.1 h.2)
    · intro i
      rw [← hcoll k hk' i]
      split_ifs with hc
      · simp [hc]
      · simp [sortNat]
  · intro hp
    have hpar : P.md.params = sortSyms (free.filter (fun v => isPar (symKind a ns v))) := by
      rw [hmd]
      simp [finishMeta, hp, stateOf]
    rw [hpar]
    constructor
    · have := List.pairwise_mergeSort (le := fun a b : Sym => decide (a ≤ b))
        (fun a b c h1 h2 => by simp only [decide_eq_true_eq] at *; exact List.le_trans h1 h2)
        (fun a b => by simpa using List.le_total a b) (free.filter (fun v => isPar (symKind a ns v)))
      simpa [sortSyms] using this
    · intro s
      simp only [sortSyms, List.mem_mergeSort, List.mem_filter, and_congr_right_iff]
      intro hs
      have hoks := hok s hs
      have hspl : symKind a ns s ≠ .bad := by
        intro h
        simp [okSym, h] at hoks
      unfold symKind at hspl ⊢
      simp only [hp, Option.getD_none, List.not_mem_nil, if_false] at hspl ⊢
      cases hsn : splitNat s with
      | error e => rw [hsn] at hspl; simp at hspl
      | ok r =>
        obtain ⟨n, i⟩ := r
        simp only
        have hex : ∃ j, splitSubscript s = .ok (n, j) := by
          cases i with
          | none => exact ⟨_, splitNat_scalar.1 hsn⟩
          | some i => exact ⟨_, splitNat_indexed.1 hsn⟩
        obtain ⟨j, hj⟩ := hex
        by_cases hn : n ∈ ns
        · rw [if_pos hn]
          constructor
          · intro h
            split at h <;> simp [isPar] at h
          · rintro ⟨n', i', h', hn'⟩
            rw [hj] at h'
            cases h'
            exact absurd hn hn'
        · rw [if_neg hn]
          simp only [Option.isSome_none, Bool.false_eq_true, if_false, isPar, true_iff]
          exact ⟨n, j, hj, hn⟩
  · intro ps hps
    rw [hmd]
    have hnil : free.filter (fun v => isPar (symKind a ns v)) = [] := by
      rw [List.filter_eq_nil_iff]
      intro v _
      have : symKind a ns v ≠ .par := by
        unfold symKind
        intro hk
        split at hk; · cases hk
        split at hk; · cases hk
        split at hk
        · split at hk <;> cases hk
        · rw [hps] at hk; cases hk
      cases hk : symKind a ns v <;> simp_all [isPar]
    simp [finishMeta, hps, stateOf, hnil]


/-- The hypotheses hold for `3*z0*z_2 + b*z0 + a` with names `['z']`. -/
example : let z0 := mergeSubscript "z".toList 0
    let z2 : Sym := "z_2".toList
    let args : FromSympyArgs := ⟨some ["z".toList], none, none⟩
    NoMix args [z2, "b".toList, z0, "a".toList] ∧ Indexed z2 "z".toList 2 ∧ Indexed z0 "z".toList 0 := by
  intro z0 z2 args
  have h0 : splitSubscript z0 = .ok ("z".toList, some 0) := splitSubscript_merge _ (by decide) 0
  have h2 : splitSubscript z2 = .ok ("z".toList, some 2) := splitSubscript_underscore "z".toList (by decide) 2
  have ha : splitSubscript "a".toList = .ok ("a".toList, none) := splitSubscript_good _ (by decide)
  have hb : splitSubscript "b".toList = .ok ("b".toList, none) := splitSubscript_good _ (by decide)
  refine ⟨?_, h2, h0⟩
  intro _ v hv w hw _ _ n i h1 h3
  unfold Unindexed at h1
  unfold Indexed at h3
  simp only [List.mem_cons, List.not_mem_nil, or_false] at hv hw
  rcases hv with rfl | rfl | rfl | rfl <;> rcases hw with rfl | rfl | rfl | rfl <;>
    simp_all

/-- C54 without names: the parameters and the polynomial do not depend on the order of the symbols, but
the variables only up to their order. -/
theorem C54_no_names_partial (a : FromSympyArgs) (hns : a.names = none) (p : MvPolynomial Sym ℂ)
    (free free' : List Sym) (h : free.Perm free') (P : PolyObj) (hP : fromSympy a p free = .ok P) :
    ∃ Q, fromSympy a p free' = .ok Q ∧ Q.md.vars.Perm P.md.vars ∧ Q.md.params = P.md.params ∧
      Q.poly = P.poly := by
  have hp : (free.filterMap (varOf a)).Perm (free'.filterMap (varOf a)) := h.filterMap _
  rcases fromSympy_no_names a hns p free with ⟨h1, h2, h3, h4, h5, h6, h7, md, e1, e2, e3⟩ | ⟨_, e, he⟩
  swap
  · rw [he] at hP; cases hP
  rw [e3] at hP
  cases hP
  have hsym : (Meta.varSyms ⟨free.filterMap (varOf a), a.params.getD []⟩).Perm
      (Meta.varSyms ⟨free'.filterMap (varOf a), a.params.getD []⟩) := hp.flatMap_right _
  rcases fromSympy_no_names a hns p free' with ⟨_, _, _, _, _, _, _, md', e1', e2', e3'⟩ | ⟨hn, _⟩
  · refine ⟨_, e3', ?_, ?_, rfl⟩
    · rw [e1', e1]; exact hp.symm
    · rw [e2', e2]
  · exfalso
    refine hn ⟨h1, fun v hv => h2 v (h.mem_iff.2 hv), ?_, ?_, ?_, ?_, ?_⟩
    · exact (List.Perm.nodup_iff (List.Perm.append_right _ (hp.map _))).1 h3
    · intro hnil
      rw [hnil] at hsym
      exact h4 hsym.eq_nil
    · exact hsym.nodup_iff.1 h5
    · exact fun g hg => h6 g (hsym.mem_iff.2 hg)
    · intro g hg
      rcases h7 g hg with h' | h'
      · exact Or.inl (hsym.mem_iff.1 h')
      · exact Or.inr h'

/-- C54 is violated without names: for `x - y`, the call `p(1, 2)` gives `-1` or `1`, depending on the
order in which the set of free symbols is visited. -/
theorem C54_no_names_violated :
    let x : Sym := "x".toList
    let y : Sym := "y".toList
    let args : FromSympyArgs := ⟨none, none, none⟩
    ∃ P Q, fromSympy args (X x - X y) [x, y] = .ok P ∧ fromSympy args (X x - X y) [y, x] = .ok Q ∧
      P.call [.scalar 1, .scalar 2, .vec []] [] = .ok (-1) ∧
      Q.call [.scalar 1, .scalar 2, .vec []] [] = .ok 1 := by
  intro x y args
  have hx : splitSubscript x = .ok (x, none) := splitSubscript_good _ (by decide)
  have hy : splitSubscript y = .ok (y, none) := splitSubscript_good _ (by decide)
  have hxy : x ≠ y := by decide
  have key : ∀ u v : Sym, u ≠ v → GoodName u → GoodName v → u ≠ paramsKey → v ≠ paramsKey →
      splitSubscript u = .ok (u, none) → splitSubscript v = .ok (v, none) →
      (∀ g ∈ (X x - X y : MvPolynomial Sym ℂ).vars, g = u ∨ g = v) →
      ∃ P, fromSympy args (X x - X y) [u, v] = .ok P ∧
        ∀ ρ : Sym → ℂ, P.call [.scalar (ρ u), .scalar (ρ v), .vec []] [] = .ok (ρ x - ρ y) := by
    intro u v huv gu gv hu' hv' hu hv hg
    have hvo : [u, v].filterMap (varOf args) = [(u, none), (v, none)] := by
      simp [varOf, splitNat, hu, hv, args]
    rcases fromSympy_no_names args rfl (X x - X y) [u, v] with ⟨_, _, _, _, _, _, _, md, e1, e2, e3⟩ | ⟨hn, _⟩
    · rw [hvo] at e1 e3
      have e2' : md.params = [] := by rw [e2]; simp [args, sortSyms]
      obtain ⟨vs, ps⟩ := md
      simp only at e1 e2'
      subst e1 e2'
      generalize Meta.varSyms _ = gens at e3
      refine ⟨_, e3, fun ρ => ?_⟩
      have := callAt_ok ⟨⟨[(u, none), (v, none)], []⟩, X x - X y, gens⟩ ⟨by simp [Meta.names, huv],
          by simp [gu, gv], by simp, by simp, by simp⟩ (fun s hs => by
            have := hg s hs
            simp [Meta.allSymbols, Meta.varSyms, varSymbols, this])
          ((realCoeffs_X _).sub (realCoeffs_X _)) ρ
      refine Eq.trans this ?_
      simp
    · exfalso
      apply hn
      rw [hvo]
      refine ⟨rfl, ?_, ?_, ?_, ?_, ?_, ?_⟩
      · intro w hw
        simp only [List.mem_cons, List.not_mem_nil, or_false] at hw
        rcases hw with rfl | rfl
        · exact Or.inr ⟨_, by unfold splitNat; rw [hu]⟩
        · exact Or.inr ⟨_, by unfold splitNat; rw [hv]⟩
      · simp [Meta.names, huv, hu', hv']
      · simp [Meta.varSyms, varSymbols]
      · simp [Meta.varSyms, varSymbols, huv]
      · simp [args]
      · intro g hg'
        left
        simpa [Meta.varSyms, varSymbols] using hg g hg'
  have hg : ∀ g ∈ (X x - X y : MvPolynomial Sym ℂ).vars, g = x ∨ g = y := by
    intro g hg
    have := vars_sub_subset (R := ℂ) (p := (X x : MvPolynomial Sym ℂ)) (q := X y) hg
    simpa [vars_X] using this
  obtain ⟨P, hP, hP'⟩ := key x y hxy (by decide) (by decide) (by decide) (by decide) hx hy hg
  obtain ⟨Q, hQ, hQ'⟩ := key y x hxy.symm (by decide) (by decide) (by decide) (by decide) hy hx
    (fun g h => (hg g h).symm)
  refine ⟨P, Q, hP, hQ, ?_, ?_⟩
  · have := hP' (fun s => if s = x then 1 else 2)
    simp only [if_true, hxy.symm, if_false] at this
    rw [this]; norm_num
  · have := hQ' (fun s => if s = x then 2 else 1)
    simp only [if_true, hxy.symm, if_false] at this
    rw [this]; norm_num

/-- C54 is violated for an expression mentioning `z` and `z0` in which `z` cancels when it is expanded
(`z*(z0 + 1) - z*z0 - z + z0`): whether there is an error depends on the order. -/
theorem C54_mixed_violated :
    let z : Sym := "z".toList
    let z0 := mergeSubscript z 0
    let args : FromSympyArgs := ⟨some [z], none, none⟩
    (∃ P, fromSympy args (X z * (X z0 + 1) - X z * X z0 - X z + X z0) [z, z0] = .ok P) ∧
    fromSympy args (X z * (X z0 + 1) - X z * X z0 - X z + X z0) [z0, z] = .error .assertionError := by
  intro z z0 args
  have hp : (X z * (X z0 + 1) - X z * X z0 - X z + X z0 : MvPolynomial Sym ℂ) = X z0 := by ring
  rw [hp]
  have hz : splitNat z = .ok (z, none) := splitNat_scalar.2 (splitSubscript_good _ (by decide))
  have hz0 : splitNat z0 = .ok (z, some 0) := splitNat_indexed.2 (splitSubscript_merge _ (by decide) 0)
  have hd : dictIndex [z] z = some 0 := by decide
  constructor
  · have hs : scanSymbols args args.init [z, z0] = .ok ⟨[z], [some [0]], [false], [], [(z0, z0)]⟩ := by
      simp [scanSymbols, scanSymbol, FromSympyArgs.init, args, hz, hz0, hd, z0]
    unfold fromSympy
    rw [if_neg (by simp [args]), hs]
    unfold finish
    simp only
    rw [if_neg (by decide), if_neg (by decide), if_neg]
    · exact ⟨_, rfl⟩
    · have hm : finishMeta args ⟨[z], [some [0]], [false], [], [(z0, z0)]⟩ = ⟨[(z, some [0])], []⟩ := by
        simp [finishMeta, args, sortNat, sortSyms]
      have hr : renameSym [(z0, z0)] = id := by
        funext v
        unfold renameSym dictGet
        by_cases h : z0 = v
        · subst h; simp
        · simp [h]
      rw [hm, hr, rename_id_apply]
      simp [Meta.varSyms, varSymbols, vars_X, z0]
  · have hs : scanSymbols args args.init [z0, z] = .error .assertionError := by
      simp [scanSymbols, scanSymbol, FromSympyArgs.init, args, hz, hz0, hd]
    unfold fromSympy
    rw [if_neg (by simp [args]), hs]

/-! ## C55 -/

/-- C55 is violated: without variable names, an expression with two entries of the same array (`z0`, `z1`) is
always rejected, in whatever order the symbols are visited. -/
theorem C55_violated (a : FromSympyArgs) (hns : a.names = none) (p : MvPolynomial Sym ℂ) (free : List Sym)
    (hnd : free.Nodup) (v w : Sym) (hv : v ∈ free) (hw : w ∈ free) (hvw : v ≠ w)
    (hvp : v ∉ a.params.getD []) (hwp : w ∉ a.params.getD []) (n : List Char) (i j : ℕ)
    (hvi : Indexed v n i) (hwj : Indexed w n j) : ∃ e, fromSympy a p free = .error e := by
  rcases fromSympy_no_names a hns p free with ⟨_, _, h3, _⟩ | ⟨_, h⟩
  swap
  · exact h
  exfalso
  have h3' := (List.nodup_append.1 h3).1
  unfold Meta.names at h3'
  simp only at h3'
  have ev : varOf a v = some (n, some [i]) := by
    unfold varOf; rw [if_neg hvp, splitNat_indexed.2 hvi]; rfl
  have ew : varOf a w = some (n, some [j]) := by
    unfold varOf; rw [if_neg hwp, splitNat_indexed.2 hwj]; rfl
  have : ∀ l : List Sym, l.Nodup → v ∈ l → w ∈ l → ¬ ((l.filterMap (varOf a)).map Prod.fst).Nodup := by
    intro l
    induction l with
    | nil => intro _ h; simp at h
    | cons u l ih =>
      intro hl hv hw hnod
      rw [List.nodup_cons] at hl
      rcases List.mem_cons.1 hv with rfl | hv'
      · rcases List.mem_cons.1 hw with rfl | hw'
        · exact hvw rfl
        · rw [List.filterMap_cons_some ev, List.map_cons, List.nodup_cons] at hnod
          exact hnod.1 (List.mem_map.2 ⟨_, List.mem_filterMap.2 ⟨w, hw', ew⟩, rfl⟩)
      · rcases List.mem_cons.1 hw with rfl | hw'
        · rw [List.filterMap_cons_some ew, List.map_cons, List.nodup_cons] at hnod
          exact hnod.1 (List.mem_map.2 ⟨_, List.mem_filterMap.2 ⟨v, hv', ev⟩, rfl⟩)
        · apply ih hl.2 hv' hw'
          cases hu : varOf a u with
          | none => rw [List.filterMap_cons_none hu] at hnod; exact hnod
          | some x =>
            rw [List.filterMap_cons_some hu, List.map_cons, List.nodup_cons] at hnod
            exact hnod.2
  exact this free hnd hv hw h3'

/-- `z0 + z1` cannot be read without names. -/
example : let z0 := mergeSubscript "z".toList 0
    let z1 := mergeSubscript "z".toList 1
    ∃ e, fromSympy ⟨none, none, none⟩ (X z0 + X z1) [z0, z1] = .error e := by
  intro z0 z1
  exact C55_violated ⟨none, none, none⟩ rfl _ [z0, z1] (by decide) z0 z1 (by simp) (by simp) (by decide)
    (by simp) (by simp) "z".toList 0 1 (splitSubscript_merge _ (by decide) 0)
    (splitSubscript_merge _ (by decide) 1)

/-- C55 with the name given: any non-empty set of entries of the array, in any order, is grouped into one
variable, whose indices are the sorted subscripts. -/
theorem C55_named_partial (n : List Char) (hn : GoodName n) (hn' : n ≠ paramsKey) (I : List ℕ) (hI : I ≠ [])
    (hnd : I.Nodup) (p : MvPolynomial Sym ℂ) (hp : ∀ s ∈ p.vars, ∃ i ∈ I, s = mergeSubscript n i) :
    ∃ P J, fromSympy ⟨some [n], none, none⟩ p (I.map (mergeSubscript n)) = .ok P ∧
      P.md = ⟨[(n, some J)], []⟩ ∧ J.Pairwise (· < ·) ∧ J.Perm I ∧ P.poly = p := by
  set a : FromSympyArgs := ⟨some [n], none, none⟩ with ha
  have hidx : ∀ i, Indexed (mergeSubscript n i) n i := fun i => splitSubscript_merge n hn i
  have hkind : ∀ i, symKind a [n] (mergeSubscript n i) = .idx 0 i (mergeSubscript n i) := by
    intro i
    rw [symKind_idx_iff]
    refine ⟨by simp [ha], n, by simp, ?_, hidx i, rfl⟩
    exact dictIndex_nodup (l := [n]) (by simp) (k := 0) (by simp)
  have hmnd : (I.map (mergeSubscript n)).Nodup :=
    hnd.map (fun i j h => (merge_inj n n hn hn i j h).2)
  have hscan := (scan_ok_iff a [n] rfl (I.map (mergeSubscript n)) hmnd (by
    intro _ v hv w hw k i t h1 h2
    obtain ⟨j, _, rfl⟩ := List.mem_map.1 hv
    rw [hkind] at h1
    cases h1)).1 (by
      intro v hv
      obtain ⟨j, _, rfl⟩ := List.mem_map.1 hv
      unfold okSym
      rw [hkind]
      simp [ha])
  obtain ⟨app, hs⟩ := hscan
  have hcoll : collected a [n] (I.map (mergeSubscript n)) 0 = I := by
    unfold collected
    rw [List.filterMap_map]
    have : ((fun v => idxOf 0 (symKind a [n] v)) ∘ mergeSubscript n) = some := by
      funext i
      simp [hkind, idxOf]
    rw [this, List.filterMap_some]
  have hmd : finishMeta a (stateOf a [n] (I.map (mergeSubscript n)) app) = ⟨[(n, some (sortNat I))], []⟩ := by
    unfold finishMeta stateOf
    congr 1
    · simp [ha]
      simp [indsOf, hcoll, hI, ← ha]
    · have : (I.map (mergeSubscript n)).filter (fun v => isPar (symKind a [n] v)) = [] := by
        rw [List.filter_eq_nil_iff]
        intro v hv
        obtain ⟨j, _, rfl⟩ := List.mem_map.1 hv
        simp [hkind, isPar]
      rw [this]
      simp [ha, sortSyms]
  have hren : rename (renameSym (stateOf a [n] (I.map (mergeSubscript n)) app).rename) p = p := by
    have : renameSym (stateOf a [n] (I.map (mergeSubscript n)) app).rename = id := by
      funext v
      rw [renameSym_stateOf]
      split
      · next k i t hk =>
        split_ifs with hv
        · obtain ⟨j, _, rfl⟩ := List.mem_map.1 hv
          rw [hkind] at hk
          cases hk
          rfl
        · rfl
      · rfl
    rw [this, rename_id_apply]
  have hperm : (sortNat I).Perm I := List.mergeSort_perm _ _
  have hJ : (sortNat I).Pairwise (· < ·) := by
    have h1 := List.pairwise_mergeSort (le := fun a b : ℕ => decide (a ≤ b)) (by simp; omega)
      (by simp; omega) I
    have h2 : (sortNat I).Pairwise (· ≤ ·) := by simpa [sortNat] using h1
    exact (h2.and (hperm.nodup_iff.2 hnd)).imp (fun h => lt_of_le_of_ne h.1 h.2)
  refine ⟨⟨⟨[(n, some (sortNat I))], []⟩, p, Meta.varSyms ⟨[(n, some (sortNat I))], []⟩⟩, sortNat I, ?_, rfl, hJ, hperm, rfl⟩
  unfold fromSympy
  rw [if_neg (by simp [ha]), hs]
  unfold finish
  simp only
  rw [if_neg (by simp [stateOf, hn']), if_neg (by simp [stateOf, indsOf, ha]), hmd, hren, if_neg]
  rintro (h | h | ⟨g, hg, hg'⟩ | ⟨g, hg, hg', _⟩)
  · rw [Meta.varSyms, List.flatMap_singleton, varSymbols, List.map_eq_nil_iff] at h
    rw [h] at hperm
    exact hI hperm.symm.eq_nil
  · apply h
    rw [Meta.varSyms, List.flatMap_singleton, varSymbols]
    exact (hperm.nodup_iff.2 hnd).map (fun i j h => (merge_inj n n hn hn i j h).2)
  · simp at hg'
  · obtain ⟨i, hi, rfl⟩ := hp g hg
    apply hg'
    rw [Meta.varSyms, List.flatMap_singleton, varSymbols]
    exact List.mem_map.2 ⟨i, hperm.mem_iff.2 hi, rfl⟩

/-! ## C89 -/

/-- C89: with names given, evaluating the object made by `from_sympy` gives the value of the
expression: every indexed symbol (`z3` or `z_3`) reads the entry of the array with that index, every
other symbol its own input. -/
theorem C89_from_sympy_value (a : FromSympyArgs) (ns : List (List Char)) (hns : a.names = some ns)
    (p : MvPolynomial Sym ℂ) (free : List Sym) (hnd : free.Nodup) (hmix : NoMix a free)
    (hfree : ∀ s ∈ p.vars, s ∈ free) (hr : RealCoeffs p) (hgood : ∀ n ∈ ns, GoodName n)
    (P : PolyObj) (hP : fromSympy a p free = .ok P)
    (hpn : P.md.params.Nodup)
    (hps : ∀ s ∈ P.md.params, ∃ n i, splitSubscript s = .ok (n, i) ∧ n ∉ P.md.names)
    (σ ρ : Sym → ℂ)
    (h1 : ∀ s ∈ free, ∀ n ∈ ns, ∀ i, Indexed s n i → σ s = ρ (mergeSubscript n i))
    (h2 : ∀ s ∈ free, (∀ n ∈ ns, ∀ i, ¬ Indexed s n i) → σ s = ρ s) :
    P.callAt ρ = .ok (eval σ p) := by
  obtain ⟨hok, app, hmd, hpoly, hgens, hns2, hlen, hvs, hgp, hdecl⟩ := fromSympy_ok hns hnd hmix hP
  have hnames : P.md.names = ns := by
    rw [hmd]
    unfold Meta.names finishMeta
    simp only [stateOf]
    rw [List.map_fst_zip]
    split_ifs
    · exact le_of_eq hlen
    · rw [List.length_map]; exact le_of_eq hlen
  have hwf : P.md.WF := by
    refine ⟨?_, ?_, ?_, hpn, hps⟩
    · rw [hnames]; exact (List.nodup_append.1 hns2).1
    · intro v hv
      apply hgood
      rw [← hnames]
      exact List.mem_map.2 ⟨v, hv, rfl⟩
    · intro v hv inds hi
      unfold Meta.varSyms at hvs
      rw [List.nodup_flatMap] at hvs
      have := hvs.1 v hv
      unfold varSymbols at this
      rw [hi] at this
      exact List.Nodup.of_map _ this
  have hreal : RealCoeffs P.poly := by
    rw [hpoly]
    rw [realCoeffs_iff] at *
    rw [map_rename, hr]
  rw [callAt_ok P hwf hdecl hreal, hpoly, eval_rename]
  refine congrArg Except.ok (eval₂Hom_congr' rfl (fun s hs _ => ?_) rfl)
  have hsf := hfree s hs
  simp only [Function.comp]
  rw [renameSym_stateOf]
  cases hk : symKind a ns s with
  | idx k i t =>
    obtain ⟨_, n, hn, _, hi, rfl⟩ := symKind_idx_iff.1 hk
    simp only [hsf, if_true]
    exact (h1 s hsf n hn i hi).symm
  | _ =>
    simp only
    symm
    apply h2 s hsf
    intro n hn i hi
    by_cases hsp : s ∈ a.params.getD []
    · have hsP : s ∈ P.md.params := by
        rw [hmd]
        have hst : s ∈ (stateOf a ns free app).params := List.mem_append_left _ hsp
        unfold finishMeta
        simp only
        by_cases hpar : a.params.isSome = true
        · rw [if_pos hpar]; exact hst
        · rw [if_neg hpar]
          simp only [sortSyms, List.mem_mergeSort]
          exact hst
      obtain ⟨n', i', hsp', hn'⟩ := hps s hsP
      unfold Indexed at hi
      rw [hi] at hsp'
      cases hsp'
      rw [hnames] at hn'
      exact hn' hn
    · obtain ⟨k', hk'⟩ := dictIndex_isSome hn
      rw [symKind_idx_iff.2 ⟨hsp, n, hn, hk', hi, rfl⟩] at hk
      cases hk

end Cyjax
