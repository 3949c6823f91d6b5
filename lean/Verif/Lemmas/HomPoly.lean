import Verif.Spec.HomPoly
import Verif.Lemmas.PolyOps

namespace Cyjax.Polynomial

open MvPolynomial

/-! ## Mixed radix index -/

theorem uniquePatchLoop_eq (sizes patch : List ℕ) (i m : ℕ) :
    uniquePatchLoop i m patch sizes = i + m * uniquePatchIndex sizes patch := by
  unfold uniquePatchIndex
  induction patch generalizing sizes i m with
  | nil => simp [uniquePatchLoop]
  | cons p ps ih =>
    cases sizes with
    | nil => simp [uniquePatchLoop]
    | cons n ns =>
      rw [uniquePatchLoop, uniquePatchLoop, ih ns, ih ns (0 + p * 1)]
      ring

theorem uniquePatchIndex_cons (n p : ℕ) (ns ps : List ℕ) :
    uniquePatchIndex (n :: ns) (p :: ps) = p + n * uniquePatchIndex ns ps := by
  unfold uniquePatchIndex
  rw [uniquePatchLoop, uniquePatchLoop_eq]
  unfold uniquePatchIndex
  simp

theorem uniquePatchIndex_lt (sizes patch : List ℕ) (h : ValidPatch sizes patch) :
    uniquePatchIndex sizes patch < sizes.prod := by
  induction h with
  | nil => simp [uniquePatchIndex, uniquePatchLoop]
  | @cons p n ps ns hp _ ih =>
    rw [uniquePatchIndex_cons, List.prod_cons]
    calc p + n * uniquePatchIndex ns ps < n + n * uniquePatchIndex ns ps := by omega
      _ = n * (uniquePatchIndex ns ps + 1) := by ring
      _ ≤ n * ns.prod := Nat.mul_le_mul_left _ ih

theorem uniquePatchIndex_inj (sizes p q : List ℕ) (hp : ValidPatch sizes p) (hq : ValidPatch sizes q)
    (h : uniquePatchIndex sizes p = uniquePatchIndex sizes q) : p = q := by
  induction hp generalizing q with
  | nil => cases hq; rfl
  | @cons a n ps ns ha _ ih =>
    cases hq with
    | @cons b _ qs _ hb hqs =>
      rw [uniquePatchIndex_cons, uniquePatchIndex_cons] at h
      have h1 : a = b := by
        have := congrArg (· % n) h
        simpa [Nat.add_mul_mod_self_left, Nat.mod_eq_of_lt ha, Nat.mod_eq_of_lt hb] using this
      subst h1
      have hn : 0 < n := by omega
      have h2 : uniquePatchIndex ns ps = uniquePatchIndex ns qs :=
        Nat.eq_of_mul_eq_mul_left hn (by omega)
      rw [ih qs hqs h2]

theorem uniquePatchIndex_surj (sizes : List ℕ) (k : ℕ) (h : k < sizes.prod) :
    ∃ p, ValidPatch sizes p ∧ uniquePatchIndex sizes p = k := by
  induction sizes generalizing k with
  | nil =>
    rw [List.prod_nil] at h
    have : k = 0 := by omega
    subst this
    exact ⟨[], .nil, rfl⟩
  | cons n ns ih =>
    rw [List.prod_cons] at h
    have hn : 0 < n := by
      rcases Nat.eq_zero_or_pos n with rfl | h'
      · simp at h
      · exact h'
    obtain ⟨p, hp, hk⟩ := ih (k / n) (by rw [Nat.div_lt_iff_lt_mul hn, mul_comm]; exact h)
    refine ⟨(k % n) :: p, .cons (Nat.mod_lt _ hn) hp, ?_⟩
    rw [uniquePatchIndex_cons, hk, Nat.mod_add_div]

/-! ## Branch table -/

theorem mem_cartesian (sizes p : List ℕ) : p ∈ cartesian sizes ↔ ValidPatch sizes p := by
  induction sizes generalizing p with
  | nil =>
    simp only [cartesian, List.mem_singleton, ValidPatch, List.forall₂_nil_right_iff]
  | cons n ns ih =>
    simp only [cartesian, List.mem_flatMap, List.mem_range, List.mem_map]
    constructor
    · rintro ⟨i, hi, q, hq, rfl⟩
      exact .cons hi ((ih q).1 hq)
    · intro h
      cases h with
      | @cons a _ ps _ ha hps => exact ⟨a, ha, ps, (ih ps).2 hps, rfl⟩

theorem nodup_cartesian (sizes : List ℕ) : (cartesian sizes).Nodup := by
  induction sizes with
  | nil => simp [cartesian]
  | cons n ns ih =>
    rw [cartesian, List.nodup_flatMap]
    refine ⟨fun i _ => ih.map (fun a b h => by simpa using h), ?_⟩
    refine (List.nodup_range).imp ?_
    intro a b hab
    rw [Function.onFun, List.disjoint_left]
    intro x hx hx'
    obtain ⟨q, _, rfl⟩ := List.mem_map.1 hx
    obtain ⟨q', _, h⟩ := List.mem_map.1 hx'
    simp only [List.cons.injEq] at h
    exact hab h.1.symm

theorem allPatches_perm (sizes : List ℕ) : (allPatches sizes).Perm (cartesian sizes) :=
  List.mergeSort_perm _ _

theorem allPatches_keys (sizes : List ℕ) :
    (allPatches sizes).map (uniquePatchIndex sizes) = List.range sizes.prod := by
  have hsorted : ((allPatches sizes).map (uniquePatchIndex sizes)).Pairwise (· ≤ ·) := by
    rw [List.pairwise_map]
    have := List.pairwise_mergeSort (le := fun p q => decide (uniquePatchIndex sizes p ≤ uniquePatchIndex sizes q))
      (by intro a b c h1 h2; simp only [decide_eq_true_eq] at *; omega)
      (by intro a b; simp only [Bool.or_eq_true, decide_eq_true_eq]; omega) (cartesian sizes)
    exact this.imp (by intro a b h; simpa using h)
  have hperm : ((allPatches sizes).map (uniquePatchIndex sizes)).Perm (List.range sizes.prod) := by
    rw [List.perm_ext_iff_of_nodup]
    · intro k
      rw [List.mem_map, List.mem_range]
      constructor
      · rintro ⟨p, hp, rfl⟩
        exact uniquePatchIndex_lt _ _ ((mem_cartesian _ _).1 ((allPatches_perm sizes).mem_iff.1 hp))
      · intro hk
        obtain ⟨p, hp, rfl⟩ := uniquePatchIndex_surj sizes k hk
        exact ⟨p, (allPatches_perm sizes).mem_iff.2 ((mem_cartesian _ _).2 hp), rfl⟩
    · rw [List.nodup_map_iff_inj_on ((allPatches_perm sizes).nodup_iff.2 (nodup_cartesian sizes))]
      intro p hp q hq h
      exact uniquePatchIndex_inj sizes p q
        ((mem_cartesian _ _).1 ((allPatches_perm sizes).mem_iff.1 hp))
        ((mem_cartesian _ _).1 ((allPatches_perm sizes).mem_iff.1 hq)) h
    · exact List.nodup_range
  exact hperm.eq_of_pairwise (fun a b _ _ h1 h2 => le_antisymm h1 h2) hsorted
    (List.pairwise_lt_range.imp le_of_lt)

theorem laxSwitch_allPatches (sizes patch : List ℕ) (h : ValidPatch sizes patch) :
    laxSwitch (uniquePatchIndex sizes patch) (allPatches sizes) = some patch := by
  have hlt := uniquePatchIndex_lt sizes patch h
  have hlen : (allPatches sizes).length = sizes.prod := by
    rw [← List.length_map (f := uniquePatchIndex sizes), allPatches_keys, List.length_range]
  unfold laxSwitch
  rw [min_eq_left (by omega), List.getElem?_eq_getElem (by omega)]
  congr 1
  apply uniquePatchIndex_inj sizes
  · exact (mem_cartesian _ _).1 ((allPatches_perm sizes).mem_iff.1 (List.getElem_mem _))
  · exact h
  · have hk := allPatches_keys sizes
    have : ((allPatches sizes).map (uniquePatchIndex sizes))[uniquePatchIndex sizes patch]'(by
        rw [List.length_map]; omega) = uniquePatchIndex sizes patch := by
      simp only [hk, List.getElem_range]
    simpa using this

/-! ## Cache -/

/-- Cache invariant. -/
def CacheOK (P : PolyObj) (cache : Cache) : Prop :=
  cache.length = P.md.sizes.prod ∧
  ∀ patch, ValidPatch P.md.sizes patch → ∀ A,
    cache[uniquePatchIndex P.md.sizes patch]? = some (some A) → A = affinePoly P patch

theorem util_prod_nat (l : List ℕ) : Util.prod l = l.prod := prod_eq l

theorem initCache_ok (P : PolyObj) : CacheOK P (initCache P) := by
  unfold initCache
  refine ⟨by rw [List.length_replicate, util_prod_nat], ?_⟩
  intro patch _ A h
  rw [List.getElem?_replicate] at h
  split_ifs at h
  simp at h

theorem affinePolyCached_spec (P : PolyObj) (cache : Cache) (hc : CacheOK P cache) (patch : List ℕ)
    (hp : ValidPatch P.md.sizes patch) :
    (affinePolyCached P cache patch).2 = .ok (affinePoly P patch) ∧
      CacheOK P (affinePolyCached P cache patch).1 := by
  have hlt := uniquePatchIndex_lt _ _ hp
  rw [← hc.1] at hlt
  unfold affinePolyCached
  simp only
  rw [List.getElem?_eq_getElem hlt]
  cases h : cache[uniquePatchIndex P.md.sizes patch] with
  | some A =>
    simp only
    refine ⟨?_, hc⟩
    rw [hc.2 patch hp A (by rw [List.getElem?_eq_getElem hlt, h])]
  | none =>
    simp only
    refine ⟨trivial, by rw [List.length_set]; exact hc.1, ?_⟩
    intro q hq A hA
    rw [List.getElem?_set] at hA
    split_ifs at hA with h1
    · simp only [Option.some.injEq] at hA
      rw [← hA, uniquePatchIndex_inj _ _ _ hp hq h1]
    · exact hc.2 q hq A hA

theorem homCall_spec (P : PolyObj) (cache : Cache) (hc : CacheOK P cache) (patch : Option (List ℕ))
    (hp : ∀ q, patch = some q → ValidPatch P.md.sizes q) (args : List Val)
    (kwargs : List (List Char × Val)) :
    (homCall P cache patch args kwargs).2 =
      (match patch with | none => P.call args kwargs | some q => (affinePoly P q).call args kwargs) ∧
    CacheOK P (homCall P cache patch args kwargs).1 := by
  cases patch with
  | none => exact ⟨rfl, hc⟩
  | some q =>
    obtain ⟨h1, h2⟩ := affinePolyCached_spec P cache hc q (hp q rfl)
    unfold homCall
    simp only
    generalize hr : affinePolyCached P cache q = r at h1 h2
    obtain ⟨c, e⟩ := r
    simp only at h1 h2
    subst h1
    exact ⟨rfl, h2⟩

theorem transformEval_eq (P : PolyObj) (cache : Cache) (patch : Option (List ℕ))
    (hp : ∀ q, patch = some q → ValidPatch P.md.sizes q) (args : List Val)
    (kwargs : List (List Char × Val)) :
    transformEval P cache patch args kwargs = homCall P cache patch args kwargs := by
  unfold transformEval
  cases patch with
  | none => rfl
  | some q =>
    simp only
    rw [laxSwitch_allPatches _ _ (hp q rfl)]

theorem cacheAfter_ok (P : PolyObj) (history : List HomStep) (h : ∀ s ∈ history, s.Valid P.md.sizes) :
    CacheOK P (cacheAfter P history) := by
  unfold cacheAfter
  have : ∀ c, CacheOK P c → CacheOK P (history.foldl (HomStep.run P) c) := by
    induction history with
    | nil => exact fun c hc => hc
    | cons s hist ih =>
      intro c hc
      rw [List.foldl_cons]
      refine ih (fun s hs => h s (List.mem_cons_of_mem _ hs)) _ ?_
      have hs := h s List.mem_cons_self
      cases s with
      | affine p => exact (affinePolyCached_spec P c hc p hs).2
      | eval p args kwargs => exact (homCall_spec P c hc p hs args kwargs).2
      | compiled p args kwargs =>
        rw [HomStep.run, transformEval_eq P c p hs]
        exact (homCall_spec P c hc p hs args kwargs).2
  exact this _ (initCache_ok P)

/-! ## The affine polynomial -/

theorem filter_range (n p : ℕ) : (List.range n).filter (fun i => i ≠ p) = (List.range n).eraseIdx p := by
  rw [List.eraseIdx_eq_take_drop_succ]
  by_cases hp : p < n
  · conv_lhs => rw [← List.take_append_drop p (List.range n), List.filter_append,
      List.drop_eq_getElem_cons (by simpa using hp)]
    rw [List.filter_cons_of_neg (by simp)]
    congr 1
    · rw [List.filter_eq_self]
      intro i hi
      rw [List.take_range, List.mem_range] at hi
      simp; omega
    · rw [List.filter_eq_self]
      intro i hi
      rw [List.mem_drop_iff_getElem] at hi
      obtain ⟨k, hk, rfl⟩ := hi
      simp
      omega
  · rw [List.take_of_length_le (by simp; omega), List.drop_of_length_le (by simp; omega), List.append_nil,
      List.filter_eq_self]
    intro i hi
    rw [List.mem_range] at hi
    simp; omega

theorem affineMeta_names (m : Meta) (patch : List ℕ) (h : patch.length = m.vars.length) :
    (affineMeta m patch).names = m.names := by
  unfold affineMeta Meta.names
  simp only
  rw [List.map_zipWith]
  apply List.ext_getElem
  · simp [h]
  · intro i h1 h2
    simp

theorem mem_affine_vars (m : Meta) (patch : List ℕ) (w : List Char × Option (List ℕ))
    (hw : w ∈ (affineMeta m patch).vars) :
    ∃ v p, (v, p) ∈ m.vars.zip patch ∧ w = (v.1, some ((v.2.getD []).filter (fun i => i ≠ p))) := by
  unfold affineMeta at hw
  simp only at hw
  obtain ⟨i, hi, rfl⟩ := List.getElem_of_mem hw
  rw [List.length_zipWith] at hi
  refine ⟨m.vars[i], patch[i], ?_, by rw [List.getElem_zipWith]⟩
  rw [List.mem_iff_getElem]
  exact ⟨i, by rw [List.length_zip]; exact hi, by rw [List.getElem_zip]⟩

theorem affineMeta_wf (m : Meta) (hm : m.WF) (patch : List ℕ) (h : patch.length = m.vars.length) :
    (affineMeta m patch).WF where
  namesNodup := by rw [affineMeta_names m patch h]; exact hm.namesNodup
  good := by
    intro w hw
    obtain ⟨v, p, hvp, rfl⟩ := mem_affine_vars m patch w hw
    exact hm.good v (List.of_mem_zip hvp).1
  indsNodup := by
    intro w hw inds hinds
    obtain ⟨v, p, hvp, rfl⟩ := mem_affine_vars m patch w hw
    simp only [Option.some.injEq] at hinds
    subst hinds
    apply List.Nodup.filter
    cases hv : v.2 with
    | none => simp
    | some inds => exact hm.indsNodup v (List.of_mem_zip hvp).1 inds hv
  paramsNodup := hm.paramsNodup
  params := by
    intro s hs
    rw [affineMeta_names m patch h]
    exact hm.params s hs

/-- Symbols of the affine polynomial. -/
theorem mem_affine_varSyms (m : Meta) (hm : ∀ v ∈ m.vars, v.2.isSome) (patch : List ℕ)
    (hl : patch.length = m.vars.length) (s : Sym) (hs : s ∈ m.varSyms) (hn : s ∉ patchSymbols m patch) :
    s ∈ (affineMeta m patch).varSyms := by
  unfold Meta.varSyms at *
  rw [List.mem_flatMap] at *
  obtain ⟨v, hv, hs⟩ := hs
  obtain ⟨k, hk, rfl⟩ := List.getElem_of_mem hv
  obtain ⟨inds, hinds⟩ := Option.isSome_iff_exists.1 (hm _ hv)
  have hs' : s ∈ inds.map (mergeSubscript m.vars[k].1) := by
    unfold varSymbols at hs; rw [hinds] at hs; exact hs
  obtain ⟨i, hi, rfl⟩ := List.mem_map.1 hs'
  have hk' : k < patch.length := by omega
  refine ⟨(m.vars[k].1, some (inds.filter (fun i => i ≠ patch[k]))), ?_, ?_⟩
  · unfold affineMeta
    simp only
    rw [List.mem_iff_getElem]
    refine ⟨k, by simp; omega, ?_⟩
    rw [List.getElem_zipWith, hinds]
    rfl
  · simp only [varSymbols, List.mem_map, List.mem_filter]
    refine ⟨i, ⟨hi, ?_⟩, rfl⟩
    simp only [ne_eq, decide_not, Bool.not_eq_true', decide_eq_false_iff_not]
    rintro rfl
    apply hn
    unfold patchSymbols
    rw [List.mem_iff_getElem]
    refine ⟨k, by simp [Meta.names]; omega, ?_⟩
    rw [List.getElem_zipWith]
    simp [Meta.names]

theorem affinePoly_declared (P : PolyObj) (hd : P.Declared) (hm : ∀ v ∈ P.md.vars, v.2.isSome)
    (patch : List ℕ) (hl : patch.length = P.md.vars.length) : (affinePoly P patch).obj.Declared := by
  intro s hs
  unfold affinePoly at hs
  simp only at hs
  have h1 := vars_bind₁ _ _ hs
  rw [Finset.mem_biUnion] at h1
  obtain ⟨t, ht, hst⟩ := h1
  split_ifs at hst with h
  · rw [vars_one] at hst; simp at hst
  · rw [vars_X, Finset.mem_singleton] at hst
    subst hst
    have := hd s ht
    simp only [Meta.allSymbols, List.mem_append] at this ⊢
    exact this.imp (fun h' => mem_affine_varSyms P.md hm patch hl s h' h) id

theorem affinePoly_real (P : PolyObj) (hr : RealCoeffs P.poly) (patch : List ℕ) :
    RealCoeffs (affinePoly P patch).obj.poly := by
  unfold affinePoly
  simp only
  rw [realCoeffs_iff] at *
  rw [map_bind₁, hr]
  congr 2
  funext s
  split_ifs <;> simp

theorem eval_affinePoly (P : PolyObj) (patch : List ℕ) (ρ : Sym → ℂ) :
    eval ρ (affinePoly P patch).obj.poly =
      eval (fun s => if s ∈ patchSymbols P.md patch then 1 else ρ s) P.poly := by
  unfold affinePoly
  simp only
  have := eval₂Hom_bind₁ (RingHom.id ℂ) ρ (fun s => if s ∈ patchSymbols P.md patch then 1 else X s) P.poly
  refine this.trans ?_
  congr 2
  funext s
  split_ifs <;> simp

end Cyjax.Polynomial
