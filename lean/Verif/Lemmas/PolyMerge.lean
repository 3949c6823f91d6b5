import Verif.Lemmas.PolyOps

namespace Cyjax.Polynomial

abbrev Var := List Char × Option (List ℕ)

theorem varSymbols_union (n : List Char) (a b : List ℕ) (s : Sym) :
    s ∈ varSymbols (n, some (unionIndices a b)) ↔
      s ∈ varSymbols (n, some a) ∨ s ∈ varSymbols (n, some b) := by
  simp only [varSymbols, List.mem_map, mem_unionIndices]
  constructor
  · rintro ⟨i, hi | hi, rfl⟩
    · exact Or.inl ⟨i, hi, rfl⟩
    · exact Or.inr ⟨i, hi, rfl⟩
  · rintro (⟨i, hi, rfl⟩ | ⟨i, hi, rfl⟩)
    · exact ⟨i, Or.inl hi, rfl⟩
    · exact ⟨i, Or.inr hi, rfl⟩

/-- The list after merging one variable, in each case. -/
theorem mergeVar_cases (vars : List Var) (v : Var) :
    (v.1 ∉ vars.map Prod.fst ∧ mergeVar vars v = .ok (vars ++ [v])) ∨
    ∃ l w r, vars = l ++ w :: r ∧ w.1 = v.1 ∧ v.1 ∉ l.map Prod.fst ∧
      ((w.2 = none ∧ v.2 = none ∧ mergeVar vars v = .ok vars) ∨
       (∃ a b, w.2 = some a ∧ v.2 = some b ∧
          mergeVar vars v = .ok (l ++ (v.1, some (unionIndices a b)) :: r)) ∨
       (w.2.isSome ≠ v.2.isSome ∧ mergeVar vars v = .error .assertionError)) := by
  unfold mergeVar
  cases hf : vars.findIdx? (fun w => w.1 = v.1) with
  | none =>
    left
    rw [List.findIdx?_eq_none_iff] at hf
    refine ⟨?_, rfl⟩
    intro h
    obtain ⟨w, hw, hwv⟩ := List.mem_map.1 h
    have := hf w hw
    simp [hwv] at this
  | some k =>
    right
    rw [List.findIdx?_eq_some_iff_getElem] at hf
    obtain ⟨hk, hkv, hlt⟩ := hf
    have hkv' : vars[k].1 = v.1 := by simpa using hkv
    refine ⟨vars.take k, vars[k], vars.drop (k + 1), ?_, hkv', ?_, ?_⟩
    · rw [List.getElem_cons_drop, List.take_append_drop]
    · intro h
      obtain ⟨w, hw, hwv⟩ := List.mem_map.1 h
      obtain ⟨j, hj, rfl⟩ := List.getElem_of_mem hw
      rw [List.length_take] at hj
      have := hlt j (by omega)
      rw [List.getElem_take] at hwv
      simp [hwv] at this
    · simp only [List.getElem?_eq_getElem hk, Option.bind_some]
      rcases h1 : vars[k].2 with _ | a <;> rcases h2 : v.2 with _ | b
      · left; exact ⟨rfl, rfl, rfl⟩
      · right; right; exact ⟨by simp, rfl⟩
      · right; right; exact ⟨by simp, rfl⟩
      · right; left
        refine ⟨a, b, rfl, rfl, ?_⟩
        simp only
        rw [List.set_eq_take_append_cons_drop, if_pos hk]

/-- What merging keeps: everything the properties need. -/
structure MergeOK (vars : List Var) : Prop where
  nodup : (vars.map Prod.fst).Nodup
  good : ∀ v ∈ vars, GoodName v.1
  inds : ∀ v ∈ vars, ∀ inds, v.2 = some inds → inds.Nodup

theorem mergeVar_ok (vars : List Var) (v : Var) (vars' : List Var) (h : mergeVar vars v = .ok vars')
    (hv : MergeOK vars) (hg : GoodName v.1) (hi : ∀ inds, v.2 = some inds → inds.Nodup) :
    MergeOK vars' ∧
    (vars'.map Prod.fst = if v.1 ∈ vars.map Prod.fst then vars.map Prod.fst else vars.map Prod.fst ++ [v.1]) ∧
    (∀ s, s ∈ vars'.flatMap varSymbols ↔ s ∈ vars.flatMap varSymbols ∨ s ∈ varSymbols v) := by
  rcases mergeVar_cases vars v with ⟨hn, h'⟩ | ⟨l, w, r, rfl, hw, hl, h'⟩
  · rw [h'] at h
    cases h
    rw [if_neg hn]
    refine ⟨⟨?_, ?_, ?_⟩, by simp, ?_⟩
    · rw [List.map_append, List.nodup_append]
      refine ⟨hv.nodup, by simp, ?_⟩
      intro a ha b hb
      simp only [List.map_cons, List.map_nil, List.mem_singleton] at hb
      subst hb
      rintro rfl
      exact hn ha
    · intro x hx
      rcases List.mem_append.1 hx with hx | hx
      · exact hv.good x hx
      · rw [List.mem_singleton] at hx; subst hx; exact hg
    · intro x hx
      rcases List.mem_append.1 hx with hx | hx
      · exact hv.inds x hx
      · rw [List.mem_singleton] at hx; subst hx; exact hi
    · intro s; simp
  · have hmem : v.1 ∈ (l ++ w :: r).map Prod.fst := List.mem_map.2 ⟨w, by simp, hw⟩
    rw [if_pos hmem]
    rcases h' with ⟨h1, h2, h'⟩ | ⟨a, b, h1, h2, h'⟩ | ⟨_, h'⟩
    · rw [h'] at h
      cases h
      refine ⟨hv, rfl, ?_⟩
      intro s
      have : varSymbols v = varSymbols w := by
        unfold varSymbols; rw [h1, h2, hw]
      rw [this]
      constructor
      · exact Or.inl
      · rintro (h | h)
        · exact h
        · exact List.mem_flatMap.2 ⟨w, by simp, h⟩
    · rw [h'] at h
      cases h
      have hnames : (l ++ (v.1, some (unionIndices a b)) :: r).map Prod.fst = (l ++ w :: r).map Prod.fst := by
        simp [hw]
      refine ⟨⟨?_, ?_, ?_⟩, hnames, ?_⟩
      · rw [hnames]; exact hv.nodup
      · intro x hx
        rw [List.mem_append, List.mem_cons] at hx
        rcases hx with hx | rfl | hx
        · exact hv.good x (by simp [hx])
        · exact hg
        · exact hv.good x (by simp [hx])
      · intro x hx
        rw [List.mem_append, List.mem_cons] at hx
        rcases hx with hx | rfl | hx
        · exact hv.inds x (by simp [hx])
        · intro inds hinds
          simp only [Option.some.injEq] at hinds
          subst hinds
          exact nodup_unionIndices a b (hv.inds w (by simp) a h1) (hi b h2)
        · exact hv.inds x (by simp [hx])
      · intro s
        have e1 : varSymbols w = varSymbols (v.1, some a) := by
          unfold varSymbols; rw [h1, hw]
        have e2 : varSymbols v = varSymbols (v.1, some b) := by
          unfold varSymbols; rw [h2]
        simp only [List.flatMap_append, List.flatMap_cons, List.mem_append, varSymbols_union, e1, e2]
        tauto
    · rw [h'] at h; cases h

theorem mergeVars_ok (ws : List Var) (vars vars' : List Var) (h : mergeVars vars ws = .ok vars')
    (hv : MergeOK vars) (hw : MergeOK ws) :
    MergeOK vars' ∧
    vars'.map Prod.fst = vars.map Prod.fst ++ (ws.map Prod.fst).filter (fun n => n ∉ vars.map Prod.fst) ∧
    (∀ s, s ∈ vars'.flatMap varSymbols ↔ s ∈ vars.flatMap varSymbols ∨ s ∈ ws.flatMap varSymbols) := by
  induction ws generalizing vars with
  | nil =>
    rw [mergeVars] at h; cases h
    exact ⟨hv, by simp, by simp⟩
  | cons w ws ih =>
    rw [mergeVars] at h
    cases hm : mergeVar vars w with
    | error e => rw [hm] at h; cases h
    | ok vs =>
      rw [hm] at h
      obtain ⟨h1, h2, h3⟩ := mergeVar_ok vars w vs hm hv (hw.good w List.mem_cons_self)
        (hw.inds w List.mem_cons_self)
      have hnd : w.1 ∉ ws.map Prod.fst := by
        have := hw.nodup; rw [List.map_cons, List.nodup_cons] at this; exact this.1
      have hw' : MergeOK ws := ⟨by
        have := hw.nodup; rw [List.map_cons, List.nodup_cons] at this; exact this.2,
        fun v hv => hw.good v (List.mem_cons_of_mem _ hv),
        fun v hv => hw.inds v (List.mem_cons_of_mem _ hv)⟩
      obtain ⟨g1, g2, g3⟩ := ih vs h h1 hw'
      refine ⟨g1, ?_, ?_⟩
      · rw [g2, h2]
        split_ifs with hmem
        · rw [List.map_cons, List.filter_cons_of_neg (by simpa using hmem)]
        · rw [List.map_cons, List.filter_cons_of_pos (by simpa using hmem), List.append_assoc,
            List.singleton_append]
          congr 2
          apply List.filter_congr
          intro n hn
          have : n ≠ w.1 := by rintro rfl; exact hnd hn
          simp [this]
      · intro s
        rw [g3, h3, List.flatMap_cons, List.mem_append]
        tauto

/-- Merging succeeds when the kinds agree. -/
theorem mergeVars_succeeds (ws vars : List Var)
    (hk : ∀ v ∈ vars, ∀ w ∈ ws, v.1 = w.1 → v.2.isSome = w.2.isSome) (hn : (ws.map Prod.fst).Nodup) :
    ∃ vars', mergeVars vars ws = .ok vars' := by
  induction ws generalizing vars with
  | nil => exact ⟨vars, rfl⟩
  | cons w ws ih =>
    rw [List.map_cons, List.nodup_cons] at hn
    have hne : ∀ u ∈ ws, w.1 ≠ u.1 := fun u hu h => hn.1 (List.mem_map.2 ⟨u, hu, h.symm⟩)
    rw [mergeVars]
    rcases mergeVar_cases vars w with ⟨_, h'⟩ | ⟨l, u, r, rfl, hu, hl, h'⟩
    · rw [h']
      refine ih _ ?_ hn.2
      intro v hv x hx hvx
      rcases List.mem_append.1 hv with hv | hv
      · exact hk v hv x (List.mem_cons_of_mem _ hx) hvx
      · rw [List.mem_singleton] at hv; subst hv; exact absurd hvx (hne x hx)
    · rcases h' with ⟨h1, h2, h'⟩ | ⟨a, b, h1, h2, h'⟩ | ⟨hne', _⟩
      · rw [h']
        exact ih _ (fun v hv x hx => hk v hv x (List.mem_cons_of_mem _ hx)) hn.2
      · rw [h']
        refine ih _ ?_ hn.2
        intro v hv x hx hvx
        rw [List.mem_append, List.mem_cons] at hv
        rcases hv with hv | rfl | hv
        · exact hk v (by simp [hv]) x (List.mem_cons_of_mem _ hx) hvx
        · exact absurd hvx (hne x hx)
        · exact hk v (by simp [hv]) x (List.mem_cons_of_mem _ hx) hvx
      · exact absurd (hk u (by simp) w List.mem_cons_self hu) hne'

/-- Merging fails when a shared name is a scalar on one side only. -/
theorem mergeVars_fails (ws vars : List Var) (v w : Var) (hv : v ∈ vars) (hw : w ∈ ws) (hvw : v.1 = w.1)
    (hk : v.2.isSome ≠ w.2.isSome) (hnv : (vars.map Prod.fst).Nodup) :
    ∃ e, mergeVars vars ws = .error e := by
  induction ws generalizing vars v with
  | nil => simp at hw
  | cons u ws ih =>
    rw [mergeVars]
    rcases mergeVar_cases vars u with ⟨hn, h'⟩ | ⟨l, x, r, rfl, hx, hl, h'⟩
    · rw [h']
      rcases List.mem_cons.1 hw with rfl | hw
      · exact absurd (List.mem_map.2 ⟨v, hv, hvw⟩) hn
      · refine ih _ v (by simp [hv]) hw hvw hk ?_
        rw [List.map_append, List.nodup_append]
        refine ⟨hnv, by simp, ?_⟩
        intro a ha b hb
        simp only [List.map_cons, List.map_nil, List.mem_singleton] at hb
        subst hb
        rintro rfl
        exact hn ha
    · have huniq : v.1 = u.1 → v = x := by
        intro h
        have := List.inj_on_of_nodup_map hnv hv (show x ∈ l ++ x :: r by simp) (by rw [h, hx])
        exact this
      rcases h' with ⟨h1, h2, h'⟩ | ⟨a, b, h1, h2, h'⟩ | ⟨_, h'⟩
      · rw [h']
        rcases List.mem_cons.1 hw with rfl | hw
        · have := huniq hvw; subst this
          simp [h1, h2] at hk
        · exact ih _ v hv hw hvw hk hnv
      · rw [h']
        rcases List.mem_cons.1 hw with rfl | hw
        · have := huniq hvw; subst this
          simp [h1, h2] at hk
        · by_cases hvu : v.1 = u.1
          · have := huniq hvu; subst this
            refine ih _ (u.1, some (unionIndices a b)) (by simp) hw (by simp only; rw [← hvu, hvw]) ?_ ?_
            · rw [h1] at hk; simpa using hk
            · simpa [hx] using hnv
          · refine ih _ v ?_ hw hvw hk ?_
            · rw [List.mem_append, List.mem_cons] at hv ⊢
              rcases hv with hv | rfl | hv
              · exact Or.inl hv
              · exact absurd hx hvu
              · exact Or.inr (Or.inr hv)
            · simpa [hx] using hnv
      · rw [h']; exact ⟨_, rfl⟩

theorem mergeVars_sorted (ws : List Var) (vars vars' : List Var) (h : mergeVars vars ws = .ok vars')
    (hv : ∀ v ∈ vars, ∀ inds, v.2 = some inds → inds.Pairwise (· ≤ ·))
    (hw : ∀ v ∈ ws, ∀ inds, v.2 = some inds → inds.Pairwise (· ≤ ·)) :
    ∀ v ∈ vars', ∀ inds, v.2 = some inds → inds.Pairwise (· ≤ ·) := by
  induction ws generalizing vars with
  | nil => rw [mergeVars] at h; cases h; exact hv
  | cons w ws ih =>
    have hw' := fun v hv => hw v (List.mem_cons_of_mem w hv)
    rw [mergeVars] at h
    rcases mergeVar_cases vars w with ⟨_, h'⟩ | ⟨l, u, r, rfl, hu, hl, h'⟩
    · rw [h'] at h
      refine ih _ h ?_ hw'
      intro v hv'
      rcases List.mem_append.1 hv' with hv' | hv'
      · exact hv v hv'
      · rw [List.mem_singleton] at hv'; subst hv'; exact hw v List.mem_cons_self
    · rcases h' with ⟨h1, h2, h'⟩ | ⟨a, b, h1, h2, h'⟩ | ⟨_, h'⟩
      · rw [h'] at h; exact ih _ h hv hw'
      · rw [h'] at h
        refine ih _ h ?_ hw'
        intro v hv'
        rw [List.mem_append, List.mem_cons] at hv'
        rcases hv' with hv' | rfl | hv'
        · exact hv v (by simp [hv'])
        · intro inds hinds
          simp only [Option.some.injEq] at hinds
          subst hinds
          exact sorted_unionIndices a b (hv u (by simp) a h1) (hw w List.mem_cons_self b h2)
        · exact hv v (by simp [hv'])
      · rw [h'] at h; cases h

theorem mergeParams (ps qs : List Sym) (hq : qs.Nodup) :
    qs.foldl (fun ps p => if p ∈ ps then ps else ps ++ [p]) ps = ps ++ qs.filter (fun p => p ∉ ps) := by
  induction qs generalizing ps with
  | nil => simp
  | cons q qs ih =>
    rw [List.nodup_cons] at hq
    rw [List.foldl_cons]
    split_ifs with h
    · rw [ih ps hq.2, List.filter_cons_of_neg (by simpa using h)]
    · rw [ih _ hq.2, List.filter_cons_of_pos (by simpa using h), List.append_assoc, List.singleton_append]
      congr 2
      apply List.filter_congr
      intro x hx
      have : x ≠ q := by rintro rfl; exact hq.1 hx
      simp [this]

theorem Meta.WF.mergeOK {m : Meta} (h : m.WF) : MergeOK m.vars := ⟨h.namesNodup, h.good, h.indsNodup⟩

theorem combineMeta_ok (m m' md : Meta) (hm : m.WF) (hm' : m'.WF) (hc : NoClash m m')
    (h : combineMeta m m' = .ok md) :
    md.WF ∧ md.names = m.names ++ m'.names.filter (fun n => n ∉ m.names) ∧
    md.params = m.params ++ m'.params.filter (fun p => p ∉ m.params) ∧
    (∀ s, s ∈ md.varSyms ↔ s ∈ m.varSyms ∨ s ∈ m'.varSyms) := by
  unfold combineMeta at h
  simp only at h
  cases hv : mergeVars m.vars m'.vars with
  | error e => rw [hv] at h; cases h
  | ok vars =>
    rw [hv] at h
    simp only [Except.ok.injEq] at h
    obtain ⟨h1, h2, h3⟩ := mergeVars_ok m'.vars m.vars vars hv hm.mergeOK hm'.mergeOK
    have hp := mergeParams m.params m'.params hm'.paramsNodup
    rw [hp] at h
    subst h
    refine ⟨⟨h1.nodup, h1.good, h1.inds, ?_, ?_⟩, h2, rfl, h3⟩
    · simp only
      rw [List.nodup_append]
      refine ⟨hm.paramsNodup, hm'.paramsNodup.filter _, ?_⟩
      rintro a ha b hb rfl
      have := (List.mem_filter.1 hb).2
      simp [ha] at this
    · intro s hs
      change s ∈ m.params ++ _ at hs
      have key : ∀ n, n ∉ m.names → n ∉ m'.names → n ∉ vars.map Prod.fst := by
        intro n hn hn' hmem
        rw [h2, List.mem_append] at hmem
        rcases hmem with h | h
        · exact hn h
        · exact hn' (List.mem_filter.1 h).1
      rcases List.mem_append.1 hs with hs | hs
      · obtain ⟨n, ix, he, hn⟩ := hm.params s hs
        exact ⟨n, ix, he, key n hn (hc.1 s hs n ix he)⟩
      · have hs' := (List.mem_filter.1 hs).1
        obtain ⟨n, ix, he, hn⟩ := hm'.params s hs'
        exact ⟨n, ix, he, key n (hc.2 s hs' n ix he) hn⟩

theorem combineMeta_allSymbols (m m' md : Meta) (hm : m.WF) (hm' : m'.WF) (hc : NoClash m m')
    (h : combineMeta m m' = .ok md) (s : Sym) :
    s ∈ md.allSymbols ↔ s ∈ m.allSymbols ∨ s ∈ m'.allSymbols := by
  obtain ⟨_, _, h3, h4⟩ := combineMeta_ok m m' md hm hm' hc h
  simp only [Meta.allSymbols, List.mem_append, h4, h3, List.mem_filter]
  by_cases hs : s ∈ m.params
  · simp [hs]
  · simp [hs]; tauto

end Cyjax.Polynomial
