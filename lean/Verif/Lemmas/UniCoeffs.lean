import Verif.Model.UniCoeffs
import Verif.Lemmas.FromSympyForms
import Verif.Lemmas.PolyUni
import Verif.Lemmas.PolyOps

/-! # Lemmas: `univariate_coefficients` with its calls of `Poly.from_sympy` -/

namespace Cyjax.Polynomial

open MvPolynomial

theorem constArrays_describes (vars : List (List Char × Option (List ℕ))) (x : Sym) (hg : ∀ v ∈ vars, GoodName v.1) :
    List.Forall₂ Describes
      ((vars.filter fun v => (varSymbols v).any (· ≠ x)).map fun v => (varSymbols v).filter (· ≠ x))
      (vars.filterMap (dropSym x)) := by
  induction vars with
  | nil => exact .nil
  | cons v vs ih =>
    have ih := ih fun w hw => hg w (by simp [hw])
    have hgv := hg v (by simp)
    rcases v with ⟨n, _ | inds⟩
    · by_cases h : n = x
      · simpa [List.filter_cons, List.filterMap_cons, dropSym, varSymbols, h] using ih
      · simp only [List.filter_cons, List.filterMap_cons, dropSym, varSymbols, h]
        simp only [List.any_cons, List.any_nil, Bool.or_false, ne_eq, h, not_false_eq_true, decide_true, if_true,
          if_false, List.map_cons]
        refine .cons ?_ ih
        simp [Describes, h]
    · have hmap : (inds.map (mergeSubscript n)).filter (· ≠ x) =
          (inds.filter fun i => mergeSubscript n i ≠ x).map (mergeSubscript n) := by
        rw [List.filter_map]; rfl
      have hany : ((inds.map (mergeSubscript n)).any (· ≠ x)) = true ↔
          inds.filter (fun i => mergeSubscript n i ≠ x) ≠ [] := by
        rw [Ne, List.filter_eq_nil_iff]
        simp
      by_cases h : inds.filter (fun i => mergeSubscript n i ≠ x) = []
      · have h' : ((inds.map (mergeSubscript n)).any (· ≠ x)) = false := by
          rw [← Bool.not_eq_true, hany, not_not]; exact h
        have hd : dropSym x (n, some inds) = none := by unfold dropSym; exact if_pos h
        rw [List.filter_cons_of_neg (by rw [Bool.not_eq_true]; exact h'), List.filterMap_cons, hd]
        exact ih
      · have h' := hany.2 h
        have hd : dropSym x (n, some inds) = some (n, some (inds.filter fun i => mergeSubscript n i ≠ x)) := by
          unfold dropSym; exact if_neg h
        rw [List.filter_cons_of_pos (a := (n, some inds)) (p := fun v => (varSymbols v).any (· ≠ x)) h', List.filterMap_cons, hd]
        refine .cons ?_ ih
        simp only [Describes]
        refine ⟨h, ?_⟩
        simp only [varSymbols]
        rw [hmap, List.forall₂_map_left_iff, List.forall₂_same]
        intro i _
        exact splitSubscript_merge n hgv i

theorem isEntry_of_varSyms {vars : List (List Char × Option (List ℕ))} (hg : ∀ v ∈ vars, GoodName v.1) {s : Sym}
    (hs : s ∈ vars.flatMap varSymbols) : IsEntry vars s := by
  obtain ⟨⟨n, inds⟩, hv, h⟩ := List.mem_flatMap.1 hs
  refine ⟨_, hv, ?_⟩
  cases inds with
  | none => simpa [varSymbols] using h
  | some l =>
    simp only [varSymbols, List.mem_map] at h
    obtain ⟨i, hi, rfl⟩ := h
    exact ⟨i, hi, splitSubscript_merge n (hg _ hv) i⟩

theorem dropSym_ne_nil {x : Sym} {v w : List Char × Option (List ℕ)} (h : dropSym x v = some w) {l : List ℕ}
    (hl : w.2 = some l) : l ≠ [] := by
  unfold dropSym at h
  rcases v with ⟨n, _ | inds⟩
  · simp only at h
    split_ifs at h
    cases h
    cases hl
  · simp only at h
    split_ifs at h with hr
    cases h
    cases hl
    exact hr

theorem isOther_const {m : Meta} {x s : Sym} (h : IsOther m.names s) :
    IsOther ((constMeta m x).vars.map Prod.fst) s := by
  obtain ⟨n, hn, h⟩ := h
  exact ⟨n, fun hmem => hn ((names_sublist m.vars x).subset hmem), h⟩

theorem constMeta_fits {P : PolyObj} {x : Sym} (hm : P.md.WF) (hd : P.Declared) (hk : paramsKey ∉ P.md.names)
    (hp : ∀ s ∈ P.md.params, IsOther P.md.names s)
    (hne : (constMeta P.md x).vars ≠ []) (k : ℕ) {free : List Sym} (hn : free.Nodup)
    (hf : ∀ s, s ∈ free ↔ s ∈ (uniCoeff P.poly x k).vars) :
    FitsExpr (constMeta P.md x).vars (some P.md.params) (uniCoeff P.poly x k) free where
  ne := hne
  names := (constMeta_wf _ hm x).namesNodup
  key := fun h => hk ((names_sublist P.md.vars x).subset h)
  good := (constMeta_wf _ hm x).good
  inds := by
    intro w hw l hl
    refine ⟨?_, (constMeta_wf _ hm x).indsNodup w hw l hl⟩
    obtain ⟨v, _, hv⟩ := List.mem_filterMap.1 hw
    exact dropSym_ne_nil hv hl
  nodup := hn
  vars_free := fun s hs => (hf s).2 hs
  symbols := by
    intro s hs
    obtain ⟨h1, h2⟩ := uniCoeff_vars P.poly x k s ((hf s).1 hs)
    rcases List.mem_append.1 (hd s h1) with h | h
    · exact Or.inl (isEntry_of_varSyms (constMeta_wf _ hm x).good ((constMeta_varSyms _ _ _).2 ⟨h, h2⟩))
    · refine Or.inr ⟨?_, fun l hl => by cases hl; exact h⟩
      exact isOther_const (hp s h)
  params_ok := by
    intro l hl
    cases hl
    exact ⟨hm.paramsNodup, fun s hs => isOther_const (hp s hs)⟩

/-- The polynomial built by `from_sympy` for one coefficient. -/
theorem fromSympyArrays_const {P : PolyObj} {x : Sym} (hm : P.md.WF) (hd : P.Declared) (hk : paramsKey ∉ P.md.names)
    (hp : ∀ s ∈ P.md.params, IsOther P.md.names s)
    (hne : (constMeta P.md x).vars ≠ []) (k : ℕ) {free : List Sym} (hn : free.Nodup)
    (hf : ∀ s, s ∈ free ↔ s ∈ (uniCoeff P.poly x k).vars) :
    fromSympyArrays (constArrays P.md x) (some P.md.params) (uniCoeff P.poly x k) free =
      .ok ⟨constMeta P.md x, uniCoeff P.poly x k, (constMeta P.md x).varSyms⟩ := by
  have h := constMeta_fits hm hd hk hp hne k hn hf
  have hwf := constMeta_wf _ hm x
  have harr : List.Forall₂ Describes (constArrays P.md x) (constMeta P.md x).vars :=
    constArrays_describes P.md.vars x hm.good
  have hna : constArrays P.md x ≠ [] := by
    intro h0
    rw [h0] at harr
    cases hv : (constMeta P.md x).vars with
    | nil => exact hne hv
    | cons a l => rw [hv] at harr; cases harr
  obtain ⟨e, hlen, hv⟩ := fits_arrays (params := some P.md.params) (free := free) (p := uniCoeff P.poly x k)
    (arrayVars_ok h.good harr) hna
  obtain ⟨Q, h1, h2, h3, h4, h5, h6, h7, f, h8, h9, h10⟩ := fits_fromSympy h rfl rfl (Or.inr rfl) hlen hv
  rw [e, h1]
  have hmd : Q.md = constMeta P.md x := by
    have := h6 _ rfl
    cases hQ : Q.md
    rw [hQ] at h2 this
    simp only at h2 this
    rw [h2, this]
    rfl
  have hpoly : Q.poly = uniCoeff P.poly x k := by
    rw [h8]
    have hid : ∀ s ∈ (uniCoeff P.poly x k).vars, f s = s := by
      intro s hs
      have hsf := (hf s).2 hs
      by_cases hex : ∃ v ∈ (constMeta P.md x).vars, ∃ i, Indexed s v.1 i
      · obtain ⟨v, hv, i, hi⟩ := hex
        rw [h9 s hsf v hv i hi]
        rcases h.symbols s hsf with _ | ⟨ho, _⟩
        · obtain ⟨g1, g2⟩ := uniCoeff_vars P.poly x k s hs
          rcases List.mem_append.1 (hd s g1) with g | g
          · have g3 := (constMeta_varSyms P.md x s).2 ⟨g, g2⟩
            obtain ⟨⟨n, inds⟩, hw, hsw⟩ := List.mem_flatMap.1 g3
            cases inds with
            | none =>
              simp only [varSymbols, List.mem_singleton] at hsw
              have := splitSubscript_good n (hwf.good _ hw)
              rw [← hsw] at this
              exact absurd (split_unique this hi).2 (by simp)
            | some l =>
              simp only [varSymbols, List.mem_map] at hsw
              obtain ⟨j, _, rfl⟩ := hsw
              obtain ⟨e1, e2⟩ := split_unique (splitSubscript_merge n (hwf.good _ hw) j) hi
              simp only [Option.some.injEq, Nat.cast_inj] at e2
              rw [e1, e2]
          · obtain ⟨n, j, g5, g6⟩ := isOther_split (isOther_const (x := x) (hp s g))
            exact absurd ((split_unique hi g5).1 ▸ List.mem_map.2 ⟨v, hv, rfl⟩) g6
        · obtain ⟨n, j, g5, g6⟩ := isOther_split ho
          exact absurd ((split_unique hi g5).1 ▸ List.mem_map.2 ⟨v, hv, rfl⟩) g6
      · push Not at hex
        exact h10 s hsf hex
    conv_rhs => rw [← rename_id_apply (uniCoeff P.poly x k)]
    refine hom_congr_vars (f₁ := (rename f : MvPolynomial Sym ℂ →ₐ[ℂ] _).toRingHom) (f₂ := (rename id : MvPolynomial Sym ℂ →ₐ[ℂ] _).toRingHom) ?_ ?_ rfl
    · ext; simp
    · intro s hs _
      simp [hid s hs]
  cases Q
  simp only at hmd h3 hpoly
  subst hmd h3 hpoly
  rfl

theorem mapM_ok {α β ε : Type*} (f : α → Except ε β) (g : α → β) (l : List α) (h : ∀ a ∈ l, f a = .ok (g a)) :
    l.mapM f = .ok (l.map g) := by
  induction l with
  | nil => rfl
  | cons a l ih =>
    rw [List.mapM_cons, h a (by simp), ih fun b hb => h b (by simp [hb])]
    rfl

theorem mapM_error {α β ε : Type*} {e : ε} (f : α → Except ε β) (l : List α)
    (h : ∀ a, (∃ b, f a = .ok b) ∨ f a = .error e) (a : α) (ha : a ∈ l) (he : f a = .error e) :
    l.mapM f = .error e := by
  induction l with
  | nil => cases ha
  | cons c l ih =>
    rw [List.mapM_cons]
    rcases h c with ⟨b, hb⟩ | hc
    · rcases List.mem_cons.1 ha with rfl | ha
      · rw [he]; rfl
      · rw [hb, ih ha]; rfl
    · rw [hc]; rfl

end Cyjax.Polynomial
