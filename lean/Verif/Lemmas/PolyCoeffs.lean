import Verif.Lemmas.PolyOps

namespace Cyjax.Polynomial

open MvPolynomial

theorem termParams_linear (m : Sym →₀ ℕ) (ps : List Sym) (h : ∀ s ∈ ps, m s ≤ 1) :
    termParams m ps = some (ps.filter (fun s => m s ≠ 0)) := by
  induction ps with
  | nil => rfl
  | cons p ps ih =>
    have h1 := h p List.mem_cons_self
    rw [termParams, ih fun s hs => h s (List.mem_cons_of_mem _ hs)]
    by_cases h0 : m p = 0
    · simp [h0]
    · have : m p = 1 := by omega
      simp [this]

/-- The term recorded for a real coefficient. -/
noncomputable def termOf (P : PolyObj) (c : ℂ) (m : Sym →₀ ℕ) : Term :=
  ⟨c, P.md.params.filter (fun s => m s ≠ 0), P.md.vars.map (powerEntry P.gens m)⟩

theorem addTerm_ok (P : PolyObj) (c : ℂ) (hc : c.im = 0) (m : Sym →₀ ℕ)
    (h : ∀ s ∈ P.md.params, m s ≤ 1) : addTerm P c m = .ok [termOf P c m] := by
  unfold addTerm
  simp only [termParams_linear m _ h, hc, if_true]
  rfl

theorem mapM_except {α β ε : Type*} (f : α → Except ε β) (g : α → β) (l : List α)
    (h : ∀ x ∈ l, f x = .ok (g x)) : l.mapM f = .ok (l.map g) := by
  induction l with
  | nil => rfl
  | cons a l ih =>
    rw [List.mapM_cons, h a List.mem_cons_self, ih fun x hx => h x (List.mem_cons_of_mem _ hx)]
    rfl

open Classical in
/-- Monomials listed by `to_coeffs_and_powers`. -/
noncomputable def termMonos (P : PolyObj) : List (Sym →₀ ℕ) :=
  if P.poly = 0 then [0] else P.poly.support.toList

theorem allTerms_ok (P : PolyObj) (hr : RealCoeffs P.poly) (hl : LinearParams P) :
    allTerms P = .ok ((termMonos P).map fun m => termOf P (coeff m P.poly) m) := by
  unfold allTerms termMonos
  split_ifs with h0
  · rw [addTerm_ok P 0 (by simp) 0 (by simp), h0]
    simp
  · rw [mapM_except _ (fun m => [termOf P (coeff m P.poly) m]) _ (fun m hm =>
      addTerm_ok P _ (hr m) m (hl m (Finset.mem_toList.1 hm)))]
    change Except.ok _ = _
    congr 1
    induction P.poly.support.toList with
    | nil => rfl
    | cons a l ih => simp [ih]

theorem termMonos_mem (P : PolyObj) (m : Sym →₀ ℕ) (h : m ∈ termMonos P) :
    m ∈ P.poly.support ∨ m = 0 := by
  unfold termMonos at h
  split_ifs at h
  · right; simpa using h
  · left; exact Finset.mem_toList.1 h

theorem prod_pow_eq_monomial (S : List Sym) (hS : S.Nodup) (m : Sym →₀ ℕ) (hm : ∀ s ∈ m.support, s ∈ S)
    (c : ℂ) : C c * (S.map fun s => (X s : MvPolynomial Sym ℂ) ^ m s).prod = monomial m c := by
  classical
  rw [monomial_eq, Finsupp.prod_of_support_subset m (s := S.toFinset)
    (fun s hs => List.mem_toFinset.2 (hm s hs)) _ (by simp), List.prod_toFinset _ hS]

theorem filter_prod (ps : List Sym) (m : Sym →₀ ℕ) (h : ∀ s ∈ ps, m s ≤ 1) :
    ((ps.filter (fun s => m s ≠ 0)).map (X : Sym → MvPolynomial Sym ℂ)).prod =
      (ps.map fun s => X s ^ m s).prod := by
  induction ps with
  | nil => rfl
  | cons p ps ih =>
    have h1 := h p List.mem_cons_self
    have ih' := ih fun s hs => h s (List.mem_cons_of_mem _ hs)
    by_cases h0 : m p = 0
    · rw [List.filter_cons_of_neg (by simp [h0]), ih', List.map_cons, List.prod_cons, h0]; simp
    · have h2 : m p = 1 := by omega
      rw [List.filter_cons_of_pos (by simp [h0]), List.map_cons, List.prod_cons, ih', List.map_cons,
        List.prod_cons, h2]; simp

theorem entryProd_list {R : Type*} [CommSemiring R] (S : List Sym) (f : Sym → R) (k : Sym → ℕ) :
    entryProd (S.map f) (S.map k) = (S.map fun s => f s ^ k s).prod := by
  rw [← powProd_eq _ _ (by simp)]
  unfold powProd
  rw [List.zipWith_map, List.zipWith_self]

/-- Product over variables of the powers recorded in a term. -/
noncomputable def termProd (P : PolyObj) (m : Sym →₀ ℕ) : MvPolynomial Sym ℂ :=
  (P.md.vars.map fun v => entryProd (varPolys v) (powerEntry P.gens m v)).prod

theorem termProd_eq (P : PolyObj) (m : Sym →₀ ℕ)
    (hg : ∀ s ∈ m.support, s ∉ P.md.params → s ∈ P.gens)
    (hwf : P.md.WF) :
    termProd P m = (P.md.varSyms.map fun s => (X s : MvPolynomial Sym ℂ) ^ m s).prod := by
  unfold termProd Meta.varSyms
  rw [List.map_flatMap]
  have : ∀ v ∈ P.md.vars, entryProd (varPolys v) (powerEntry P.gens m v) =
      ((varSymbols v).map fun s => (X s : MvPolynomial Sym ℂ) ^ m s).prod := by
    intro v hv
    unfold varPolys powerEntry
    rw [entryProd_list]
    congr 1
    apply List.map_congr_left
    intro s hs
    split_ifs with h
    · rfl
    · have hns : s ∉ P.md.params := varSyms_not_param P.md hwf s (List.mem_flatMap.2 ⟨v, hv, hs⟩)
      have : m s = 0 := by
        by_contra h0
        exact h (hg s (Finsupp.mem_support_iff.2 h0) hns)
      rw [this]
  rw [List.map_congr_left this]
  induction P.md.vars with
  | nil => rfl
  | cons v vs ih => simp [ih, List.prod_append]

theorem termPoly_eq (P : PolyObj) (m : Sym →₀ ℕ) (c : ℂ)
    (hg : ∀ s ∈ m.support, s ∉ P.md.params → s ∈ P.gens) (hwf : P.md.WF)
    (hd : ∀ s ∈ m.support, s ∈ P.md.allSymbols) (hl : ∀ s ∈ P.md.params, m s ≤ 1) :
    C c * ((P.md.params.filter (fun s => m s ≠ 0)).map X).prod * termProd P m = monomial m c := by
  rw [termProd_eq P m hg hwf, filter_prod _ _ hl, mul_assoc,
    mul_comm (List.prod _) (List.prod _), ← List.prod_append, ← List.map_append]
  exact prod_pow_eq_monomial _ (allSymbols_nodup P.md hwf) m hd c

/-- Powers as returned: `none` where no term has a power. -/
noncomputable def returnedPowers (n : ℕ) (T : List Term) : Powers T.length :=
  (List.range n).map fun v =>
    if T.all (fun t => (t.powers.getD v []).all (· = 0)) then none
    else some (fun c => T[c].powers.getD v [])

theorem entryProd_zero {R : Type*} [CommSemiring R] (v : List R) (p : List ℕ) (h : p.all (· = 0) = true) :
    entryProd v p = 1 := by
  unfold entryProd
  apply Finset.prod_eq_one
  intro i _
  have : p.getD i 0 = 0 := by
    rw [List.getD_eq_getElem?_getD]
    by_cases hi : i < p.length
    · rw [List.getElem?_eq_getElem hi]
      simpa using List.all_eq_true.1 h _ (List.getElem_mem hi)
    · rw [List.getElem?_eq_none (by omega)]; rfl
  rw [this, pow_zero]

theorem monSpec_returned (P : PolyObj) (T : List Term) (c : Fin T.length) (m : Sym →₀ ℕ)
    (hT : T[c].powers = P.md.vars.map (powerEntry P.gens m)) :
    monSpec ((P.md.vars.map varPolys).map some) (returnedPowers P.md.vars.length T) c = termProd P m := by
  unfold monSpec termProd
  congr 1
  apply List.ext_getElem
  · simp [returnedPowers]
  · intro i h1 h2
    simp only [List.length_map] at h2
    simp only [List.getElem_map, List.getElem_zip, returnedPowers, List.getElem_range]
    have hpow : T[c].powers.getD i [] = powerEntry P.gens m P.md.vars[i] := by
      rw [hT, List.getD_eq_getElem?_getD, List.getElem?_map, List.getElem?_eq_getElem h2]; rfl
    split_ifs with hz
    · simp only
      rw [List.all_eq_true] at hz
      have := hz T[c] (List.getElem_mem c.2)
      rw [hpow] at this
      rw [entryProd_zero _ _ this]
    · simp only
      rw [hpow]

theorem compatible_returned (P : PolyObj) (T : List Term)
    (hT : ∀ t ∈ T, ∃ m, t.powers = P.md.vars.map (powerEntry P.gens m)) :
    Compatible (P.md.vars.map fun v => some (varPolys v)) (returnedPowers P.md.vars.length T) := by
  unfold Compatible
  rw [List.forall₂_iff_get]
  refine ⟨by simp [returnedPowers], ?_⟩
  intro i h1 h2 p' hp'
  simp only [List.get_eq_getElem, List.getElem_map, returnedPowers, List.getElem_range] at hp' ⊢
  rw [List.length_map] at h1
  refine ⟨_, rfl, ?_⟩
  split_ifs at hp'
  simp only [Option.some.injEq] at hp'
  subst hp'
  intro c
  obtain ⟨m, hm⟩ := hT T[c] (List.getElem_mem c.2)
  change (T[c].powers.getD i []).length = _
  rw [hm, List.getD_eq_getElem?_getD, List.getElem?_map, List.getElem?_eq_getElem h1]
  simp [powerEntry, varPolys]

theorem sum_getElem {β : Type*} [AddCommMonoid β] {α : Type*} (T : List α) (f : α → β) :
    ∑ c : Fin T.length, f T[c] = (T.map f).sum := by
  induction T with
  | nil => simp
  | cons a T ih =>
    rw [List.map_cons, List.sum_cons, ← ih]
    exact Fin.sum_univ_succ (n := T.length) _

theorem sum_termMonos (P : PolyObj) :
    ((termMonos P).map fun m => monomial m (coeff m P.poly)).sum = P.poly := by
  unfold termMonos
  split_ifs with h
  · simp [h]
  · rw [Finset.sum_map_toList]
    exact support_sum_monomial_coeff P.poly

/-- What `to_coeffs_and_powers` returns rebuilds the same polynomial. -/
theorem toCoeffs_rebuild (P : PolyObj) (hwf : P.md.WF) (hd : P.Declared) (hr : RealCoeffs P.poly)
    (hl : LinearParams P) (hg : ∀ s ∈ P.poly.vars, s ∉ P.md.params → s ∈ P.gens) :
    ∃ M coeffs ps powers, toCoeffs P = .ok ⟨M, coeffs, ps, powers⟩ ∧
      (∀ c, ∀ p ∈ ps c, p ∈ P.md.params) ∧
      Compatible (P.md.vars.map fun v => some (varPolys v)) powers ∧
      coeffsPoly coeffs powers ps P.md = P.poly := by
  set T : List Term := (termMonos P).map fun m => termOf P (coeff m P.poly) m with hTdef
  have hT : ∀ t ∈ T, ∃ m ∈ termMonos P, t = termOf P (coeff m P.poly) m := by
    intro t ht
    obtain ⟨m, hm, rfl⟩ := List.mem_map.1 ht
    exact ⟨m, hm, rfl⟩
  refine ⟨T.length, fun c => T[c].coeff, fun c => T[c].params, returnedPowers P.md.vars.length T,
    ?_, ?_, ?_, ?_⟩
  · unfold toCoeffs
    rw [allTerms_ok P hr hl]
    rfl
  · intro c p hp
    obtain ⟨m, _, hm⟩ := hT T[c] (List.getElem_mem c.2)
    simp only [hm, termOf] at hp
    exact (List.mem_filter.1 hp).1
  · exact compatible_returned P T fun t ht => by
      obtain ⟨m, _, rfl⟩ := hT t ht
      exact ⟨m, rfl⟩
  · unfold coeffsPoly
    have hmono : ∀ m ∈ termMonos P, C (coeff m P.poly) *
        ((P.md.params.filter (fun s => m s ≠ 0)).map X).prod * termProd P m =
          monomial m (coeff m P.poly) := by
      intro m hm
      have hsub : ∀ s ∈ m.support, s ∈ P.poly.vars := by
        intro s hs
        rcases termMonos_mem P m hm with h | rfl
        · exact (mem_vars_iff_mem_support s).2 ⟨m, h, hs⟩
        · simp at hs
      refine termPoly_eq P m _ (fun s hs => hg s (hsub s hs)) hwf (fun s hs => hd s (hsub s hs)) ?_
      rcases termMonos_mem P m hm with h | rfl
      · exact hl m h
      · simp
    have hterm : ∀ c : Fin T.length, C (T[c].coeff) * ((T[c].params).map X).prod *
        monSpec ((P.md.vars.map varPolys).map some) (returnedPowers P.md.vars.length T) c =
        (fun t : Term => C t.coeff * (t.params.map X).prod *
          (List.zipWith (fun v p => entryProd (varPolys v) p) P.md.vars t.powers).prod) T[c] := by
      intro c
      obtain ⟨m, _, hm⟩ := hT T[c] (List.getElem_mem c.2)
      rw [monSpec_returned P T c m (by rw [hm]; rfl), hm]
      simp only [termOf, termProd]
      congr 2
      rw [List.zipWith_map_right, List.zipWith_self]
    rw [Finset.sum_congr rfl fun c _ => hterm c]
    refine (sum_getElem T (fun t : Term => C t.coeff * (t.params.map X).prod *
          (List.zipWith (fun v p => entryProd (varPolys v) p) P.md.vars t.powers).prod :
          Term → MvPolynomial Sym ℂ)).trans ?_
    rw [hTdef, List.map_map]
    refine Eq.trans ?_ (sum_termMonos P)
    congr 1
    apply List.map_congr_left
    intro m hm
    rw [← hmono m hm]
    simp only [Function.comp_apply, termOf, termProd]
    congr 2
    rw [List.zipWith_map_right, List.zipWith_self]

end Cyjax.Polynomial
