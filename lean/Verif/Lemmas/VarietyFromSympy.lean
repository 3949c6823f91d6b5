import Verif.Spec.VarietyFromSympy
import Verif.Spec.Samplable
import Verif.Lemmas.FromSympy
import Verif.Lemmas.Samplable

/-! # Lemmas for `VarietySingle.from_sympy` -/

namespace Cyjax

open Cyjax.Spec Cyjax.Polynomial Cyjax.Variety MvPolynomial

section

variable {name : List Char} {m e d : ℕ} {p : MvPolynomial Sym ℂ} {free : List Sym} {params : Option (List Sym)}

theorem isParam_not_indexed {s : Sym} (h : IsParam name s) (i : ℕ) : ¬ Indexed s name i := by
  rintro hi
  obtain ⟨n, ix, h1, h2, -⟩ := h
  unfold Indexed at hi
  rw [hi] at h1
  cases h1
  exact h2 rfl

private theorem indexed_unique {s : Sym} {i j : ℕ} (hi : Indexed s name i) (hj : Indexed s name j) : i = j := by
  unfold Indexed at hi hj
  rw [hi] at hj
  simpa using hj

/-- The arguments passed on by `VarietySingle.from_sympy`. -/
abbrev vArgs (name : List Char) (d : ℕ) (params : Option (List Sym)) : FromSympyArgs :=
  ⟨some [name], params, some [some (List.range d)]⟩

private theorem dict_name : dictIndex [name] name = some 0 := dictIndex_nodup (l := [name]) (by simp) (k := 0) (by simp)

theorem vArgs_noMix : NoMix (vArgs name d params) free := by
  intro h
  cases h

theorem kind_coord {s : Sym} (hs : s ∉ params.getD []) {i : ℕ} (hi : Indexed s name i) :
    symKind (vArgs name d params) [name] s = .idx 0 i (mergeSubscript name i) :=
  symKind_idx_iff.2 ⟨hs, name, by simp, dict_name, hi, rfl⟩

private theorem kind_skip {s : Sym} (hs : s ∈ params.getD []) : symKind (vArgs name d params) [name] s = .skip := by
  unfold symKind
  rw [if_pos hs]

private theorem kind_par {s : Sym} (hp : params = none) (hs : IsParam name s) :
    symKind (vArgs name d params) [name] s = .par := by
  obtain ⟨n, ix, h1, h2, h3⟩ := hs
  unfold symKind
  subst hp
  have : ∃ ix', splitNat s = .ok (n, ix') := by
    cases ix with
    | none => exact ⟨none, splitNat_scalar.2 h1⟩
    | some i =>
      obtain ⟨j, rfl⟩ := Int.eq_ofNat_of_zero_le (h3 i rfl)
      exact ⟨some j, splitNat_indexed.2 h1⟩
  obtain ⟨ix', h4⟩ := this
  rw [if_neg (by simp), h4]
  simp [h2]

private theorem coord_not_param (h : HypersurfaceExpr name m e p free params) {s : Sym} {i : ℕ} (hi : Indexed s name i) :
    s ∉ params.getD [] := by
  intro hs
  cases hp : params with
  | none => simp [hp] at hs
  | some l =>
    rw [hp] at hs
    exact isParam_not_indexed ((h.params_ok l hp).2 s hs) i hi

theorem from_sympy_ok (h : HypersurfaceExpr name m e p free params) :
    ∃ P, fromSympy (vArgs name (m + 1) params) p free = .ok P ∧ Proper P name m ∧ P.gens = P.md.varSyms ∧
      (∀ s ∈ P.md.params, IsParam name s) ∧
      (∀ l, params = some l → P.md.params = l) ∧
      (params = none → P.md.params.Pairwise (· ≤ ·) ∧ ∀ s, s ∈ P.md.params ↔ s ∈ free ∧ IsParam name s) ∧
      ∃ f : Sym → Sym, P.poly = rename f p ∧ (∀ s ∈ free, ∀ i, Indexed s name i → f s = mergeSubscript name i) ∧
        ∀ s ∈ free, IsParam name s → f s = s := by
  set a := vArgs name (m + 1) params with ha
  have hkind : ∀ s ∈ free, (∃ i ≤ m, Indexed s name i ∧ symKind a [name] s = .idx 0 i (mergeSubscript name i)) ∨
      (IsParam name s ∧ ((params = none ∧ symKind a [name] s = .par) ∨ (∃ l, params = some l ∧ s ∈ l ∧ symKind a [name] s = .skip))) := by
    intro s hs
    rcases h.symbols s hs with ⟨i, hi, h1⟩ | ⟨h1, h2⟩
    · exact Or.inl ⟨i, hi, h1, kind_coord (coord_not_param h h1) h1⟩
    · refine Or.inr ⟨h1, ?_⟩
      cases hp : params with
      | none => exact Or.inl ⟨rfl, by rw [ha, hp]; exact kind_par rfl h1⟩
      | some l => exact Or.inr ⟨l, rfl, h2 l hp, by rw [ha, hp]; exact kind_skip (by simpa using h2 l hp)⟩
  obtain ⟨app, hs⟩ := (scan_ok_iff a [name] rfl free h.nodup (noMix_kind vArgs_noMix _)).1 (by
    intro s hs
    unfold okSym
    rcases hkind s hs with ⟨i, hi, -, h1⟩ | ⟨-, ⟨-, h1⟩ | ⟨-, -, -, h1⟩⟩
    · rw [h1]
      simp [ha]
      omega
    · rw [h1]; trivial
    · rw [h1]; trivial)
  set st := stateOf a [name] free app with hst
  have hvars : (finishMeta a st).vars = [(name, some (List.range (m + 1)))] := by
    simp [finishMeta, hst, stateOf, indsOf, ha]
  have hvs : (finishMeta a st).varSyms = (List.range (m + 1)).map (mergeSubscript name) := by
    rw [Meta.varSyms, hvars, List.flatMap_singleton, varSymbols]
  have hpar1 : ∀ l, params = some l → (finishMeta a st).params = l := by
    intro l hl
    have : free.filter (fun v => isPar (symKind a [name] v)) = [] := by
      rw [List.filter_eq_nil_iff]
      intro s hs
      rcases hkind s hs with ⟨i, hi, -, h1⟩ | ⟨-, ⟨h0, h1⟩ | ⟨-, -, -, h1⟩⟩
      · simp [h1, isPar]
      · rw [hl] at h0; cases h0
      · simp [h1, isPar]
    unfold finishMeta
    simp only [hst, stateOf, this]
    simp [ha, hl]
  have hpar2 : params = none → (finishMeta a st).params = sortSyms (free.filter (fun v => isPar (symKind a [name] v))) := by
    intro hl
    unfold finishMeta
    simp only [hst, stateOf]
    simp [ha, hl]
  have hmem : params = none → ∀ s, s ∈ (finishMeta a st).params ↔ s ∈ free ∧ IsParam name s := by
    intro hl s
    rw [hpar2 hl, sortSyms, List.mem_mergeSort, List.mem_filter]
    constructor
    · rintro ⟨h1, h2⟩
      refine ⟨h1, ?_⟩
      rcases hkind s h1 with ⟨i, hi, -, h3⟩ | ⟨h3, -⟩
      · simp [h3, isPar] at h2
      · exact h3
    · rintro ⟨h1, h2⟩
      refine ⟨h1, ?_⟩
      rw [ha, kind_par hl h2]
      rfl
  have hpm : ∀ s ∈ (finishMeta a st).params, IsParam name s := by
    intro s hs
    cases hp : params with
    | none => exact ((hmem hp s).1 hs).2
    | some l => exact (h.params_ok l hp).2 s (by rwa [hpar1 l hp] at hs)
  have hf1 : ∀ s ∈ free, ∀ i, Indexed s name i → renameSym st.rename s = mergeSubscript name i := by
    intro s hs i hi
    rw [hst, renameSym_stateOf, ha, kind_coord (coord_not_param h hi) hi]
    simp [hs]
  have hf2 : ∀ s ∈ free, IsParam name s → renameSym st.rename s = s := by
    intro s hs hps
    rw [hst, renameSym_stateOf]
    rcases hkind s hs with ⟨i, hi, h2, h3⟩ | ⟨h3, ⟨h0, h1⟩ | ⟨-, -, -, h1⟩⟩
    · exact absurd h2 (isParam_not_indexed hps i)
    · rw [h1]
    · rw [h1]
  have hin : ∀ s ∈ free, IsParam name s → s ∈ (finishMeta a st).params := by
    intro s hs hps
    cases hp : params with
    | none => exact (hmem hp s).2 ⟨hs, hps⟩
    | some l =>
      rw [hpar1 l hp]
      rcases h.symbols s hs with ⟨i, -, h1⟩ | ⟨-, h2⟩
      · exact absurd h1 (isParam_not_indexed hps i)
      · exact h2 l hp
  have hdecl : ∀ g ∈ (rename (renameSym st.rename) p).vars, g ∈ (finishMeta a st).varSyms ∨ g ∈ (finishMeta a st).params := by
    intro g hg
    obtain ⟨s, hs, rfl⟩ := mem_vars_rename _ _ hg
    have hsf := h.vars s hs
    rcases h.symbols s hsf with ⟨i, hi, h1⟩ | ⟨h1, -⟩
    · left
      rw [hf1 s hsf i h1, hvs]
      exact List.mem_map.2 ⟨i, by simp; omega, rfl⟩
    · right
      rw [hf2 s hsf h1]
      exact hin s hsf h1
  have hgood := h.name_ok.1
  have hmerge : ∀ i, Indexed (mergeSubscript name i) name i := fun i => splitSubscript_merge name hgood i
  refine ⟨⟨finishMeta a st, rename (renameSym st.rename) p, (finishMeta a st).varSyms⟩, ?_, ⟨hvars, ?_, ?_, ?_⟩, rfl, hpm,
    hpar1, fun hl => ⟨?_, hmem hl⟩, renameSym st.rename, rfl, hf1, hf2⟩
  · unfold fromSympy
    rw [if_neg (by simp [ha]), hs]
    unfold finish
    simp only
    rw [if_neg (by simp [hst, stateOf, h.name_ok.2]), if_neg (by simp [hst, stateOf, indsOf, ha]), if_neg]
    rintro (h1 | h1 | ⟨g, hg, hg'⟩ | ⟨g, hg, hg', hg''⟩)
    · rw [hvs] at h1
      simp at h1
    · apply h1
      rw [hvs]
      exact List.nodup_range.map (fun i j h => (merge_inj name name hgood hgood i j h).2)
    · rw [hvs] at hg
      obtain ⟨i, -, rfl⟩ := List.mem_map.1 hg
      exact isParam_not_indexed (hpm _ hg') i (hmerge i)
    · rcases hdecl g hg with h1 | h1
      · exact hg' h1
      · exact hg'' h1
  · refine ⟨?_, ?_, ?_, ?_, ?_⟩
    · simp [Meta.names, hvars]
    · intro v hv
      simp only [hvars, List.mem_singleton] at hv
      rw [hv]
      exact hgood
    · intro v hv inds hi
      simp only [hvars, List.mem_singleton] at hv
      rw [hv] at hi
      cases hi
      exact List.nodup_range
    · cases hp : params with
      | none =>
        simp only [hpar2 hp]
        exact (List.mergeSort_perm _ _).nodup_iff.2 (h.nodup.filter _)
      | some l =>
        simp only [hpar1 l hp]
        exact (h.params_ok l hp).1
    · intro s hs
      obtain ⟨n, ix, h1, h2, -⟩ := hpm s hs
      refine ⟨n, ix, h1, ?_⟩
      simpa [Meta.names, hvars] using h2
  · intro s hs
    rcases hdecl s hs with h1 | h1
    · exact List.mem_append_left _ h1
    · exact List.mem_append_right _ h1
  · have := h.real
    rw [realCoeffs_iff] at *
    simp only
    rw [map_rename, this]
  · rw [hpar2 hl]
    have h1 := List.pairwise_mergeSort (le := fun a b : Sym => decide (a ≤ b)) 
      (fun a b c h1 h2 => by simp only [decide_eq_true_eq] at *; exact List.le_trans h1 h2)
      (fun a b => by simpa using List.le_total a b) (free.filter (fun v => isPar (symKind a [name] v)))
    simpa [sortSyms] using h1

open Classical in
/-- Homogeneous after renaming. -/
theorem homogeneous_rename (h : HypersurfaceExpr name m e p free params) (f : Sym → Sym)
    (h1 : ∀ s ∈ free, ∀ i, Indexed s name i → f s = mergeSubscript name i) (h2 : ∀ s ∈ free, IsParam name s → f s = s) :
    HomogeneousIn (rename f p) name m e := by
  intro mon hmon
  obtain ⟨u, rfl, hu⟩ := coeff_rename_ne_zero f p mon (mem_support_iff.1 hmon)
  rw [← h.homogeneous u (mem_support_iff.2 hu), Finset.sum_filter]
  have hfree : ∀ s ∈ u.support, s ∈ free := fun s hs => h.vars s (mem_vars s |>.2 ⟨u, mem_support_iff.2 hu, hs⟩)
  have e1 : ∀ t, Finsupp.mapDomain f u t = ∑ s ∈ u.support, if f s = t then u s else 0 := by
    intro t
    rw [Finsupp.mapDomain, Finsupp.sum, Finsupp.finset_sum_apply]
    exact Finset.sum_congr rfl fun s _ => Finsupp.single_apply
  simp only [e1]
  rw [Finset.sum_comm]
  refine Finset.sum_congr rfl fun s hs => ?_
  have hgood := h.name_ok.1
  rcases h.symbols s (hfree s hs) with ⟨i, hi, h3⟩ | ⟨h3, -⟩
  · rw [if_pos ⟨i, h3⟩, h1 s (hfree s hs) i h3, Finset.sum_eq_single i]
    · simp
    · intro j _ hj
      rw [if_neg]
      intro h4
      exact hj (merge_inj name name hgood hgood i j h4).2.symm
    · intro h4
      simp at h4
      omega
  · rw [if_neg (fun ⟨i, hi⟩ => isParam_not_indexed h3 i hi), h2 s (hfree s hs) h3]
    refine Finset.sum_eq_zero fun j _ => ?_
    rw [if_neg]
    intro h4
    exact isParam_not_indexed h3 j (by rw [h4]; exact splitSubscript_merge name hgood j)

end

/-- Degree in the coordinates. -/
noncomputable def coordDeg (name : List Char) (mon : Sym →₀ ℕ) : ℕ :=
  open Classical in ∑ s ∈ mon.support with ∃ i, Indexed s name i, mon s

open Classical in
theorem coordDeg_eq (name : List Char) (mon : Sym →₀ ℕ) :
    coordDeg name mon = mon.sum fun s k => if ∃ i, Indexed s name i then k else 0 := by
  unfold coordDeg Finsupp.sum
  rw [Finset.sum_filter]

theorem coordDeg_add (name : List Char) (u v : Sym →₀ ℕ) :
    coordDeg name (u + v) = coordDeg name u + coordDeg name v := by
  classical
  simp only [coordDeg_eq]
  rw [Finsupp.sum_add_index']
  · intro s; simp
  · intro s a b
    split_ifs <;> simp

theorem coordDeg_coord (name : List Char) (hn : GoodName name) (i k : ℕ) :
    coordDeg name (Finsupp.single (mergeSubscript name i) k) = k := by
  classical
  rw [coordDeg_eq, Finsupp.sum_single_index (by simp), if_pos ⟨i, splitSubscript_merge name hn i⟩]

theorem coordDeg_param (name : List Char) (s : Sym) (hs : IsParam name s) (k : ℕ) :
    coordDeg name (Finsupp.single s k) = 0 := by
  classical
  rw [coordDeg_eq, Finsupp.sum_single_index (by simp), if_neg (fun ⟨i, hi⟩ => isParam_not_indexed hs i hi)]

end Cyjax
