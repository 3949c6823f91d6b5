import Verif.Lemmas.HomPoly
import Verif.Props.PolyOps

/-! # Properties C48 – C53: patches of homogeneous polynomials, Dwork and Fermat polynomials -/

namespace Cyjax

open Cyjax.Polynomial MvPolynomial

/-! ## C48 -/

/-- C48: `unique_patch_index` is a bijection from the valid patches onto `0, ..., total-1`, where the total
is the product of the sizes. -/
theorem C48_bijection (sizes : List ℕ) :
    Set.BijOn (uniquePatchIndex sizes) {p | ValidPatch sizes p} {k | k < sizes.prod} := by
  refine ⟨fun p hp => uniquePatchIndex_lt sizes p hp, fun p hp q hq h => ?_, fun k hk => ?_⟩
  · exact uniquePatchIndex_inj sizes p q hp hq h
  · obtain ⟨p, hp, rfl⟩ := uniquePatchIndex_surj sizes k hk
    exact ⟨p, hp, rfl⟩

/-- C48: the documented formula `i + d1 * (j + d2 * k)`, as recursion over any number of variables. -/
theorem C48_formula (n p : ℕ) (ns ps : List ℕ) :
    uniquePatchIndex [] [] = 0 ∧
    uniquePatchIndex (n :: ns) (p :: ps) = p + n * uniquePatchIndex ns ps :=
  ⟨rfl, uniquePatchIndex_cons n p ns ps⟩

example (d₁ d₂ d₃ i j k : ℕ) : uniquePatchIndex [d₁, d₂, d₃] [i, j, k] = i + d₁ * (j + d₂ * k) := by
  rw [(C48_formula _ _ _ _).2, (C48_formula _ _ _ _).2, (C48_formula _ _ _ _).2, (C48_formula 0 0 [] []).1]
  ring

example : ValidPatch [3, 4] [2, 3] := by simp [ValidPatch]

/-! ## C49 -/

/-- C49: the compiled evaluation function, called with a valid patch (or none), returns what calling the
polynomial with that patch returns. -/
theorem C49_dispatch (P : PolyObj) (cache : Cache) (patch : Option (List ℕ))
    (hp : ∀ q, patch = some q → ValidPatch P.md.sizes q) (args : List Val)
    (kwargs : List (List Char × Val)) :
    (transformEval P cache patch args kwargs).2 = (homCall P cache patch args kwargs).2 := by
  rw [transformEval_eq P cache patch hp]

/-- C49: there is exactly one branch for each valid patch. -/
theorem C49_branches (sizes : List ℕ) :
    (allPatches sizes).Nodup ∧ ∀ p, p ∈ allPatches sizes ↔ ValidPatch sizes p :=
  ⟨(allPatches_perm sizes).nodup_iff.2 (nodup_cartesian sizes),
    fun p => ((allPatches_perm sizes).mem_iff).trans (mem_cartesian sizes p)⟩

/-! ## C51 (general form) and C50 -/

/-- C51, what the code does for any index sets: the coordinate set to one is the one whose *symbolic* index
is the patch number. If `ρ` gives the value one to these symbols, calling the affine polynomial with the
remaining coordinates gives the value of the polynomial. Missing compared to the documentation: that
the patch number is a position, see `C51_positional_violated`. -/
theorem C51_symbolic_index_partial (P : PolyObj) (hm : P.md.WF) (hd : P.Declared) (hr : RealCoeffs P.poly)
    (hv : ∀ v ∈ P.md.vars, v.2.isSome) (patch : List ℕ) (hp : ValidPatch P.md.sizes patch)
    (hg : ∀ s ∈ patchSymbols P.md patch, s ∈ P.gens) (hne : ∃ s ∈ P.gens, s ∉ patchSymbols P.md patch)
    (history : List HomStep) (hh : ∀ s ∈ history, s.Valid P.md.sizes)
    (ρ : Sym → ℂ) (hρ : ∀ s ∈ patchSymbols P.md patch, ρ s = 1) :
    (homCall P (cacheAfter P history) (some patch)
      ((affineMeta P.md patch).inputs ρ ++ [.vec (P.md.paramInput ρ)]) []).2 = P.callAt ρ := by
  have hl : patch.length = P.md.vars.length := by
    have := hp.length_eq
    simpa [Meta.sizes] using this
  rw [(homCall_spec P _ (cacheAfter_ok P history hh) (some patch)
    (by rintro q h; cases h; exact hp) _ _).1]
  simp only
  unfold AffineObj.call
  have hpoly : (affinePoly P patch).isPoly = true := by
    unfold affinePoly
    simp only [decide_eq_true_eq]
    refine ⟨hg, fun h => ?_⟩
    obtain ⟨s, hs, hsn⟩ := hne
    rw [List.filter_eq_nil_iff] at h
    exact hsn (by simpa using h s hs)
  rw [if_pos hpoly]
  have := callAt_ok (affinePoly P patch).obj (affineMeta_wf P.md hm patch hl)
    (affinePoly_declared P hd hv patch hl) (affinePoly_real P hr patch) ρ
  refine Eq.trans this ?_
  rw [callAt_ok P hm hd hr ρ, eval_affinePoly]
  congr 3
  funext s
  split_ifs with h
  · exact (hρ s h).symm
  · rfl

/-- C50: for indices `0, ..., n-1`, calling with `patch` at affine coordinates equals calling without patch
at the homogeneous coordinates with a one inserted at the patch position, for any number of variables,
after any history of calls. It needs that the omitted coordinates occur as generators and are not
the only ones, see `C50_absent_violated`. -/
theorem C50_affine_partial (P : PolyObj) (hm : P.md.WF) (hd : P.Declared) (hr : RealCoeffs P.poly)
    (hcons : P.md.Consecutive) (patch : List ℕ) (hp : ValidPatch P.md.sizes patch)
    (hg : ∀ s ∈ patchSymbols P.md patch, s ∈ P.gens) (hne : ∃ s ∈ P.gens, s ∉ patchSymbols P.md patch)
    (history : List HomStep) (hh : ∀ s ∈ history, s.Valid P.md.sizes)
    (zs : List (List ℂ)) (hz : List.Forall₂ (fun z n => z.length + 1 = n) zs P.md.sizes)
    (ps : List ℂ) (hps : ps.length = P.md.params.length) :
    (homCall P (cacheAfter P history) (some patch) (zs.map .vec ++ [.vec ps]) []).2 =
      P.call (List.zipWith (fun z p => .vec (z.insertIdx p 1)) zs patch ++ [.vec ps]) [] := by
  have hl : patch.length = P.md.vars.length := by
    have := hp.length_eq
    simpa [Meta.sizes] using this
  have hlz : zs.length = P.md.vars.length := by
    have := hz.length_eq
    simpa [Meta.sizes] using this
  have hv : ∀ v ∈ P.md.vars, v.2.isSome := by
    intro v hv
    obtain ⟨n, hn⟩ := hcons v hv
    rw [hn]; rfl
  have hk0 : ∀ k (hk : k < P.md.vars.length), ∃ n, P.md.vars[k].2 = some (List.range n) ∧
      patch[k] < n ∧ zs[k].length + 1 = n := by
    intro k hk
    obtain ⟨n, hn⟩ := hcons _ (List.getElem_mem hk)
    refine ⟨n, hn, ?_, ?_⟩
    · have := (List.forall₂_iff_get.1 hp).2 k (by omega) (by simp [Meta.sizes]; omega)
      simpa [Meta.sizes, hn] using this
    · have := (List.forall₂_iff_get.1 hz).2 k (by omega) (by simp [Meta.sizes]; omega)
      simpa [Meta.sizes, hn] using this
  obtain ⟨ρ, h1, h2⟩ := exists_assignment P.md hm
    (List.zipWith (fun z p => .vec (z.insertIdx p 1)) zs patch) ps (by
      rw [List.forall₂_iff_get]
      refine ⟨by simp; omega, ?_⟩
      intro k hk _
      obtain ⟨n, hn, hpn, hzn⟩ := hk0 k hk
      simp only [List.get_eq_getElem, List.getElem_zipWith, ShapeOK, hn, List.length_range]
      rw [List.length_insertIdx_of_le_length (by omega)]
      exact hzn) hps
  have hkey : ∀ k (hk : k < P.md.vars.length), ∃ n, P.md.vars[k].2 = some (List.range n) ∧
      patch[k] < n ∧ zs[k].length + 1 = n ∧
      (List.range n).map (fun i => ρ (mergeSubscript P.md.vars[k].1 i)) = zs[k].insertIdx patch[k] 1 := by
    intro k hk
    obtain ⟨n, hn, hpn, hzn⟩ := hk0 k hk
    refine ⟨n, hn, hpn, hzn, ?_⟩
    have : (P.md.inputs ρ)[k]'(by rw [inputs_length]; exact hk) =
        (List.zipWith (fun z p => Val.vec (z.insertIdx p 1)) zs patch)[k]'(by simp; omega) := by
      congr 1
    simp only [Meta.inputs, List.getElem_map, varInput, hn, List.getElem_zipWith, Val.vec.injEq] at this
    exact this
  rw [← h1, ← h2]
  have haff : (affineMeta P.md patch).inputs ρ = zs.map .vec := by
    unfold Meta.inputs affineMeta
    simp only
    apply List.ext_getElem
    · simp; omega
    · intro k hk hk'
      rw [List.length_map] at hk'
      obtain ⟨n, hn, hpn, hzn, hmap⟩ := hkey k (by omega)
      simp only [List.getElem_map, List.getElem_zipWith, varInput, hn, Option.getD_some, Val.vec.injEq]
      rw [filter_range, ← List.eraseIdx_map, hmap, List.eraseIdx_insertIdx_self]
  rw [← haff]
  refine C51_symbolic_index_partial P hm hd hr hv patch hp hg hne history hh ρ ?_
  intro s hs
  obtain ⟨k, hk, rfl⟩ := List.getElem_of_mem hs
  unfold patchSymbols at hk
  rw [List.length_zipWith, names_length] at hk
  obtain ⟨n, hn, hpn, hzn, hmap⟩ := hkey k (by omega)
  simp only [patchSymbols, List.getElem_zipWith, Meta.names, List.getElem_map]
  have h3 : ((List.range n).map (fun i => ρ (mergeSubscript P.md.vars[k].1 i)))[patch[k]]'(by simp; exact hpn) =
      (zs[k].insertIdx patch[k] 1)[patch[k]]'(by
        rw [List.length_insertIdx_of_le_length (by omega)]; omega) := by
    congr 1
  rw [List.getElem_map, List.getElem_range, List.getElem_insertIdx_self] at h3
  exact h3

/-- C50 is violated if the coordinate set to one does not occur in the polynomial (possible after
`from_coeffs_and_powers`), or if no other coordinate occurs: every call with this patch raises. -/
theorem C50_absent_violated (P : PolyObj) (patch : List ℕ) (hp : ValidPatch P.md.sizes patch)
    (hg : (∃ s ∈ patchSymbols P.md patch, s ∉ P.gens) ∨ ∀ s ∈ P.gens, s ∈ patchSymbols P.md patch)
    (history : List HomStep) (hh : ∀ s ∈ history, s.Valid P.md.sizes) (args : List Val)
    (kwargs : List (List Char × Val)) :
    ∃ e, (homCall P (cacheAfter P history) (some patch) args kwargs).2 = .error e := by
  rw [(homCall_spec P _ (cacheAfter_ok P history hh) (some patch)
    (by rintro q h; cases h; exact hp) _ _).1]
  simp only
  unfold AffineObj.call
  rw [if_neg]
  · cases sortVarArgs Val.len (affinePoly P patch).obj.md.names (affinePoly P patch).obj.md.params.length
      args kwargs with
    | error e => exact ⟨e, rfl⟩
    | ok r => exact ⟨_, rfl⟩
  · unfold affinePoly
    simp only [decide_eq_true_eq]
    rintro ⟨h1, h2⟩
    rcases hg with ⟨s, hs, hn⟩ | h
    · exact hn (h1 s hs)
    · apply h2
      rw [List.filter_eq_nil_iff]
      intro s hs
      simpa using h s hs

/-- `z0 * z1` in three coordinates: patch `2` cannot be used. -/
example : let P : PolyObj := ⟨⟨[("z".toList, some [0, 1, 2])], []⟩,
      X (mergeSubscript "z".toList 0) * X (mergeSubscript "z".toList 1),
      [mergeSubscript "z".toList 0, mergeSubscript "z".toList 1]⟩
    ValidPatch P.md.sizes [2] ∧ ∃ s ∈ patchSymbols P.md [2], s ∉ P.gens := by
  refine ⟨by simp [ValidPatch, Meta.sizes], mergeSubscript "z".toList 2, by simp [patchSymbols, Meta.names], ?_⟩
  decide

/-- Two variables `x = [x0, x1]`, `y = [y0, y1, y2]` and the polynomial `x0*y2 + a*x1*y0`. -/
noncomputable def exampleHom : PolyObj :=
  ⟨⟨[("x".toList, some [0, 1]), ("y".toList, some [0, 1, 2])], ["a".toList]⟩,
    X (mergeSubscript "x".toList 0) * X (mergeSubscript "y".toList 2) +
      X "a".toList * (X (mergeSubscript "x".toList 1) * X (mergeSubscript "y".toList 0)),
    [mergeSubscript "x".toList 0, mergeSubscript "x".toList 1, mergeSubscript "y".toList 0,
      mergeSubscript "y".toList 1, mergeSubscript "y".toList 2]⟩

theorem exampleHom_wf : exampleHom.md.WF where
  namesNodup := by decide
  good := by decide
  indsNodup := by
    intro v hv inds h
    simp only [exampleHom, List.mem_cons, List.not_mem_nil, or_false] at hv
    rcases hv with rfl | rfl <;>
    · simp at h; subst h; decide
  paramsNodup := by decide
  params := by
    intro s hs
    simp only [exampleHom, List.mem_cons, List.not_mem_nil, or_false] at hs
    subst hs
    exact ⟨_, _, splitSubscript_good _ (by decide), by decide⟩

theorem exampleHom_declared : exampleHom.Declared := by
  rw [declared_iff]
  refine Subalgebra.add_mem _ (Subalgebra.mul_mem _ (X_mem_polysIn _ _ ?_) (X_mem_polysIn _ _ ?_))
    (Subalgebra.mul_mem _ (X_mem_polysIn _ _ ?_)
      (Subalgebra.mul_mem _ (X_mem_polysIn _ _ ?_) (X_mem_polysIn _ _ ?_))) <;> decide

theorem exampleHom_real : RealCoeffs exampleHom.poly :=
  ((realCoeffs_X _).mul (realCoeffs_X _)).add ((realCoeffs_X _).mul ((realCoeffs_X _).mul (realCoeffs_X _)))

/-- Patch `(1, 0)`: `x1 = 1`, `y0 = 1`, after an evaluation in another patch. -/
example (x0 y1 y2 a : ℂ) :
    (homCall exampleHom (cacheAfter exampleHom [.affine [0, 2], .eval none [] []]) (some [1, 0])
      ([[x0], [y1, y2]].map .vec ++ [.vec [a]]) []).2 =
    exampleHom.call ([.vec [x0, 1], .vec [1, y1, y2]] ++ [.vec [a]]) [] :=
  C50_affine_partial exampleHom exampleHom_wf exampleHom_declared exampleHom_real
    (by
      intro v hv
      simp only [exampleHom, List.mem_cons, List.not_mem_nil, or_false] at hv
      rcases hv with rfl | rfl
      · exact ⟨2, rfl⟩
      · exact ⟨3, rfl⟩)
    [1, 0] (by simp [ValidPatch, Meta.sizes, exampleHom]) (by decide)
    ⟨mergeSubscript "x".toList 0, by decide, by decide⟩ _
    (by
      intro s hs
      simp only [List.mem_cons, List.not_mem_nil, or_false] at hs
      rcases hs with rfl | rfl
      · simp [HomStep.Valid, ValidPatch, Meta.sizes, exampleHom]
      · simp [HomStep.Valid])
    [[x0], [y1, y2]] (by simp [Meta.sizes, exampleHom]) [a] rfl

/-- C51 is violated for index sets other than `0, ..., n-1`: for `z1 + 2*z2` (indices `[1, 2]`), patch `1`
should set the second coordinate to one, giving `x + 2`, but gives `1 + 2*x`; patch `0` raises. -/
theorem C51_positional_violated :
    let z1 : Sym := mergeSubscript "z".toList 1
    let z2 : Sym := mergeSubscript "z".toList 2
    let P : PolyObj := ⟨⟨[("z".toList, some [1, 2])], []⟩, X z1 + C 2 * X z2, [z1, z2]⟩
    ∀ x : ℂ,
      P.call [.vec [x, 1], .vec []] [] = .ok (x + 2) ∧
      (homCall P (initCache P) (some [1]) [.vec [x], .vec []] []).2 = .ok (1 + 2 * x) ∧
      ∃ e, (homCall P (initCache P) (some [0]) [.vec [x], .vec []] []).2 = .error e := by
  intro z1 z2 P x
  have hne : z1 ≠ z2 := by decide
  have hm : P.md.WF := {
    namesNodup := by decide
    good := by decide
    indsNodup := by
      intro v hv inds h
      simp only [P, List.mem_cons, List.not_mem_nil, or_false] at hv
      subst hv
      simp at h; subst h; decide
    paramsNodup := by decide
    params := by simp [P] }
  have hd : P.Declared := by
    rw [declared_iff]
    refine Subalgebra.add_mem _ (X_mem_polysIn _ _ ?_) (Subalgebra.mul_mem _ (C_mem_polysIn _ _)
      (X_mem_polysIn _ _ ?_)) <;> decide
  have hr : RealCoeffs P.poly := (realCoeffs_X _).add ((realCoeffs_C _ (by simp)).mul (realCoeffs_X _))
  have hval : ∀ ρ : Sym → ℂ, P.callAt ρ = .ok (ρ z1 + 2 * ρ z2) := by
    intro ρ
    rw [callAt_ok P hm hd hr ρ]
    simp [P]
  refine ⟨?_, ?_, ?_⟩
  · have := hval (fun s => if s = z1 then x else 1)
    simp only [if_true, hne.symm, if_false, mul_one] at this
    rw [← this]
    unfold PolyObj.callAt
    congr 1
  · have h1 := C51_symbolic_index_partial P hm hd hr (by decide) [1]
      (by simp [ValidPatch, Meta.sizes, P]) (by decide) ⟨z2, by decide, by decide⟩ [] (by simp)
      (fun s => if s = z1 then 1 else x) (by
        intro s hs
        have : s = z1 := by
          change s ∈ [z1] at hs
          simpa using hs
        simp [this])
    rw [hval] at h1
    simp only [if_true, hne.symm, if_false] at h1
    rw [← h1]
    change _ = (homCall P (initCache P) (some [1]) _ []).2
    congr 2
  · exact C50_absent_violated P [0] (by simp [ValidPatch, Meta.sizes, P])
      (Or.inl ⟨mergeSubscript "z".toList 0, by simp [patchSymbols, Meta.names, P], by decide⟩) []
      (by simp) _ _

/-! ## C52 -/

/-- C52: after any history of calls with valid patches, `affine_poly` succeeds and returns what it returns
on a fresh object. -/
theorem C52_cache (P : PolyObj) (history : List HomStep) (hh : ∀ s ∈ history, s.Valid P.md.sizes)
    (patch : List ℕ) (hp : ValidPatch P.md.sizes patch) :
    ∃ A, (affinePolyCached P (cacheAfter P history) patch).2 = .ok A ∧
      (affinePolyCached P (initCache P) patch).2 = .ok A :=
  ⟨_, (affinePolyCached_spec P _ (cacheAfter_ok P history hh) patch hp).1,
    (affinePolyCached_spec P _ (initCache_ok P) patch hp).1⟩

/-- C52: the same for evaluation, direct and compiled. -/
theorem C52_evaluation (P : PolyObj) (history : List HomStep) (hh : ∀ s ∈ history, s.Valid P.md.sizes)
    (patch : Option (List ℕ)) (hp : ∀ q, patch = some q → ValidPatch P.md.sizes q) (args : List Val)
    (kwargs : List (List Char × Val)) :
    (homCall P (cacheAfter P history) patch args kwargs).2 =
      (homCall P (initCache P) patch args kwargs).2 ∧
    (transformEval P (cacheAfter P history) patch args kwargs).2 =
      (homCall P (initCache P) patch args kwargs).2 := by
  rw [transformEval_eq P _ patch hp, (homCall_spec P _ (cacheAfter_ok P history hh) patch hp _ _).1,
    (homCall_spec P _ (initCache_ok P) patch hp _ _).1]
  exact ⟨rfl, rfl⟩

/-- C52 needs valid patches: with two variables of two coordinates, one call with the invalid patch `(2, 0)`
is accepted and afterwards the valid patch `(0, 1)` gives the wrong polynomial. -/
theorem C52_invalid_pollutes (P : PolyObj) (hs : P.md.sizes = [2, 2]) :
    (affinePolyCached P (initCache P) [2, 0]).2 = .ok (affinePoly P [2, 0]) ∧
    (affinePolyCached P (cacheAfter P [.affine [2, 0]]) [0, 1]).2 = .ok (affinePoly P [2, 0]) := by
  have h1 : uniquePatchIndex [2, 2] [2, 0] = 2 := rfl
  have h2 : uniquePatchIndex [2, 2] [0, 1] = 2 := rfl
  have hc : initCache P = [none, none, none, none] := by
    unfold initCache; rw [hs]; rfl
  constructor
  · unfold affinePolyCached
    rw [hs, h1, hc]
    rfl
  · unfold cacheAfter
    simp only [List.foldl_cons, List.foldl_nil, HomStep.run]
    unfold affinePolyCached
    rw [hs, h1, h2, hc]
    rfl

example : ∀ s ∈ [HomStep.affine [0, 2], .eval (some [1, 1]) [] [], .compiled none [] []],
    s.Valid exampleHom.md.sizes := by
  intro s hs
  simp only [List.mem_cons, List.not_mem_nil, or_false] at hs
  rcases hs with rfl | rfl | rfl <;> simp [HomStep.Valid, ValidPatch, Meta.sizes, exampleHom]

/-! ## C53 -/

/-- C53: closed form of the Dwork polynomial; the factor is `-5` for `True`, `1` for `False`, or the given
number. -/
theorem C53_dwork_value (n : ℕ) (factor : DworkFactor) (z : List ℂ) (hz : z.length = n) (psi : ℂ)
    (rest : List ℂ) : dworkCall n factor.value z (psi :: rest) none =
      .ok ((z.map (· ^ n)).sum +
        (match factor with | .flag true => -5 | .flag false => 1 | .number c => c) * psi * z.prod) := by
  unfold dworkCall
  rw [if_pos (by simpa using hz)]
  rcases factor with ⟨_ | _⟩ | c <;> rfl

/-- C53: closed form of the Fermat polynomial. -/
theorem C53_fermat_value {R : Type*} [CommSemiring R] (n : ℕ) (z : List R) (hz : z.length = n) :
    fermatCall n z none = .ok ((z.map (· ^ n)).sum) := by
  unfold fermatCall
  rw [if_pos (by simpa using hz)]

/-- C53: both are homogeneous of degree `n`. -/
theorem C53_homogeneous (n : ℕ) (factor : ℂ) (z : List ℂ) (hz : z.length = n) (psi l : ℂ) :
    (∃ v, dworkCall n factor z [psi] none = .ok v ∧
      dworkCall n factor (z.map (l * ·)) [psi] none = .ok (l ^ n * v)) ∧
    (∃ v, fermatCall n z none = .ok v ∧ fermatCall n (z.map (l * ·)) none = .ok (l ^ n * v)) := by
  have hs : ((z.map (l * ·)).map (· ^ n)).sum = l ^ n * (z.map (· ^ n)).sum := by
    rw [List.map_map, ← List.sum_map_mul_left]
    congr 1
    apply List.map_congr_left
    intro x _
    simp [mul_pow]
  have hp : (z.map (l * ·)).prod = l ^ n * z.prod := by
    rw [← hz]
    clear hs hz
    induction z with
    | nil => simp
    | cons a z ih => rw [List.map_cons, List.prod_cons, ih, List.prod_cons, List.length_cons]; ring
  constructor
  · refine ⟨_, by unfold dworkCall; rw [if_pos (by simpa using hz)], ?_⟩
    unfold dworkCall
    rw [if_pos (by simpa using hz)]
    simp only [hs, hp, Except.ok.injEq]
    ring
  · refine ⟨_, by unfold fermatCall; rw [if_pos (by simpa using hz)], ?_⟩
    unfold fermatCall
    rw [if_pos (by simpa using hz)]
    simp only [hs]

/-- C53: both are symmetric under permutations of the coordinates, with and without patch. -/
theorem C53_symmetric {R : Type*} [CommSemiring R] (n : ℕ) (factor : R) (z z' params : List R)
    (h : z.Perm z') (patch : Option (List ℕ)) :
    dworkCall n factor z params patch = dworkCall n factor z' params patch ∧
    fermatCall n z patch = fermatCall n z' patch := by
  unfold dworkCall fermatCall
  rw [h.length_eq, h.prod_eq, (h.map _).sum_eq]
  exact ⟨rfl, rfl⟩

/-- C53: with a patch they equal the value at the homogeneous point with one inserted at any position. -/
theorem C53_patch {R : Type*} [CommSemiring R] (n : ℕ) (hn : 0 < n) (factor : R) (z params : List R)
    (p : ℕ) (hp : p < n) :
    (z.length + 1 = n → dworkCall n factor z params (some [p]) =
      dworkCall n factor (z.insertIdx p 1) params none) ∧
    (z.length + 1 = n → fermatCall n z (some [p]) = fermatCall n (z.insertIdx p 1) none) := by
  constructor <;> intro hz
  · have hl : (z.insertIdx p 1).length = n := by
      rw [List.length_insertIdx_of_le_length (by omega)]; exact hz
    have hperm := List.perm_insertIdx (1 : R) z (i := p) (by omega)
    rw [(C53_symmetric n factor _ _ params hperm none).1]
    unfold dworkCall
    rw [if_pos (by simp; omega), if_pos (by simp; omega)]
    cases params with
    | nil => rfl
    | cons psi rest =>
      simp only [List.map_cons, List.sum_cons, List.prod_cons, one_pow, one_mul, Except.ok.injEq]
      ring
  · have hperm := List.perm_insertIdx (1 : R) z (i := p) (by omega)
    rw [(C53_symmetric n (1 : R) _ _ [] hperm none).2]
    unfold fermatCall
    rw [if_pos (by simp; omega), if_pos (by simp; omega)]
    simp

/-- C53: inputs of the wrong length are rejected. -/
theorem C53_shape {R : Type*} [CommSemiring R] (n : ℕ) (factor : R) (z params : List R) (p : List ℕ) :
    (z.length ≠ n → dworkCall n factor z params none = .error .assertionError ∧
      fermatCall n z none = .error .assertionError) ∧
    (z.length ≠ n - 1 → dworkCall n factor z params (some p) = .error .assertionError ∧
      fermatCall n z (some p) = .error .assertionError) := by
  unfold dworkCall fermatCall
  constructor <;> intro h
  · rw [if_neg (by simpa using h), if_neg (by simpa using h)]; exact ⟨rfl, rfl⟩
  · rw [if_neg (by simpa using h), if_neg (by simpa using h)]; exact ⟨rfl, rfl⟩

theorem dworkMeta_wf (n : ℕ) : (dworkMeta n).WF where
  namesNodup := by simp [dworkMeta, Meta.names]
  good := by
    intro v hv
    simp only [dworkMeta, List.mem_cons, List.not_mem_nil, or_false] at hv
    subst hv
    change GoodName "z".toList
    decide
  indsNodup := by
    intro v hv inds h
    simp only [dworkMeta, List.mem_cons, List.not_mem_nil, or_false] at hv
    subst hv
    simp only [Option.some.injEq] at h
    subst h
    exact List.nodup_range
  paramsNodup := by simp [dworkMeta]
  params := by
    intro s hs
    simp only [dworkMeta, List.mem_cons, List.not_mem_nil, or_false] at hs
    subst hs
    exact ⟨_, _, splitSubscript_good _ (by decide), by simp [dworkMeta, Meta.names]⟩

/-- C53: the overridden evaluation agrees with the generic evaluation of the object's symbolic polynomial
(`sympy_poly`). -/
theorem C53_symbolic (n : ℕ) (factor : ℝ) (z : List ℂ) (hz : z.length = n) (psi : ℂ) :
    ∃ P, dworkPolyObj n factor = .ok P ∧
      P.call [.vec z, .vec [psi]] [] = dworkCall n (factor : ℂ) z [psi] none := by
  have hlen : ((varSymbols ("z".toList, some (List.range n))).map
      (X : Sym → MvPolynomial Sym ℂ)).length = n := by simp [varSymbols]
  set syms := varSymbols ("z".toList, some (List.range n)) with hsyms
  have hobj : dworkPolyObj n factor = .ok ⟨dworkMeta n,
      ((syms.map X).map (· ^ n)).sum + C (factor : ℂ) * X "psi".toList * (syms.map X).prod,
      (((syms.map X).map (· ^ n)).sum + C (factor : ℂ) * X "psi".toList * (syms.map X).prod).vars.toList.filter
        (fun s => s ∉ ["psi".toList])⟩ := by
    unfold dworkPolyObj dworkCall
    rw [← hsyms, if_pos (by simpa using hlen)]
  refine ⟨_, hobj, ?_⟩
  generalize List.filter _ _ = gens
  have hdv : ∀ s ∈ syms, s ∈ (dworkMeta n).varSyms ++ (dworkMeta n).params := by
    intro s hs
    apply List.mem_append_left
    unfold Meta.varSyms dworkMeta
    rw [List.flatMap_singleton]
    exact hs
  obtain ⟨ρ, h1, h2⟩ := exists_assignment (dworkMeta n) (dworkMeta_wf n) [.vec z] [psi]
    (by simp [dworkMeta, ShapeOK, hz]) rfl
  have hρz : syms.map ρ = z := by
    simp only [Meta.inputs, dworkMeta, List.map_cons, List.map_nil, varInput, List.cons.injEq,
      Val.vec.injEq, and_true] at h1
    rw [← h1, hsyms, varSymbols, List.map_map]
    rfl
  have hρp : ρ "psi".toList = psi := by
    simpa [Meta.paramInput, dworkMeta] using h2
  have hreal : ∀ l : List (MvPolynomial Sym ℂ), (∀ q ∈ l, RealCoeffs q) →
      RealCoeffs l.sum ∧ RealCoeffs l.prod := by
    intro l hl
    induction l with
    | nil => exact ⟨by simpa using realCoeffs_C 0 (by simp), by simpa using realCoeffs_C 1 (by simp)⟩
    | cons a l ih =>
      rw [List.sum_cons, List.prod_cons]
      have h := ih (fun q hq => hl q (List.mem_cons_of_mem _ hq))
      exact ⟨(hl a List.mem_cons_self).add h.1, (hl a List.mem_cons_self).mul h.2⟩
  have hpow : ∀ (q : MvPolynomial Sym ℂ) (k : ℕ), RealCoeffs q → RealCoeffs (q ^ k) := by
    intro q k hq
    induction k with
    | zero => rw [pow_zero]; simpa using realCoeffs_C 1 (by simp)
    | succ k ih => rw [pow_succ]; exact ih.mul hq
  have := callAt_ok ⟨dworkMeta n, ((syms.map X).map (· ^ n)).sum +
    C (factor : ℂ) * X "psi".toList * (syms.map X).prod, gens⟩ (dworkMeta_wf n)
    ((mem_polysIn _ _).1 (Subalgebra.add_mem _
      (Subalgebra.list_sum_mem _ (by
        intro q hq
        simp only [List.mem_map] at hq
        obtain ⟨_, ⟨s, hs, rfl⟩, rfl⟩ := hq
        exact Subalgebra.pow_mem _ (X_mem_polysIn _ _ (hdv s hs)) _))
      (Subalgebra.mul_mem _ (Subalgebra.mul_mem _ (C_mem_polysIn _ _)
        (X_mem_polysIn _ _ (List.mem_append_right _ (by simp [dworkMeta]))))
        (Subalgebra.list_prod_mem _ (by
          intro q hq
          simp only [List.mem_map] at hq
          obtain ⟨s, hs, rfl⟩ := hq
          exact X_mem_polysIn _ _ (hdv s hs))))))
    ((hreal _ (by
        intro q hq
        simp only [List.mem_map] at hq
        obtain ⟨_, ⟨s, hs, rfl⟩, rfl⟩ := hq
        exact hpow _ _ (realCoeffs_X _))).1.add
      (((realCoeffs_C _ (by simp)).mul (realCoeffs_X _)).mul (hreal _ (by
        intro q hq
        simp only [List.mem_map] at hq
        obtain ⟨s, hs, rfl⟩ := hq
        exact realCoeffs_X _)).2)) ρ
  unfold PolyObj.callAt at this
  simp only [h1, h2] at this
  refine Eq.trans this ?_
  unfold dworkCall
  rw [if_pos (by simpa using hz)]
  simp only [Except.ok.injEq, map_add, map_mul, map_list_sum, map_list_prod, List.map_map, eval_C, eval_X, hρp]
  have e1 : List.map (⇑(eval ρ) ∘ (fun x => x ^ n) ∘ X) syms = z.map (· ^ n) := by
    rw [← hρz, List.map_map]
    apply List.map_congr_left
    intro s _
    simp
  have e2 : List.map (⇑(eval ρ) ∘ X) syms = z := by
    rw [← hρz]
    apply List.map_congr_left
    intro s _
    simp
  rw [e1, e2]

/-- The quintic at the point `(1, 2, 0, 0, 1)`. -/
example : dworkCall 5 (DworkFactor.value (.flag true)) [1, 2, 0, 0, 1] [(3 : ℂ)] none = .ok 34 := by
  rw [C53_dwork_value 5 (.flag true) [1, 2, 0, 0, 1] rfl 3 []]
  norm_num

end Cyjax
