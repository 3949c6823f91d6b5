import Verif.Lemmas.PolyClass

/-! # Property C177: derivatives of homogeneous polynomials in a patch -/

namespace Cyjax

open Cyjax.Polynomial MvPolynomial

/-- **C177**: the conversion to a homogeneous polynomial succeeds exactly if no variable is a scalar; the
result has the same polynomial, variables and parameters. -/
theorem C177_convert (P : PolyObj) :
    ((∀ v ∈ P.md.vars, v.2.isSome) → fromPoly .hom P = .ok ⟨.hom, P⟩) ∧
    ((∃ v ∈ P.md.vars, v.2 = none) → fromPoly .hom P = .error .typeError) := by
  constructor
  · intro h
    unfold fromPoly
    exact if_pos (List.all_eq_true.2 h)
  · rintro ⟨v, hv, hn⟩
    unfold fromPoly
    refine if_neg fun h => ?_
    have := List.all_eq_true.1 h v hv
    rw [hn] at this
    exact absurd this (by decide)

/-- **C177**: the derivative of a homogeneous polynomial is again one that can be called with a patch. There it
is the derivative, with respect to the homogeneous coordinate `s`, of the polynomial called
without a patch, at the point whose omitted coordinates are one. This includes the derivatives
with respect to the omitted coordinates. Missing: as for the polynomial itself, the omitted coordinates have to
be generators and not the only ones (`C50_absent_violated`). -/
theorem C177_derivative_partial (P : PolyObj) (hm : P.md.WF) (hd : P.Declared) (hr : RealCoeffs P.poly)
    (hv : ∀ v ∈ P.md.vars, v.2.isSome) (patch : List ℕ) (hp : ValidPatch P.md.sizes patch)
    (hg : ∀ s ∈ patchSymbols P.md patch, s ∈ P.gens) (hne : ∃ s ∈ P.gens, s ∉ patchSymbols P.md patch)
    (s : Sym) (hs : s ∈ P.gens) (ρ : Sym → ℂ) (hρ : ∀ s ∈ patchSymbols P.md patch, ρ s = 1) :
    ∃ (D : AnyPoly) (f : ℂ → ℂ) (f' : ℂ), (AnyPoly.mk .hom P).diff s = .ok D ∧
      (∀ t, (AnyPoly.mk .hom P).call (P.md.inputs (Function.update ρ s t) ++
        [.vec (P.md.paramInput (Function.update ρ s t))]) none = .ok (f t)) ∧
      D.call ((affineMeta P.md patch).inputs ρ ++ [.vec (P.md.paramInput ρ)]) (some patch) = .ok f' ∧
      HasDerivAt f f' (ρ s) := by
  obtain ⟨D, hD⟩ := C46_diff_succeeds P s hs
  obtain ⟨hmd, f, f', h1, h2, h3⟩ := C46_diff_partial P D s hm hd hr hD ρ
  obtain ⟨rfl⟩ : D = ⟨P.md, pderiv s P.poly, P.gens⟩ := by
    unfold PolyObj.diff at hD
    rw [if_pos hs] at hD
    cases hD
    rfl
  refine ⟨⟨.hom, ⟨P.md, pderiv s P.poly, P.gens⟩⟩, f, f', ?_, h1, ?_, h3⟩
  · simp only [AnyPoly.diff, hD]
    exact (C177_convert _).1 hv
  · rw [← h2]
    exact C51_symbolic_index_partial ⟨P.md, pderiv s P.poly, P.gens⟩ hm
      ((mem_polysIn _ _).1 (pderiv_mem_polysIn _ s _ ((declared_iff P).1 hd))) (realCoeffs_pderiv _ _ hr)
      hv patch hp hg hne [] (by simp) ρ hρ

/-- **C177**: differentiating and going to a patch commute. For a coordinate of the patch, the derivative called
with the patch is the derivative of the polynomial called with the patch. -/
theorem C177_commute_partial (P : PolyObj) (hm : P.md.WF) (hd : P.Declared) (hr : RealCoeffs P.poly)
    (hv : ∀ v ∈ P.md.vars, v.2.isSome) (patch : List ℕ) (hp : ValidPatch P.md.sizes patch)
    (hg : ∀ s ∈ patchSymbols P.md patch, s ∈ P.gens) (s : Sym) (hs : s ∈ P.gens)
    (hsp : s ∉ patchSymbols P.md patch) (ρ : Sym → ℂ) (hρ : ∀ s ∈ patchSymbols P.md patch, ρ s = 1) :
    ∃ (D : AnyPoly) (f : ℂ → ℂ) (f' : ℂ), (AnyPoly.mk .hom P).diff s = .ok D ∧
      (∀ t, (AnyPoly.mk .hom P).call ((affineMeta P.md patch).inputs (Function.update ρ s t) ++
        [.vec (P.md.paramInput (Function.update ρ s t))]) (some patch) = .ok (f t)) ∧
      D.call ((affineMeta P.md patch).inputs ρ ++ [.vec (P.md.paramInput ρ)]) (some patch) = .ok f' ∧
      HasDerivAt f f' (ρ s) := by
  obtain ⟨D, f, f', h1, h2, h3, h4⟩ :=
    C177_derivative_partial P hm hd hr hv patch hp hg ⟨s, hs, hsp⟩ s hs ρ hρ
  refine ⟨D, f, f', h1, fun t => ?_, h3, h4⟩
  rw [← h2 t]
  refine C51_symbolic_index_partial P hm hd hr hv patch hp hg ⟨s, hs, hsp⟩ [] (by simp) _ ?_
  intro u hu
  rw [Function.update_of_ne (fun e : u = s => hsp (e ▸ hu))]
  exact hρ u hu

/-- **C177** (Euler): if scaling the entries `S` of the input multiplies the value by the `d`-th power of the
factor, then the derivatives satisfy `∑ z_s ∂F/∂z_s = d F`. -/
theorem C177_euler (P : PolyObj) (hm : P.md.WF) (hd : P.Declared) (hr : RealCoeffs P.poly)
    (S : Finset Sym) (hS : ∀ s ∈ S, s ∈ P.gens) (d : ℕ) (ρ : Sym → ℂ)
    (hhom : ∀ l x y : ℂ, P.callAt ρ = .ok x → P.callAt (fun s => if s ∈ S then l * ρ s else ρ s) = .ok y →
      y = l ^ d * x) :
    ∃ (x : ℂ) (x' : Sym → ℂ), P.callAt ρ = .ok x ∧
      (∀ s ∈ S, ∃ D, P.diff s = .ok D ∧ D.callAt ρ = .ok (x' s)) ∧ ∑ s ∈ S, ρ s * x' s = d * x := by
  refine ⟨_, fun s => eval ρ (pderiv s P.poly), callAt_ok P hm hd hr ρ, ?_, ?_⟩
  · intro s hs
    refine ⟨⟨P.md, pderiv s P.poly, P.gens⟩, if_pos (hS s hs), ?_⟩
    exact callAt_ok ⟨P.md, pderiv s P.poly, P.gens⟩ hm ((mem_polysIn _ _).1 (pderiv_mem_polysIn _ s _ ((declared_iff P).1 hd)))
      (realCoeffs_pderiv _ _ hr) ρ
  · have h1 := hasDerivAt_scale P.poly S ρ
    have h2 : (fun l : ℂ => eval (fun s => if s ∈ S then l * ρ s else ρ s) P.poly) =
        fun l => l ^ d * eval ρ P.poly := by
      funext l
      exact hhom l _ _ (callAt_ok P hm hd hr ρ) (callAt_ok P hm hd hr _)
    rw [h2] at h1
    have h3 := (hasDerivAt_pow d (1 : ℂ)).mul_const (eval ρ P.poly)
    simp only [one_pow, mul_one] at h3
    exact h1.unique h3

/-- **C177**: the derivative of the Dwork polynomial with respect to a coordinate is a plain polynomial whose
value is `n z_i^(n-1) + factor psi ∏_{j ≠ i} z_j`. -/
theorem C177_dwork (n i : ℕ) (hi : i < n) (factor : DworkFactor) (hf : factor.value.im = 0) :
    ∃ F D, dworkObj n factor = .ok F ∧ F.diff (mergeSubscript "z".toList i) = .ok D ∧ D.cls = .poly ∧
      ∀ (z : List ℂ) (hz : z.length = n) (psi : ℂ), D.call [.vec z, .vec [psi]] none =
        .ok (n * (z[i]'(hz ▸ hi)) ^ (n - 1) + factor.value * psi * (z.eraseIdx i).prod) := by
  have hF : dworkObj n factor = .ok ⟨.dwork n factor.value, ⟨dworkMeta n,
      diagonal n (C factor.value * X "psi".toList),
      (diagonal n (C factor.value * X "psi".toList)).vars.toList.filter (fun s => s ∉ ["psi".toList])⟩⟩ := by
    unfold dworkObj dworkPolyObj dworkCall
    rw [if_pos (by simp [varSymbols])]
    rfl
  have hpz : ∀ k, "psi".toList ≠ mergeSubscript "z".toList k := by
    intro k h
    have h1 := splitSubscript_merge "z".toList z_good k
    rw [← h, splitSubscript_good _ (by decide)] at h1
    simp at h1
  have hmem : mergeSubscript "z".toList i ∈
      (diagonal n (C factor.value * X "psi".toList)).vars.toList.filter (fun s => s ∉ ["psi".toList]) := by
    rw [List.mem_filter]
    refine ⟨Finset.mem_toList.2 (mem_vars_diagonal n i hi _ ⟨fun _ => 0, fun ρ hρ => ?_⟩), ?_⟩
    · rw [map_mul, eval_C, eval_X, hρ, mul_zero]
      intro hc
      obtain ⟨k, hk, he⟩ := List.getElem_of_mem hc
      rw [zSyms_get] at he
      exact hpz k he.symm
    · simpa using (hpz i).symm
  refine ⟨_, ⟨.poly, ⟨dworkMeta n, pderiv (mergeSubscript "z".toList i)
    (diagonal n (C factor.value * X "psi".toList)),
    (diagonal n (C factor.value * X "psi".toList)).vars.toList.filter (fun s => s ∉ ["psi".toList])⟩⟩,
    hF, ?_, rfl, ?_⟩
  · simp only [AnyPoly.diff, PolyObj.diff, if_pos hmem]
    rfl
  · intro z hz psi
    obtain ⟨ρ, h1, h2⟩ := diagonal_diff n i hi (C factor.value * X "psi".toList)
      ((realCoeffs_C _ hf).mul (realCoeffs_X _)) (dworkMeta n) (dworkMeta_wf n) rfl
      (Subalgebra.mul_mem _ (C_mem_polysIn _ _)
        (X_mem_polysIn _ _ (List.mem_append_right _ (by simp [dworkMeta]))))
      (by
        intro ρ t
        rw [map_mul, map_mul, eval_C, eval_C, eval_X, eval_X, Function.update_of_ne (hpz i)])
      ((diagonal n (C factor.value * X "psi".toList)).vars.toList.filter (fun s => s ∉ ["psi".toList]))
      z [psi] hz rfl
    refine Eq.trans h2 ?_
    have hρp : ρ "psi".toList = psi := by simpa [Meta.paramInput, dworkMeta] using h1
    rw [map_mul, eval_C, eval_X, hρp]

/-- **C177**: likewise for the Fermat polynomial, `n z_i^(n-1)`. -/
theorem C177_fermat (n i : ℕ) (hi : i < n) :
    ∃ F D, fermatObj n = .ok F ∧ F.diff (mergeSubscript "z".toList i) = .ok D ∧ D.cls = .poly ∧
      ∀ (z : List ℂ) (hz : z.length = n), D.call [.vec z, .vec []] none =
        .ok (n * (z[i]'(hz ▸ hi)) ^ (n - 1)) := by
  have hF : fermatObj n = .ok ⟨.fermat n, ⟨fermatMeta n, diagonal n 0, (diagonal n 0).vars.toList⟩⟩ := by
    unfold fermatObj fermatCall
    rw [if_pos (by simp [varSymbols])]
    have : diagonal n 0 = (((zSyms n).map X).map (· ^ n)).sum := by
      unfold diagonal
      rw [zero_mul, add_zero]
    rw [this]
    rfl
  have hmem : mergeSubscript "z".toList i ∈ (diagonal n 0).vars.toList :=
    Finset.mem_toList.2 (mem_vars_diagonal n i hi _ ⟨fun _ => 0, fun ρ _ => map_zero _⟩)
  refine ⟨_, ⟨.poly, ⟨fermatMeta n, pderiv (mergeSubscript "z".toList i) (diagonal n 0),
    (diagonal n 0).vars.toList⟩⟩, hF, ?_, rfl, ?_⟩
  · simp only [AnyPoly.diff, PolyObj.diff, if_pos hmem]
    rfl
  · intro z hz
    obtain ⟨ρ, -, h2⟩ := diagonal_diff n i hi 0 (by simpa using realCoeffs_C 0 (by simp)) (fermatMeta n)
      (fermatMeta_wf n) rfl (Subalgebra.zero_mem _) (by intro ρ t; simp) (diagonal n 0).vars.toList z [] hz rfl
    refine Eq.trans h2 ?_
    rw [map_zero, zero_mul, add_zero]

/-- **C177** is violated for everything that is a plain polynomial: the argument `patch` is accepted and
ignored. This concerns sums, differences and products of homogeneous polynomials, and the derivatives
of Dwork and Fermat polynomials. -/
theorem C177_ignored_violated (o o' R : AnyPoly) (patch : List ℕ) (args : List Val) (s : Sym) (n : ℕ) (c : ℂ)
    (hR : o.add o' = .ok R ∨ o.sub o' = .ok R ∨ o.mul o' = .ok R ∨
      (o.diff s = .ok R ∧ (o.cls = .dwork n c ∨ o.cls = .fermat n)))
    (hn : patchKey ∉ R.obj.md.names) : R.call args (some patch) = R.call args none := by
  have hcls : R.cls = .poly := by
    rcases hR with h | h | h | ⟨h, hc⟩
    · simp only [AnyPoly.add] at h
      split at h
      · cases h
      · cases h; rfl
    · simp only [AnyPoly.sub] at h
      split at h
      · cases h
      · cases h; rfl
    · simp only [AnyPoly.mul] at h
      split at h
      · cases h
      · cases h; rfl
    · simp only [AnyPoly.diff] at h
      split at h
      · cases h
      · rcases hc with hc | hc <;>
        · rw [hc] at h
          cases h
          rfl
  simp only [AnyPoly.call, hcls]
  exact call_patch _ _ _ hn

/-- Homogeneous `F = z0^2 + z1^2`. -/
noncomputable def sumOfSquares : PolyObj :=
  ⟨⟨[("z".toList, some [0, 1])], []⟩,
    X (mergeSubscript "z".toList 0) ^ 2 + X (mergeSubscript "z".toList 1) ^ 2,
    [mergeSubscript "z".toList 0, mergeSubscript "z".toList 1]⟩

theorem sumOfSquares_wf : sumOfSquares.md.WF where
  namesNodup := by decide
  good := by decide
  indsNodup := by
    intro v hv inds h
    simp only [sumOfSquares, List.mem_cons, List.not_mem_nil, or_false] at hv
    subst hv
    simp at h; subst h; decide
  paramsNodup := by decide
  params := by simp [sumOfSquares]

theorem sumOfSquares_declared : sumOfSquares.Declared := by
  rw [declared_iff]
  refine Subalgebra.add_mem _ (Subalgebra.pow_mem _ (X_mem_polysIn _ _ ?_) _)
    (Subalgebra.pow_mem _ (X_mem_polysIn _ _ ?_) _) <;> decide

theorem sumOfSquares_real : RealCoeffs sumOfSquares.poly := by
  unfold sumOfSquares
  simp only [pow_two]
  exact ((realCoeffs_X _).mul (realCoeffs_X _)).add ((realCoeffs_X _).mul (realCoeffs_X _))

/-- **C177** is violated by a sum: `F` in the patch `0` is `1 + b^2`, while `F + F` with the same patch
takes two coordinates and is `2 a^2 + 2 b^2`. -/
theorem C177_sum_violated : ∃ S, (AnyPoly.mk .hom sumOfSquares).add ⟨.hom, sumOfSquares⟩ = .ok S ∧
    ∀ a b : ℂ, (AnyPoly.mk .hom sumOfSquares).call [.vec [b], .vec []] (some [0]) = .ok (1 + b ^ 2) ∧
      S.call [.vec [a, b], .vec []] (some [0]) = .ok (2 * a ^ 2 + 2 * b ^ 2) := by
  have hadd : sumOfSquares.add sumOfSquares = .ok ⟨sumOfSquares.md, sumOfSquares.poly + sumOfSquares.poly,
      combineGens sumOfSquares.gens sumOfSquares.gens⟩ := by
    have : combineMeta sumOfSquares.md sumOfSquares.md = .ok sumOfSquares.md := by
      have hu : unionIndices [0, 1] [0, 1] = [0, 1] := by
        simp [unionIndices, unionLoop, fetch, addIfNew]
      simp [combineMeta, mergeVars, mergeVar, sumOfSquares, hu]
    unfold PolyObj.add
    rw [this]
  refine ⟨_, by simp only [AnyPoly.add, hadd]; rfl, fun a b => ?_⟩
  obtain ⟨ρ, h1, h2⟩ := exists_assignment sumOfSquares.md sumOfSquares_wf [.vec [a, b]] []
    (by simp [sumOfSquares, ShapeOK]) rfl
  obtain ⟨ρ', h1', h2'⟩ := exists_assignment sumOfSquares.md sumOfSquares_wf [.vec [1, b]] []
    (by simp [sumOfSquares, ShapeOK]) rfl
  simp only [Meta.inputs, sumOfSquares, varInput, List.map_cons, List.map_nil, List.cons.injEq, Val.vec.injEq,
    and_true] at h1 h1'
  constructor
  · have h := C51_symbolic_index_partial sumOfSquares sumOfSquares_wf sumOfSquares_declared sumOfSquares_real
      (by simp [sumOfSquares]) [0] (by simp [ValidPatch, Meta.sizes, sumOfSquares]) (by decide)
      ⟨mergeSubscript "z".toList 1, by decide, by decide⟩ [] (by simp) ρ' (by
        intro s hs
        simp only [patchSymbols, Meta.names, sumOfSquares, List.map_cons, List.map_nil, List.zipWith_cons_cons,
          List.zipWith_nil_left, List.mem_cons, List.not_mem_nil, or_false] at hs
        rw [hs]; exact h1'.1)
    rw [callAt_ok _ sumOfSquares_wf sumOfSquares_declared sumOfSquares_real, h2'] at h
    have hi : (affineMeta sumOfSquares.md [0]).inputs ρ' = [.vec [b]] := by
      have : (affineMeta sumOfSquares.md [0]) = ⟨[("z".toList, some [1])], []⟩ := by
        unfold sumOfSquares affineMeta
        simp
      rw [this]
      simp [Meta.inputs, varInput]
      exact h1'.2
    rw [hi] at h
    refine Eq.trans h ?_
    simp only [sumOfSquares, map_add, map_pow, eval_X, h1'.1, h1'.2, one_pow]
  · have h := callAt_ok ⟨sumOfSquares.md, sumOfSquares.poly + sumOfSquares.poly,
      combineGens sumOfSquares.gens sumOfSquares.gens⟩ sumOfSquares_wf
      ((mem_polysIn _ _).1 (Subalgebra.add_mem _ ((declared_iff _).1 sumOfSquares_declared)
        ((declared_iff _).1 sumOfSquares_declared))) (sumOfSquares_real.add sumOfSquares_real) ρ
    unfold PolyObj.callAt at h
    have hi : sumOfSquares.md.inputs ρ = [.vec [a, b]] := by
      simp [Meta.inputs, varInput, sumOfSquares]
      exact h1
    simp only [hi, h2] at h
    refine (C177_ignored_violated ⟨.hom, sumOfSquares⟩ ⟨.hom, sumOfSquares⟩ _ [0] _ [] 0 0
      (Or.inl (by simp only [AnyPoly.add, hadd])) (by decide)).trans (Eq.trans h ?_)
    simp only [sumOfSquares, map_add, map_pow, eval_X, h1.1, h1.2]
    congr 1
    ring

/-- The derivative of `F` with respect to `z1` in the patch `0`. -/
example (b : ℂ) : ∃ D f', (AnyPoly.mk .hom sumOfSquares).diff (mergeSubscript "z".toList 1) = .ok D ∧
    D.call [.vec [b], .vec []] (some [0]) = .ok f' := by
  obtain ⟨ρ, h1, h2⟩ := exists_assignment sumOfSquares.md sumOfSquares_wf [.vec [1, b]] []
    (by simp [sumOfSquares, ShapeOK]) rfl
  simp only [Meta.inputs, sumOfSquares, varInput, List.map_cons, List.map_nil, List.cons.injEq, Val.vec.injEq,
    and_true] at h1
  obtain ⟨D, f, f', h3, h4, h5, h6⟩ := C177_commute_partial sumOfSquares sumOfSquares_wf sumOfSquares_declared
    sumOfSquares_real (by simp [sumOfSquares]) [0] (by simp [ValidPatch, Meta.sizes, sumOfSquares]) (by decide)
    (mergeSubscript "z".toList 1) (by decide) (by decide) ρ (by
      intro s hs
      simp only [patchSymbols, Meta.names, sumOfSquares, List.map_cons, List.map_nil, List.zipWith_cons_cons,
        List.zipWith_nil_left, List.mem_cons, List.not_mem_nil, or_false] at hs
      rw [hs]; exact h1.1)
  refine ⟨D, f', h3, ?_⟩
  have : (affineMeta sumOfSquares.md [0]) = ⟨[("z".toList, some [1])], []⟩ := by
    unfold sumOfSquares affineMeta
    simp
  rw [this, h2] at h5
  simp only [Meta.inputs, varInput, List.map_cons, List.map_nil, h1.2] at h5
  exact h5

/-- `F` is homogeneous of degree two in both coordinates, as `C177_euler` asks. -/
example (ρ : Sym → ℂ) (l x y : ℂ) (hx : sumOfSquares.callAt ρ = .ok x)
    (hy : sumOfSquares.callAt (fun s => if s ∈ sumOfSquares.gens.toFinset then l * ρ s else ρ s) = .ok y) :
    y = l ^ 2 * x := by
  rw [callAt_ok _ sumOfSquares_wf sumOfSquares_declared sumOfSquares_real] at hx hy
  cases hx
  cases hy
  simp [sumOfSquares]
  ring

example : DworkFactor.value (.flag true) = -5 ∧ (DworkFactor.value (.flag true)).im = 0 := by
  simp [DworkFactor.value]

end Cyjax
