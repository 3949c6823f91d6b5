import Verif.Lemmas.PolyCoeffs
import Verif.Lemmas.PolyMerge
import Verif.Lemmas.PolyUni
import Verif.Props.Polynomial
import Mathlib.Analysis.Calculus.Deriv.Pow
import Mathlib.Algebra.MvPolynomial.Funext

/-! # Properties C43 – C47: building, rebuilding, combining, differentiating and splitting polynomials -/

namespace Cyjax

open Cyjax.Polynomial MvPolynomial

/-! ## C43 -/

/-- C43: the polynomial built from real coefficients, symbolic coefficients and powers has the given
names, indices and parameters and evaluates to
`∑ c, coeffs c * (product of its symbolic coefficients) * ∏ v i, v_i ^ powers v c i`. -/
theorem C43_from_coeffs {M : ℕ} (coeffs : Fin M → ℂ) (powers : Powers M) (ps : Fin M → List Sym)
    (md : Meta) (hm : md.WF) (hr : ∀ c, (coeffs c).im = 0) (hps : ∀ c, ∀ p ∈ ps c, p ∈ md.params)
    (hc : Compatible (md.vars.map fun v => some (varPolys v)) powers) (R : PolyObj)
    (hR : fromCoeffs coeffs powers ps md = .ok R) :
    R.md = md ∧ ∀ ρ : Sym → ℂ, R.callAt ρ = .ok (∑ c, coeffs c * ((ps c).map ρ).prod *
      monSpec ((md.vars.map fun v => (varSymbols v).map ρ).map some) powers c) := by
  rw [fromCoeffs_eq coeffs powers ps md hm.paramsNodup hps hc] at hR
  split_ifs at hR
  cases hR
  refine ⟨rfl, fun ρ => ?_⟩
  have hmem := (mem_polysIn _ _).1 (coeffsPoly_mem coeffs powers ps md hps)
  have hreal := coeffsPoly_real coeffs powers ps md hr
  rw [← eval_coeffsPoly]
  generalize coeffsPoly coeffs powers ps md = p at *
  exact callAt_ok ⟨md, p, p.vars.toList.filter (fun s => s ∉ md.params)⟩ hm hmem hreal ρ

/-- C43: it succeeds when the polynomial depends on at least one variable. -/
theorem C43_from_coeffs_succeeds {M : ℕ} (coeffs : Fin M → ℂ) (powers : Powers M) (ps : Fin M → List Sym)
    (md : Meta) (hm : md.WF) (hps : ∀ c, ∀ p ∈ ps c, p ∈ md.params)
    (hc : Compatible (md.vars.map fun v => some (varPolys v)) powers)
    (hv : ∃ ρ ρ' : Sym → ℂ, (∀ p ∈ md.params, ρ p = ρ' p) ∧
      (∑ c, coeffs c * ((ps c).map ρ).prod *
        monSpec ((md.vars.map fun v => (varSymbols v).map ρ).map some) powers c) ≠
      (∑ c, coeffs c * ((ps c).map ρ').prod *
        monSpec ((md.vars.map fun v => (varSymbols v).map ρ').map some) powers c)) :
    ∃ R, fromCoeffs coeffs powers ps md = .ok R := by
  rw [fromCoeffs_eq coeffs powers ps md hm.paramsNodup hps hc]
  split_ifs with h
  · exfalso
    obtain ⟨ρ, ρ', h1, h2⟩ := hv
    rw [← eval_coeffsPoly, ← eval_coeffsPoly] at h2
    apply h2
    refine eval₂Hom_congr' rfl (fun s hs _ => ?_) rfl
    apply h1
    rw [List.filter_eq_nil_iff] at h
    simpa using h s (Finset.mem_toList.2 hs)
  · exact ⟨_, rfl⟩

/-- C43: a symbolic coefficient that is not among the parameters raises. -/
theorem C43_unknown_parameter {M : ℕ} (coeffs : Fin M → ℂ) (powers : Powers M) (ps : Fin M → List Sym)
    (md : Meta) (c : Fin M) (p : Sym) (hp : p ∈ ps c) (hn : p ∉ md.params) :
    fromCoeffs coeffs powers ps md = .error .keyError := by
  unfold fromCoeffs
  have h1 : paramCoeff md.params (coeffs c) (ps c) = none := by
    unfold paramCoeff
    rw [Option.map_eq_none_iff]
    have h2 : (dictIndex md.params p).bind (fun k => md.params[k]?) = none := by
      unfold dictIndex
      rw [(dictGet_none _).2]
      · rfl
      · rw [List.zipIdx_map_fst]; exact hn
    generalize ps c = l at hp
    induction l with
    | nil => simp at hp
    | cons a l ih =>
      rw [List.mapM_cons]
      rcases List.mem_cons.1 hp with rfl | hp
      · rw [h2]; rfl
      · rw [ih hp]
        cases (dictIndex md.params a).bind (fun k => md.params[k]?) <;> rfl
  have h3 : (List.finRange M).mapM (fun c => paramCoeff md.params (coeffs c) (ps c)) = none := by
    have hc : c ∈ List.finRange M := List.mem_finRange c
    generalize List.finRange M = l at hc
    induction l with
    | nil => simp at hc
    | cons a l ih =>
      rw [List.mapM_cons]
      rcases List.mem_cons.1 hc with rfl | hc
      · rw [h1]; rfl
      · rw [ih hc]
        cases paramCoeff md.params (coeffs a) (ps a) <;> rfl
  rw [h3]

/-- `2*z0**3 + a*psi*z5*x` with parameters listed in either order. -/
example (ρ : Sym → ℂ) : ∃ R : PolyObj, fromCoeffs (M := 2) (fun c => if c = 0 then 2 else 1)
    [some (fun c => if c = 0 then [3, 0, 0] else [0, 0, 1]), some (fun c => if c = 0 then [0] else [1])]
    (fun c => if c = 0 then [] else ["a".toList, "psi".toList]) exampleMeta = .ok R ∧
    R.callAt ρ = .ok (2 * ρ (mergeSubscript "z".toList 0) ^ 3 +
      ρ "a".toList * ρ "psi".toList * ρ (mergeSubscript "z".toList 5) * ρ "x".toList) := by
  have hps : ∀ c : Fin 2, ∀ p ∈ (if c = 0 then [] else ["a".toList, "psi".toList]), p ∈ exampleMeta.params := by
    decide
  have hc : Compatible (M := 2) (exampleMeta.vars.map fun v => some (varPolys v))
      [some (fun c => if c = 0 then [3, 0, 0] else [0, 0, 1]),
        some (fun c => if c = 0 then [0] else [1])] := by
    simp only [Compatible, exampleMeta, List.map_cons, List.map_nil, List.forall₂_cons,
      List.Forall₂.nil, and_true]
    constructor
    · rintro p' h
      simp only [Option.some.injEq] at h
      subst h
      refine ⟨_, rfl, fun c => ?_⟩
      fin_cases c <;> simp [varPolys, varSymbols]
    · rintro p' h
      simp only [Option.some.injEq] at h
      subst h
      refine ⟨_, rfl, fun c => ?_⟩
      fin_cases c <;> simp [varPolys, varSymbols]
  obtain ⟨R, hR⟩ := C43_from_coeffs_succeeds (M := 2) (fun c => if c = 0 then 2 else 1)
    [some (fun c => if c = 0 then [3, 0, 0] else [0, 0, 1]), some (fun c => if c = 0 then [0] else [1])]
    (fun c => if c = 0 then [] else ["a".toList, "psi".toList]) exampleMeta exampleMeta_wf hps hc
    ⟨fun s => if s = mergeSubscript "z".toList 0 then 1 else 0, fun _ => 0, by
      intro p hp
      have hd : ∀ p ∈ exampleMeta.params, p ≠ mergeSubscript "z".toList 0 := by decide
      simp only [if_neg (hd p hp)], by
      have h1 : ['x'] ≠ mergeSubscript ['z'] 0 := by decide
      simp [exampleMeta, monSpec, entryProd, varSymbols, Finset.prod_range_succ, h1]⟩
  refine ⟨R, hR, ?_⟩
  rw [(C43_from_coeffs _ _ _ exampleMeta exampleMeta_wf (by intro c; fin_cases c <;> simp) hps hc R hR).2 ρ]
  congr 1
  simp [exampleMeta, monSpec, entryProd, varSymbols, Finset.prod_range_succ]
  ring

/-! ## C44 -/

/-- C44, the part that holds: a polynomial with real coefficients, in which the parameters occur at most
linearly and some variable occurs, is reproduced from what `to_coeffs_and_powers` returns: same names,
indices and parameters, and the same value at every input. Missing: complex coefficients (see
`C44_complex_violated`) and polynomials without variables (see `C44_constant_violated`). -/
theorem C44_roundtrip_partial (P : PolyObj) (hwf : P.md.WF) (hd : P.Declared) (hr : RealCoeffs P.poly)
    (hl : LinearParams P) (hg : ∀ s ∈ P.poly.vars, s ∉ P.md.params → s ∈ P.gens)
    (hv : ∃ s ∈ P.poly.vars, s ∉ P.md.params) :
    ∃ M coeffs ps powers R, toCoeffs P = .ok ⟨M, coeffs, ps, powers⟩ ∧
      fromCoeffs coeffs powers ps P.md = .ok R ∧ R.md = P.md ∧ R.poly = P.poly ∧
      ∀ ρ, R.callAt ρ = P.callAt ρ := by
  obtain ⟨M, coeffs, ps, powers, h1, h2, h3, h4⟩ := toCoeffs_rebuild P hwf hd hr hl hg
  have hf := fromCoeffs_eq coeffs powers ps P.md hwf.paramsNodup h2 h3
  rw [h4, if_neg] at hf
  · exact ⟨M, coeffs, ps, powers, _, h1, hf, rfl, rfl, fun ρ => rfl⟩
  · obtain ⟨s, hs, hsp⟩ := hv
    intro h
    rw [List.filter_eq_nil_iff] at h
    exact hsp (by simpa using h s (Finset.mem_toList.2 hs))

/-- C44 is violated for polynomials without variables (constants, or parameters only): they can be
taken apart, but rebuilding them raises. -/
theorem C44_constant_violated (P : PolyObj) (hwf : P.md.WF) (hd : P.Declared) (hr : RealCoeffs P.poly)
    (hl : LinearParams P) (hv : ∀ s ∈ P.poly.vars, s ∈ P.md.params) :
    ∃ M coeffs ps powers, toCoeffs P = .ok ⟨M, coeffs, ps, powers⟩ ∧
      fromCoeffs coeffs powers ps P.md = .error .polynomialError := by
  obtain ⟨M, coeffs, ps, powers, h1, h2, h3, h4⟩ := toCoeffs_rebuild P hwf hd hr hl
    (fun s hs h => absurd (hv s hs) h)
  refine ⟨M, coeffs, ps, powers, h1, ?_⟩
  rw [fromCoeffs_eq coeffs powers ps P.md hwf.paramsNodup h2 h3, h4, if_pos]
  rw [List.filter_eq_nil_iff]
  intro s hs
  simpa using hv s (Finset.mem_toList.1 hs)

/-- `psi * z5**2 + 3` as an object. -/
noncomputable def examplePoly : PolyObj :=
  ⟨exampleMeta, X "psi".toList * X (mergeSubscript "z".toList 5) ^ 2 + C 3, exampleMeta.varSyms⟩

theorem examplePoly_declared : examplePoly.Declared := by
  rw [declared_iff]
  refine Subalgebra.add_mem _ (Subalgebra.mul_mem _ (X_mem_polysIn _ _ ?_)
    (Subalgebra.pow_mem _ (X_mem_polysIn _ _ ?_) _)) (C_mem_polysIn _ _) <;> decide

theorem examplePoly_real : RealCoeffs examplePoly.poly :=
  ((realCoeffs_X _).mul ((realCoeffs_X _).pow 2)).add (realCoeffs_C _ (by simp))

theorem examplePoly_eq : examplePoly.poly =
    monomial (Finsupp.single "psi".toList 1 + Finsupp.single (mergeSubscript "z".toList 5) 2) 1 +
      monomial 0 3 := by
  simp only [examplePoly]
  rw [← mul_one (1 : ℂ), ← monomial_mul, ← X_pow_eq_monomial, pow_one]
  congr 1
  rw [X_pow_eq_monomial]

theorem examplePoly_support (m : Sym →₀ ℕ) (hm : m ∈ examplePoly.poly.support) :
    m = Finsupp.single "psi".toList 1 + Finsupp.single (mergeSubscript "z".toList 5) 2 ∨ m = 0 := by
  classical
  rw [examplePoly_eq] at hm
  rcases Finset.mem_union.1 (support_add hm) with h | h
  · left; simpa using support_monomial_subset h
  · right; simpa using support_monomial_subset h

example : LinearParams examplePoly ∧ (∃ s ∈ examplePoly.poly.vars, s ∉ examplePoly.md.params) ∧
    ∀ s ∈ examplePoly.poly.vars, s ∉ examplePoly.md.params → s ∈ examplePoly.gens := by
  refine ⟨?_, ?_, ?_⟩
  · intro m hm s hs
    rcases examplePoly_support m hm with rfl | rfl
    · have h1 : ∀ s ∈ exampleMeta.params, s ≠ mergeSubscript "z".toList 5 := by decide
      have h2 := h1 s hs
      rw [Finsupp.add_apply, Finsupp.single_eq_of_ne h2, add_zero, Finsupp.single_apply]
      split_ifs <;> omega
    · simp
  · refine ⟨mergeSubscript "z".toList 5, ?_, by decide⟩
    rw [mem_vars_iff_mem_support]
    refine ⟨Finsupp.single "psi".toList 1 + Finsupp.single (mergeSubscript "z".toList 5) 2, ?_, ?_⟩
    · rw [mem_support_iff, examplePoly_eq, coeff_add, coeff_monomial, coeff_monomial, if_pos rfl, if_neg]
      · simp
      · intro h
        have := DFunLike.congr_fun h (mergeSubscript "z".toList 5)
        simp at this
    · rw [Finsupp.mem_support_iff]
      simp
  · intro s hs hp
    have := examplePoly_declared s hs
    rw [Meta.allSymbols, List.mem_append] at this
    rcases this with h | h
    · exact h
    · exact absurd h hp

/-- C44 is violated for complex coefficients: `2j * z0` comes back as `1j * z0`. -/
theorem C44_complex_violated :
    let z0 : Sym := mergeSubscript "z".toList 0
    let P : PolyObj := ⟨⟨[("z".toList, some [0])], []⟩, monomial (Finsupp.single z0 1) (2 * Complex.I), [z0]⟩
    ∃ M coeffs ps powers R, toCoeffs P = .ok ⟨M, coeffs, ps, powers⟩ ∧
      fromCoeffs coeffs powers ps P.md = .ok R ∧
      R.poly = monomial (Finsupp.single z0 1) Complex.I ∧ R.poly ≠ P.poly := by
  intro z0 P
  set P' : PolyObj := ⟨P.md, monomial (Finsupp.single z0 1) 1, P.gens⟩ with hP'
  have h2I : (2 * Complex.I : ℂ) ≠ 0 := by simp
  have hsup : P.poly.support.toList = [Finsupp.single z0 1] := by
    simp only [P]
    rw [support_monomial, if_neg h2I, Finset.toList_singleton]
  have hne : P.poly ≠ 0 := by
    simp only [P]; rw [ne_eq, monomial_eq_zero]; exact h2I
  set t : Term := ⟨Complex.I, [], P.md.vars.map (powerEntry P.gens (Finsupp.single z0 1))⟩ with ht
  have hall : allTerms P = .ok [t] := by
    unfold allTerms
    rw [if_neg hne, hsup, List.mapM_cons, List.mapM_nil]
    have : addTerm P (coeff (Finsupp.single z0 1) P.poly) (Finsupp.single z0 1) = .ok [t] := by
      have hc : coeff (Finsupp.single z0 1) P.poly = 2 * Complex.I := by
        simp only [P]; rw [coeff_monomial, if_pos rfl]
      rw [hc]
      unfold addTerm
      simp only [P, termParams]
      rw [if_neg (by simp), if_pos trivial, if_pos (by simp)]
    rw [this]
    rfl
  have hto : toCoeffs P = .ok ⟨1, fun c => [t][c].coeff, fun c => [t][c].params, returnedPowers 1 [t]⟩ := by
    unfold toCoeffs
    rw [hall]
    rfl
  have hwf : P.md.params.Nodup := by simp [P]
  have hcomp := compatible_returned P [t] (fun u hu => by
    rw [List.mem_singleton] at hu; subst hu; exact ⟨Finsupp.single z0 1, rfl⟩)
  have hpoly : coeffsPoly (fun c : Fin 1 => [t][c].coeff) (returnedPowers 1 [t]) (fun c => [t][c].params) P.md =
      monomial (Finsupp.single z0 1) Complex.I := by
    unfold coeffsPoly
    rw [Fin.sum_univ_one]
    have := monSpec_returned P [t] 0 (Finsupp.single z0 1) rfl
    change C Complex.I * 1 * monSpec ((P.md.vars.map varPolys).map some) (returnedPowers 1 [t]) 0 = _
    rw [mul_one]
    refine (congrArg _ this).trans ?_
    have he : termProd P (Finsupp.single z0 1) = X z0 := by
      simp only [termProd, P, List.map_cons, List.map_nil, List.prod_cons, List.prod_nil, mul_one]
      simp [entryProd, varPolys, powerEntry, varSymbols, z0]
    rw [he, C_mul_X_eq_monomial]
  have hfrom := fromCoeffs_eq (fun c : Fin 1 => [t][c].coeff) (returnedPowers 1 [t]) (fun c => [t][c].params)
    P.md hwf (by intro c p hp; fin_cases c; simp [t] at hp) hcomp
  rw [hpoly, if_neg] at hfrom
  · refine ⟨1, _, _, _, _, hto, hfrom, rfl, ?_⟩
    simp only [P]
    intro h
    have := congrArg (coeff (Finsupp.single z0 1)) h
    rw [coeff_monomial, coeff_monomial, if_pos rfl, if_pos rfl] at this
    have := congrArg Complex.im this
    simp at this
  · intro h
    rw [vars_monomial Complex.I_ne_zero, Finsupp.support_single _ one_ne_zero,
      Finset.toList_singleton] at h
    simp [P] at h

/-- C44 is violated also if real and imaginary part are there: `(1 + 2j) * z0` comes back as `(1 + 1j) * z0`. -/
theorem C44_complex_sum_violated :
    let z0 : Sym := mergeSubscript "z".toList 0
    let P : PolyObj := ⟨⟨[("z".toList, some [0])], []⟩, monomial (Finsupp.single z0 1) (1 + 2 * Complex.I), [z0]⟩
    ∃ M coeffs ps powers R, toCoeffs P = .ok ⟨M, coeffs, ps, powers⟩ ∧
      fromCoeffs coeffs powers ps P.md = .ok R ∧
      R.poly = monomial (Finsupp.single z0 1) (1 + Complex.I) ∧ R.poly ≠ P.poly := by
  intro z0 P
  have h2I : (1 + 2 * Complex.I : ℂ) ≠ 0 := by
    intro h
    have := congrArg Complex.im h
    simp at this
  have h1I : (1 + Complex.I : ℂ) ≠ 0 := by
    intro h
    have := congrArg Complex.im h
    simp at this
  have hsup : P.poly.support.toList = [Finsupp.single z0 1] := by
    simp only [P]
    rw [support_monomial, if_neg h2I, Finset.toList_singleton]
  have hne : P.poly ≠ 0 := by
    simp only [P]; rw [ne_eq, monomial_eq_zero]; exact h2I
  obtain ⟨t, ht⟩ : ∃ t : Term, t = ⟨Complex.I, [], P.md.vars.map (powerEntry P.gens (Finsupp.single z0 1))⟩ := ⟨_, rfl⟩
  obtain ⟨t', ht'⟩ : ∃ t : Term, t = ⟨1, [], P.md.vars.map (powerEntry P.gens (Finsupp.single z0 1))⟩ := ⟨_, rfl⟩
  have hall : allTerms P = .ok [t', t] := by
    unfold allTerms
    rw [if_neg hne, hsup, List.mapM_cons, List.mapM_nil]
    have : addTerm P (coeff (Finsupp.single z0 1) P.poly) (Finsupp.single z0 1) = .ok [t', t] := by
      have hc : coeff (Finsupp.single z0 1) P.poly = 1 + 2 * Complex.I := by
        simp only [P]; rw [coeff_monomial, if_pos rfl]
      rw [hc, ht, ht']
      unfold addTerm
      simp only [P, termParams]
      rw [if_neg (by simp), if_pos trivial, if_neg (by simp)]
      simp
    rw [this]
    rfl
  have hto : toCoeffs P = .ok ⟨2, fun c => [t', t][c].coeff, fun c => [t', t][c].params, returnedPowers 1 [t', t]⟩ := by
    unfold toCoeffs
    rw [hall]
    rfl
  have hwf : P.md.params.Nodup := by simp [P]
  have hcomp := compatible_returned P [t', t] (fun u hu => by
    simp only [List.mem_cons, List.not_mem_nil, or_false] at hu
    rcases hu with rfl | rfl
    · exact ⟨Finsupp.single z0 1, by rw [ht']⟩
    · exact ⟨Finsupp.single z0 1, by rw [ht]⟩)
  have he : termProd P (Finsupp.single z0 1) = X z0 := by
    simp only [termProd, P, List.map_cons, List.map_nil, List.prod_cons, List.prod_nil, mul_one]
    simp [entryProd, varPolys, powerEntry, varSymbols, z0]
  have hpoly : coeffsPoly (fun c : Fin 2 => [t', t][c].coeff) (returnedPowers 1 [t', t]) (fun c => [t', t][c].params) P.md =
      monomial (Finsupp.single z0 1) (1 + Complex.I) := by
    unfold coeffsPoly
    rw [Fin.sum_univ_two]
    have e0 := monSpec_returned P [t', t] 0 (Finsupp.single z0 1) (by change t'.powers = _; rw [ht'])
    have e1 := monSpec_returned P [t', t] 1 (Finsupp.single z0 1) (by change t.powers = _; rw [ht])
    change C t'.coeff * (t'.params.map X).prod * monSpec ((P.md.vars.map varPolys).map some) (returnedPowers 1 [t', t]) 0 +
      C t.coeff * (t.params.map X).prod * monSpec ((P.md.vars.map varPolys).map some) (returnedPowers 1 [t', t]) 1 = _
    have e0' : monSpec ((P.md.vars.map varPolys).map some) (returnedPowers 1 [t', t]) (0 : Fin 2) = X z0 := e0.trans he
    have e1' : monSpec ((P.md.vars.map varPolys).map some) (returnedPowers 1 [t', t]) (1 : Fin 2) = X z0 := e1.trans he
    rw [ht, ht'] at e0' e1' ⊢
    simp only [List.map_nil, List.prod_nil, mul_one]
    refine (congrArg₂ (fun a b => C 1 * a + C Complex.I * b) e0' e1').trans ?_
    rw [← add_mul, ← C_add, C_mul_X_eq_monomial]
  have hfrom := fromCoeffs_eq (fun c : Fin 2 => [t', t][c].coeff) (returnedPowers 1 [t', t]) (fun c => [t', t][c].params)
    P.md hwf (by intro c p hp; fin_cases c <;> simp [ht, ht'] at hp) hcomp
  rw [hpoly, if_neg] at hfrom
  · refine ⟨2, _, _, _, _, hto, hfrom, rfl, ?_⟩
    simp only [P]
    intro h
    have := congrArg (coeff (Finsupp.single z0 1)) h
    rw [coeff_monomial, coeff_monomial, if_pos rfl, if_pos rfl] at this
    have := congrArg Complex.im this
    simp at this
  · intro h
    rw [vars_monomial h1I, Finsupp.support_single _ one_ne_zero,
      Finset.toList_singleton] at h
    simp [P] at h

private theorem mapM_typeError {α : Type} (f : α → Except PyErr (List Term)) (l : List α) (x : α) (hx : x ∈ l)
    (hf : f x = .error .typeError) (h : ∀ y e, f y = .error e → e = .typeError) : l.mapM f = .error .typeError := by
  induction l with
  | nil => simp at hx
  | cons a l ih =>
    rw [List.mapM_cons]
    cases ha : f a with
    | error e =>
      rw [h a e ha]
      rfl
    | ok b =>
      have : x ∈ l := by
        rcases List.mem_cons.1 hx with rfl | hx
        · rw [ha] at hf; cases hf
        · exact hx
      rw [ih this]
      rfl

private theorem addTerm_error (P : PolyObj) (c : ℂ) (m : Sym →₀ ℕ) (e : PyErr) (h : addTerm P c m = .error e) :
    e = .typeError := by
  unfold addTerm at h
  cases hp : termParams m P.md.params with
  | none => simp only [hp] at h; cases h; rfl
  | some ps =>
    simp only [hp] at h
    split_ifs at h
    cases h
    rfl

private theorem termParams_none (m : Sym →₀ ℕ) (ps : List Sym) (p : Sym) (hp : p ∈ ps) (h : 2 ≤ m p) : termParams m ps = none := by
  induction ps with
  | nil => simp at hp
  | cons a ps ih =>
    unfold termParams
    rcases List.mem_cons.1 hp with rfl | hp
    · rw [if_neg (by omega), if_neg (by omega)]
    · rw [ih hp]
      split_ifs <;> rfl

private theorem termParams_ne_nil (m : Sym →₀ ℕ) (ps : List Sym) (p : Sym) (hp : p ∈ ps) (h : m p ≠ 0) (r : List Sym)
    (hr : termParams m ps = some r) : r ≠ [] := by
  induction ps generalizing r with
  | nil => simp at hp
  | cons a ps ih =>
    unfold termParams at hr
    split_ifs at hr with h1 h2
    · rcases List.mem_cons.1 hp with rfl | hp
      · exact absurd h1 h
      · exact ih hp r hr
    · cases hc : termParams m ps with
      | none => rw [hc] at hr; cases hr
      | some r' => rw [hc] at hr; cases hr; simp

private theorem toCoeffs_error (P : PolyObj) (m : Sym →₀ ℕ) (hm : m ∈ P.poly.support)
    (h : addTerm P (coeff m P.poly) m = .error .typeError) : toCoeffs P = .error .typeError := by
  have hne : P.poly ≠ 0 := by
    intro h0
    rw [h0] at hm
    simp at hm
  unfold toCoeffs allTerms
  rw [if_neg hne, mapM_typeError (fun m => addTerm P (coeff m P.poly) m) _ m (Finset.mem_toList.2 hm) h fun y e he => addTerm_error P _ y e he]
  rfl

/-- C44 is violated if a parameter occurs with a power: the coefficients cannot be split at all. -/
theorem C44_power_violated (P : PolyObj) (m : Sym →₀ ℕ) (hm : m ∈ P.poly.support) (p : Sym) (hp : p ∈ P.md.params)
    (h : 2 ≤ m p) : toCoeffs P = .error .typeError := by
  refine toCoeffs_error P m hm ?_
  unfold addTerm
  simp only [termParams_none m _ p hp h]

/-- C44 is violated if a number with real and imaginary part multiplies a parameter: the coefficients cannot be split at all. -/
theorem C44_complex_parameter_violated (P : PolyObj) (m : Sym →₀ ℕ) (hm : m ∈ P.poly.support) (p : Sym) (hp : p ∈ P.md.params)
    (h : m p ≠ 0) (hre : (coeff m P.poly).re ≠ 0) (him : (coeff m P.poly).im ≠ 0) : toCoeffs P = .error .typeError := by
  refine toCoeffs_error P m hm ?_
  unfold addTerm
  cases hr : termParams m P.md.params with
  | none => rfl
  | some r => simp only [if_neg him, if_neg (termParams_ne_nil m _ p hp h r hr), if_neg hre]

/-- `psi**2 * z0` and `(1 + 2j) * psi * z0` meet the hypotheses. -/
example : ∃ P Q : PolyObj, (∃ m ∈ P.poly.support, ∃ p ∈ P.md.params, 2 ≤ m p) ∧
    ∃ m ∈ Q.poly.support, ∃ p ∈ Q.md.params, m p ≠ 0 ∧ (coeff m Q.poly).re ≠ 0 ∧ (coeff m Q.poly).im ≠ 0 := by
  have hI : (1 + 2 * Complex.I : ℂ) ≠ 0 := by
    intro h
    have := congrArg Complex.im h
    simp at this
  have hpsi : "psi".toList ∈ exampleMeta.params := by decide
  obtain ⟨m, hm⟩ : ∃ m, m = Finsupp.single "psi".toList 2 + Finsupp.single (mergeSubscript "z".toList 0) 1 := ⟨_, rfl⟩
  obtain ⟨m', hm'⟩ : ∃ m, m = Finsupp.single "psi".toList 1 + Finsupp.single (mergeSubscript "z".toList 0) 1 := ⟨_, rfl⟩
  refine ⟨⟨exampleMeta, monomial m 1, exampleMeta.varSyms⟩, ⟨exampleMeta, monomial m' (1 + 2 * Complex.I), exampleMeta.varSyms⟩,
    ⟨m, ?_, "psi".toList, hpsi, ?_⟩, ⟨m', ?_, "psi".toList, hpsi, ?_, ?_, ?_⟩⟩
  · rw [mem_support_iff, coeff_monomial, if_pos rfl]
    exact one_ne_zero
  · rw [hm]
    simp
  · rw [mem_support_iff, coeff_monomial, if_pos rfl]
    exact hI
  · rw [hm']
    simp
  · rw [coeff_monomial, if_pos rfl]
    simp
  · rw [coeff_monomial, if_pos rfl]
    simp

/-! ## C45 -/

/-- Common part of the three operations. -/
theorem combine_value (P Q : PolyObj) (hP : P.md.WF) (hQ : Q.md.WF) (hPd : P.Declared) (hQd : Q.Declared)
    (hc : NoClash P.md Q.md) (md : Meta) (hmd : combineMeta P.md Q.md = .ok md)
    (p : MvPolynomial Sym ℂ) (gens : List Sym) (hr : RealCoeffs p)
    (hp : ∀ S : Subalgebra ℂ (MvPolynomial Sym ℂ), P.poly ∈ S → Q.poly ∈ S → p ∈ S) (ρ : Sym → ℂ) :
    (PolyObj.mk md p gens).callAt ρ = .ok (eval ρ p) := by
  obtain ⟨h1, _⟩ := combineMeta_ok P.md Q.md md hP hQ hc hmd
  have hs := combineMeta_allSymbols P.md Q.md md hP hQ hc hmd
  refine callAt_ok _ h1 ((declared_iff _).2 ?_) hr ρ
  exact hp _ (polysIn_mono (fun s h => (hs s).2 (Or.inl h)) ((declared_iff P).1 hPd))
    (polysIn_mono (fun s h => (hs s).2 (Or.inr h)) ((declared_iff Q).1 hQd))

/-- C45: sum, difference and product evaluate pointwise, at every assignment of numbers to symbols. -/
theorem C45_arithmetic (P Q : PolyObj) (hP : P.md.WF) (hQ : Q.md.WF) (hPd : P.Declared) (hQd : Q.Declared)
    (hPr : RealCoeffs P.poly) (hQr : RealCoeffs Q.poly) (hk : SameKind P.md Q.md) (hc : NoClash P.md Q.md)
    (ρ : Sym → ℂ) : ∃ x y A S M, P.callAt ρ = .ok x ∧ Q.callAt ρ = .ok y ∧
      P.add Q = .ok A ∧ A.callAt ρ = .ok (x + y) ∧
      P.sub Q = .ok S ∧ S.callAt ρ = .ok (x - y) ∧
      P.mul Q = .ok M ∧ M.callAt ρ = .ok (x * y) := by
  obtain ⟨vars, hv⟩ := mergeVars_succeeds Q.md.vars P.md.vars hk hQ.namesNodup
  obtain ⟨md, hmd⟩ : ∃ md, combineMeta P.md Q.md = .ok md := by
    unfold combineMeta; rw [hv]; exact ⟨_, rfl⟩
  refine ⟨_, _, ⟨md, P.poly + Q.poly, combineGens P.gens Q.gens⟩,
    ⟨md, P.poly - Q.poly, combineGens P.gens Q.gens⟩, ⟨md, P.poly * Q.poly, combineGens P.gens Q.gens⟩,
    callAt_ok P hP hPd hPr ρ, callAt_ok Q hQ hQd hQr ρ, ?_, ?_, ?_, ?_, ?_, ?_⟩
  · unfold PolyObj.add; rw [hmd]
  · rw [combine_value P Q hP hQ hPd hQd hc md hmd _ _ (hPr.add hQr) (fun S h1 h2 => S.add_mem h1 h2) ρ,
      map_add]
  · unfold PolyObj.sub; rw [hmd]
  · rw [combine_value P Q hP hQ hPd hQd hc md hmd _ _ (hPr.sub hQr) (fun S h1 h2 => S.sub_mem h1 h2) ρ,
      map_sub]
  · unfold PolyObj.mul; rw [hmd]
  · rw [combine_value P Q hP hQ hPd hQd hc md hmd _ _ (hPr.mul hQr) (fun S h1 h2 => S.mul_mem h1 h2) ρ,
      map_mul]

/-- C45: the result has the variables of the left operand followed by the new ones of the right operand,
likewise for the parameters, and accepts exactly the symbols of both. Sorted indices stay
sorted, and the result is again well-formed. -/
theorem C45_metadata (P Q : PolyObj) (hP : P.md.WF) (hQ : Q.md.WF) (hc : NoClash P.md Q.md) (R : PolyObj)
    (hR : P.add Q = .ok R ∨ P.sub Q = .ok R ∨ P.mul Q = .ok R) :
    R.md.WF ∧ R.md.names = P.md.names ++ Q.md.names.filter (fun n => n ∉ P.md.names) ∧
    R.md.params = P.md.params ++ Q.md.params.filter (fun p => p ∉ P.md.params) ∧
    (∀ s, s ∈ R.md.varSyms ↔ s ∈ P.md.varSyms ∨ s ∈ Q.md.varSyms) ∧
    ((∀ v ∈ P.md.vars, ∀ inds, v.2 = some inds → inds.Pairwise (· ≤ ·)) →
      (∀ v ∈ Q.md.vars, ∀ inds, v.2 = some inds → inds.Pairwise (· ≤ ·)) →
      ∀ v ∈ R.md.vars, ∀ inds, v.2 = some inds → inds.Pairwise (· < ·)) := by
  have hmd : combineMeta P.md Q.md = .ok R.md := by
    unfold PolyObj.add PolyObj.sub PolyObj.mul at hR
    cases h : combineMeta P.md Q.md with
    | error e => rw [h] at hR; simp at hR
    | ok md =>
      rw [h] at hR
      simp only [Except.ok.injEq] at hR
      rcases hR with rfl | rfl | rfl <;> rfl
  obtain ⟨h1, h2, h3, h4⟩ := combineMeta_ok P.md Q.md R.md hP hQ hc hmd
  refine ⟨h1, h2, h3, h4, fun hs1 hs2 v hv inds hinds => ?_⟩
  have hle : inds.Pairwise (· ≤ ·) := by
    unfold combineMeta at hmd
    simp only at hmd
    cases hmv : mergeVars P.md.vars Q.md.vars with
    | error e => rw [hmv] at hmd; cases hmd
    | ok vars =>
      rw [hmv] at hmd
      simp only [Except.ok.injEq] at hmd
      rw [← hmd] at hv
      exact mergeVars_sorted Q.md.vars P.md.vars vars hmv hs1 hs2 v hv inds hinds
  have hnd := h1.indsNodup v hv inds hinds
  exact (hle.and hnd).imp fun h => lt_of_le_of_ne h.1 h.2

/-- C45: a name used as a scalar in one operand and as an array in the other is rejected. -/
theorem C45_mixed_rejected (P Q : PolyObj) (hP : P.md.WF) (h : ¬ SameKind P.md Q.md) :
    (∃ e, P.add Q = .error e) ∧ (∃ e, P.sub Q = .error e) ∧ (∃ e, P.mul Q = .error e) := by
  unfold SameKind at h
  push Not at h
  obtain ⟨v, hv, w, hw, hvw, hk⟩ := h
  obtain ⟨e, he⟩ := mergeVars_fails Q.md.vars P.md.vars v w hv hw hvw hk hP.namesNodup
  have : combineMeta P.md Q.md = .error e := by
    unfold combineMeta; rw [he]
  unfold PolyObj.add PolyObj.sub PolyObj.mul
  rw [this]
  exact ⟨⟨e, rfl⟩, ⟨e, rfl⟩, ⟨e, rfl⟩⟩

/-- `z3 + a*y`, with index set overlapping that of `examplePoly` in nothing but the name. -/
noncomputable def examplePoly2 : PolyObj :=
  ⟨⟨[("z".toList, some [3, 5]), ("y".toList, none)], ["a".toList]⟩,
    X (mergeSubscript "z".toList 3) + X "a".toList * X "y".toList,
    [mergeSubscript "z".toList 3, mergeSubscript "z".toList 5, "y".toList]⟩

theorem examplePoly2_wf : examplePoly2.md.WF where
  namesNodup := by decide
  good := by decide
  indsNodup := by
    intro v hv inds h
    simp only [examplePoly2, List.mem_cons, List.not_mem_nil, or_false] at hv
    rcases hv with rfl | rfl
    · simp at h; subst h; decide
    · simp at h
  paramsNodup := by decide
  params := by
    intro s hs
    simp only [examplePoly2, List.mem_cons, List.not_mem_nil, or_false] at hs
    subst hs
    exact ⟨_, _, splitSubscript_good _ (by decide), by decide⟩

theorem examplePoly2_declared : examplePoly2.Declared := by
  rw [declared_iff]
  refine Subalgebra.add_mem _ (X_mem_polysIn _ _ ?_) (Subalgebra.mul_mem _ (X_mem_polysIn _ _ ?_)
    (X_mem_polysIn _ _ ?_)) <;> decide

example (ρ : Sym → ℂ) : ∃ A, examplePoly.add examplePoly2 = .ok A ∧ A.md.vars =
    [("z".toList, some [0, 2, 3, 5]), ("x".toList, none), ("y".toList, none)] ∧
    A.md.params = ["psi".toList, "a".toList] ∧
    A.callAt ρ = .ok (ρ "psi".toList * ρ (mergeSubscript "z".toList 5) ^ 2 + 3 +
      (ρ (mergeSubscript "z".toList 3) + ρ "a".toList * ρ "y".toList)) := by
  have hreal2 : RealCoeffs examplePoly2.poly :=
    (realCoeffs_X _).add ((realCoeffs_X _).mul (realCoeffs_X _))
  obtain ⟨x, y, A, S, M, h1, h2, h3, h4, _⟩ := C45_arithmetic examplePoly examplePoly2 exampleMeta_wf
    examplePoly2_wf examplePoly_declared examplePoly2_declared examplePoly_real hreal2
    (by unfold SameKind; decide)
    (by
      constructor
      · intro s hs name ix he
        simp only [examplePoly, exampleMeta, List.mem_cons, List.not_mem_nil, or_false] at hs
        rcases hs with rfl | rfl <;>
        · rw [splitSubscript_good _ (by decide)] at he
          cases he
          decide
      · intro s hs name ix he
        simp only [examplePoly2, List.mem_cons, List.not_mem_nil, or_false] at hs
        subst hs
        rw [splitSubscript_good _ (by decide)] at he
        cases he
        decide) ρ
  have hmeta : combineMeta examplePoly.md examplePoly2.md = .ok
      ⟨[("z".toList, some [0, 2, 3, 5]), ("x".toList, none), ("y".toList, none)],
        ["psi".toList, "a".toList]⟩ := by
    have hu : unionIndices [0, 2, 5] [3, 5] = [0, 2, 3, 5] := by
      simp [unionIndices, unionLoop, fetch, addIfNew]
    simp [combineMeta, mergeVars, mergeVar, examplePoly, examplePoly2, exampleMeta, List.findIdx?_cons, hu]
  refine ⟨A, h3, ?_, ?_, ?_⟩
  · unfold PolyObj.add at h3; rw [hmeta] at h3; cases h3; rfl
  · unfold PolyObj.add at h3; rw [hmeta] at h3; cases h3; rfl
  · rw [h4]
    rw [callAt_ok _ exampleMeta_wf examplePoly_declared examplePoly_real] at h1
    rw [callAt_ok _ examplePoly2_wf examplePoly2_declared hreal2] at h2
    cases h1
    cases h2
    simp [examplePoly, examplePoly2]

/-! ## C46 -/

/-- C46: differentiating with respect to a generator gives a polynomial with the same call signature
whose value is the partial derivative of the value of the polynomial. -/
theorem C46_diff_partial (P D : PolyObj) (s : Sym) (hm : P.md.WF) (hd : P.Declared) (hr : RealCoeffs P.poly)
    (hD : P.diff s = .ok D) (ρ : Sym → ℂ) :
    D.md = P.md ∧ ∃ (f : ℂ → ℂ) (f' : ℂ), (∀ t, P.callAt (Function.update ρ s t) = .ok (f t)) ∧
      D.callAt ρ = .ok f' ∧ HasDerivAt f f' (ρ s) := by
  unfold PolyObj.diff at hD
  split_ifs at hD
  cases hD
  refine ⟨rfl, fun t => eval (Function.update ρ s t) P.poly, eval ρ (pderiv s P.poly),
    fun t => callAt_ok P hm hd hr _, ?_, hasDerivAt_eval P.poly s ρ⟩
  exact callAt_ok ⟨P.md, pderiv s P.poly, P.gens⟩ hm
    ((mem_polysIn _ _).1 (pderiv_mem_polysIn _ s _ ((declared_iff P).1 hd))) (realCoeffs_pderiv _ _ hr) ρ

/-- C46: it succeeds for every generator (after `from_sympy`: every variable). -/
theorem C46_diff_succeeds (P : PolyObj) (s : Sym) (h : s ∈ P.gens) : ∃ D, P.diff s = .ok D := by
  unfold PolyObj.diff; rw [if_pos h]; exact ⟨_, rfl⟩

/-- C46 is violated: for a polynomial built by `from_coeffs_and_powers`, differentiating with respect to
a declared variable that does not occur raises, instead of giving zero. -/
theorem C46_absent_variable_violated {M : ℕ} (coeffs : Fin M → ℂ) (powers : Powers M)
    (ps : Fin M → List Sym) (md : Meta) (hm : md.WF) (hps : ∀ c, ∀ p ∈ ps c, p ∈ md.params)
    (hc : Compatible (md.vars.map fun v => some (varPolys v)) powers) (P : PolyObj)
    (hP : fromCoeffs coeffs powers ps md = .ok P) (s : Sym) (hs : s ∉ P.poly.vars) :
    P.diff s = .error .polynomialError ∧ pderiv s P.poly = 0 := by
  refine ⟨?_, pderiv_eq_zero_of_notMem_vars hs⟩
  rw [fromCoeffs_eq coeffs powers ps md hm.paramsNodup hps hc] at hP
  split_ifs at hP
  cases hP
  unfold PolyObj.diff
  rw [if_neg]
  intro h
  exact hs (Finset.mem_toList.1 (List.mem_filter.1 h).1)

example (ρ : Sym → ℂ) : ∃ D, examplePoly.diff (mergeSubscript "z".toList 5) = .ok D ∧
    D.callAt ρ = .ok (2 * ρ "psi".toList * ρ (mergeSubscript "z".toList 5)) := by
  obtain ⟨D, hD⟩ := C46_diff_succeeds examplePoly (mergeSubscript "z".toList 5) (by decide)
  refine ⟨D, hD, ?_⟩
  obtain ⟨_, f, f', h1, h2, h3⟩ := C46_diff_partial examplePoly D _ exampleMeta_wf examplePoly_declared
    examplePoly_real hD ρ
  rw [h2]
  congr 1
  have hf : f = fun t => ρ "psi".toList * t ^ 2 + 3 := by
    funext t
    have := h1 t
    rw [callAt_ok _ exampleMeta_wf examplePoly_declared examplePoly_real] at this
    have hne : "psi".toList ≠ mergeSubscript "z".toList 5 := by decide
    simp only [examplePoly, map_add, map_mul, map_pow, eval_X, eval_C, Function.update_self,
      Function.update_of_ne hne, Except.ok.injEq] at this
    exact this.symm
  rw [hf] at h3
  have h4 : HasDerivAt (fun t : ℂ => ρ "psi".toList * t ^ 2 + 3)
      (ρ "psi".toList * (2 * ρ (mergeSubscript "z".toList 5))) (ρ (mergeSubscript "z".toList 5)) := by
    have := ((hasDerivAt_pow 2 (ρ (mergeSubscript "z".toList 5))).const_mul (ρ "psi".toList)).add_const 3
    simpa using this
  rw [h3.unique h4]
  ring

/-! ## C47 -/

/-- C47, provided another variable is left (see `C47_single_violated`): the returned list has `degree + 1` entries, each of them can be evaluated at the remaining
variables, does not depend on `x`, and the univariate polynomial with these coefficients (highest
order first) evaluated at `x` is the value of the polynomial. -/
theorem C47_univariate_partial (P : PolyObj) (x : Sym) (hx : x ∉ P.md.params)
    (hx' : ∃ s ∈ P.md.varSyms, s ≠ x) (hm : P.md.WF) (hd : P.Declared) (hr : RealCoeffs P.poly) : ∃ cs, univariateCoefficients P x = .ok cs ∧
      cs.length = degreeOf x P.poly + 1 ∧
      ∀ ρ : Sym → ℂ, ∃ vals : List ℂ, List.Forall₂ (fun u v => u.callAt ρ = .ok v) cs vals ∧
        (∀ t, List.Forall₂ (fun u v => u.callAt (Function.update ρ x t) = .ok v) cs vals) ∧
        P.callAt ρ = .ok (polyval vals (ρ x)) := by
  have hcall : ∀ (k : ℕ) (ρ : Sym → ℂ), UCoeff.callAt ρ (if (uniCoeff P.poly x k).vars = ∅ then
      .num (constantCoeff (uniCoeff P.poly x k)) else
      .poly ⟨constMeta P.md x, uniCoeff P.poly x k, (constMeta P.md x).varSyms⟩) =
      .ok (eval ρ (uniCoeff P.poly x k)) := by
    intro k ρ
    split_ifs with h
    · simp only [UCoeff.callAt]
      rw [vars_eq_empty_iff_eq_C] at h
      rw [h]
      simp
    · simp only [UCoeff.callAt]
      refine callAt_ok _ (constMeta_wf _ hm x) ?_ (uniCoeff_real _ hr _ _) ρ
      intro s hs
      obtain ⟨h1, h2⟩ := uniCoeff_vars P.poly x k s hs
      have := hd s h1
      simp only [Meta.allSymbols, List.mem_append] at this ⊢
      exact this.imp (fun h => (constMeta_varSyms _ _ _).2 ⟨h, h2⟩) id
  unfold univariateCoefficients
  rw [if_neg hx, if_neg (fun h => constMeta_vars_ne P.md x hx' h.1)]
  refine ⟨_, rfl, by simp, fun ρ => ⟨(List.range (degreeOf x P.poly + 1)).reverse.map
    (fun k => eval ρ (uniCoeff P.poly x k)), ?_, ?_, ?_⟩⟩
  · rw [List.forall₂_map_left_iff, List.forall₂_map_right_iff, List.forall₂_same]
    intro k _
    exact hcall k ρ
  · intro t
    rw [List.forall₂_map_left_iff, List.forall₂_map_right_iff, List.forall₂_same]
    intro k _
    rw [hcall k]
    congr 1
    refine eval₂Hom_congr' rfl (fun s hs _ => ?_) rfl
    rw [Function.update_of_ne (uniCoeff_vars P.poly x k s hs).2]
  · rw [callAt_ok P hm hd hr ρ, polyval_reverse_range]
    congr 1
    conv_lhs => rw [← sum_uniCoeff P.poly x]
    simp

/-- C47: the leading entry is not the zero polynomial (unless the polynomial is zero), so the list is
exactly as long as needed. -/
theorem C47_leading_partial (P : PolyObj) (x : Sym) (hx : x ∉ P.md.params)
    (hx' : ∃ s ∈ P.md.varSyms, s ≠ x) (hm : P.md.WF) (hd : P.Declared) (hr : RealCoeffs P.poly)
    (h0 : P.poly ≠ 0) : ∃ c cs, univariateCoefficients P x = .ok (c :: cs) ∧
      ∃ ρ, ∃ v ≠ 0, c.callAt ρ = .ok v := by
  obtain ⟨cs, h1, h2, h3⟩ := C47_univariate_partial P x hx hx' hm hd hr
  rcases cs with _ | ⟨c, cs⟩
  · simp at h2
  · refine ⟨c, cs, h1, ?_⟩
    have hlead := uniCoeff_leading P.poly h0 x
    obtain ⟨ρ, hρ⟩ : ∃ ρ, eval ρ (uniCoeff P.poly x (degreeOf x P.poly)) ≠ 0 := by
      by_contra hcon
      push Not at hcon
      exact hlead (MvPolynomial.funext fun ρ => by rw [hcon ρ, map_zero])
    refine ⟨ρ, _, hρ, ?_⟩
    unfold univariateCoefficients at h1
    rw [if_neg hx, if_neg (fun h => constMeta_vars_ne P.md x hx' h.1), List.range_succ, List.reverse_append] at h1
    simp only [List.reverse_cons, List.reverse_nil, List.nil_append, List.cons_append, List.map_cons,
      Except.ok.injEq, List.cons.injEq] at h1
    rw [← h1.1]
    split_ifs with h
    · simp only [UCoeff.callAt]
      rw [vars_eq_empty_iff_eq_C] at h
      rw [h]
      simp
    · simp only [UCoeff.callAt]
      refine callAt_ok _ (constMeta_wf _ hm x) ?_ (uniCoeff_real _ hr _ _) ρ
      intro s hs
      obtain ⟨h1, h2⟩ := uniCoeff_vars P.poly x _ s hs
      have := hd s h1
      simp only [Meta.allSymbols, List.mem_append] at this ⊢
      exact this.imp (fun h => (constMeta_varSyms _ _ _).2 ⟨h, h2⟩) id

/-- C47 is violated if `x` is the only variable: as soon as a parameter occurs, the call raises. -/
theorem C47_single_violated (P : PolyObj) (x : Sym) (hx : ∀ s ∈ P.md.varSyms, s = x) (s : Sym) (hs : s ∈ P.poly.vars) (hsx : s ≠ x) :
    univariateCoefficients P x = .error .assertionError := by
  unfold univariateCoefficients
  by_cases h : x ∈ P.md.params
  · rw [if_pos h]
  rw [if_neg h, if_pos]
  refine ⟨constMeta_vars_eq_nil P.md x hx, ?_⟩
  obtain ⟨m, hm, hms⟩ := (mem_vars_iff_mem_support s).1 hs
  refine ⟨m x, ?_, ?_⟩
  · rw [degreeOf_eq_sup]
    exact Finset.le_sup (f := fun m : Sym →₀ ℕ => m x) hm
  · intro h0
    have : s ∈ (uniCoeff P.poly x (m x)).vars := by
      rw [mem_vars_iff_mem_support]
      refine ⟨m.erase x, ?_, ?_⟩
      · rw [mem_support_iff, coeff_uniCoeff_erase P.poly x m]
        exact mem_support_iff.1 hm
      · rw [Finsupp.mem_support_iff, Finsupp.erase_ne hsx]
        exact Finsupp.mem_support_iff.1 hms
    rw [h0] at this
    simp at this

/-- `a*x**2 + 1` with the parameter `a`. -/
example : univariateCoefficients ⟨⟨[("x".toList, none)], ["a".toList]⟩,
    X "a".toList * X "x".toList ^ 2 + 1, ["x".toList]⟩ "x".toList = .error .assertionError := by
  refine C47_single_violated _ _ (by decide) "a".toList ?_ (by decide)
  rw [mem_vars_iff_mem_support]
  refine ⟨Finsupp.single "a".toList 1 + Finsupp.single "x".toList 2, ?_, ?_⟩
  · rw [mem_support_iff, coeff_add]
    have h1 : (X "a".toList * X "x".toList ^ 2 : MvPolynomial Sym ℂ) =
        monomial (Finsupp.single "a".toList 1 + Finsupp.single "x".toList 2) 1 := by
      rw [X, X_pow_eq_monomial, monomial_mul, one_mul]
    rw [h1, coeff_monomial, if_pos rfl, coeff_one, if_neg]
    · simp
    · intro h
      have := congrArg (fun f => f "a".toList) h
      simp at this
  · simp

/-- C47: a parameter is rejected. -/
theorem C47_parameter_rejected (P : PolyObj) (x : Sym) (hx : x ∈ P.md.params) :
    univariateCoefficients P x = .error .assertionError := by
  unfold univariateCoefficients; rw [if_pos hx]

example : ∃ cs, univariateCoefficients examplePoly (mergeSubscript "z".toList 5) = .ok cs :=
  (C47_univariate_partial examplePoly (mergeSubscript "z".toList 5) (by decide) (by decide) exampleMeta_wf examplePoly_declared
    examplePoly_real).imp fun _ h => h.1

end Cyjax
