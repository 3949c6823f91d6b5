import Verif.Spec.VarietyFromSympy
import Verif.Spec.Samplable
import Verif.Lemmas.VarietyFromSympy

/-! # `VarietySingle.from_sympy` (C117) -/

namespace Cyjax

open Cyjax.Spec Cyjax.Polynomial Cyjax.Variety MvPolynomial

section

variable {name : List Char} {m e d : ℕ} {p : MvPolynomial Sym ℂ} {free : List Sym} {params : Option (List Sym)}

omit p free name d params in
/-- **C117.** Varieties are over a single projective space: polynomials in no or several variables are rejected, all others are
accepted unchanged. -/
theorem C117_single (h : HomKind) :
    (∀ v, h.md.vars = [v] → mkVariety h = .ok h) ∧ ((∀ v, h.md.vars ≠ [v]) → mkVariety h = .error .assertionError) := by
  constructor
  · intro v hv
    simp [mkVariety, hv]
  · intro hv
    unfold mkVariety
    rw [if_neg]
    intro h1
    obtain ⟨v, hv'⟩ := List.length_eq_one_iff.1 h1
    exact hv v hv'

/-- **C117.** The argument documented as the degree of the defining equation is the number of homogeneous coordinates:
whatever the expression, a variety that is returned has `poly_degree` coordinates and dimension `poly_degree - 2`. -/
theorem C117_dim (hnd : free.Nodup) (V : HomKind) (hV : varietyFromSympy p free name d params = .ok V) :
    dimComplex V = .ok d ∧ dimProjective V = .ok (d - 1) ∧ dimVariety V = .ok (d - 2) := by
  unfold varietyFromSympy at hV
  cases hP : fromSympy (vArgs name d params) p free with
  | error err => rw [hP] at hV; cases hV
  | ok P =>
    rw [hP] at hV
    unfold mkVariety at hV
    simp only at hV
    split_ifs at hV with h1
    cases hV
    obtain ⟨-, app, hmd, -⟩ := fromSympy_ok (ns := [name]) rfl hnd vArgs_noMix hP
    have : dimComplex (.generic P) = .ok d := by
      have hv : (HomKind.generic P).md.vars = [(name, some (List.range d))] := by
        change P.md.vars = _
        rw [hmd]
        simp [finishMeta, stateOf, indsOf]
      simp [dimComplex, hv]
    refine ⟨this, ?_, ?_⟩
    · simp [dimProjective, this]
    · simp [dimVariety, dimProjective, this]
      ring

/-- **C117.** If a coordinate with an index of at least `poly_degree` occurs, the call raises. -/
theorem C117_index (hnd : free.Nodup) (s : Sym) (hs : s ∈ free) (hsp : s ∉ params.getD []) (i : ℕ)
    (hi : Indexed s name i) (hid : d ≤ i) : ∃ err, varietyFromSympy p free name d params = .error err := by
  unfold varietyFromSympy
  cases hP : fromSympy (vArgs name d params) p free with
  | error err => exact ⟨err, rfl⟩
  | ok P =>
    exfalso
    obtain ⟨hok, -⟩ := fromSympy_ok (ns := [name]) rfl hnd vArgs_noMix hP
    have := hok s hs
    unfold okSym at this
    rw [kind_coord hsp hi] at this
    obtain ⟨l, h1, h2⟩ := this _ rfl
    simp at h1
    subst h1
    simp at h2
    omega

/-- **C117.** If `poly_degree` is the number of homogeneous coordinates, the variety is the one of the expression: its ambient
space has the coordinates `name_0, ..., name_m`, its parameters are the given ones (or else the other symbols of the
expression, sorted), the defining function has the value of the expression, and, unless a parameter has the name of a line
symbol, the variety can be sampled. -/
theorem C117_from_sympy_partial (h : HypersurfaceExpr name m e p free params) (hm : m ≠ 0) :
    ∃ V, varietyFromSympy p free name (m + 1) params = .ok V ∧ dimComplex V = .ok (m + 1) ∧
      (∀ l, params = some l → V.md.params = l) ∧
      (params = none → V.md.params.Pairwise (· ≤ ·) ∧ ∀ s, s ∈ V.md.params ↔ s ∈ free ∧ IsParam name s) ∧
      (∀ (Z : Fin (m + 1) → ℂ) (ps : List ℂ) (σ : Sym → ℂ), V.md.params.map σ = ps →
        (∀ s ∈ free, ∀ i : Fin (m + 1), Indexed s name i → σ s = Z i) →
        defining V (List.ofFn Z) (.vec ps) none = .ok (eval σ p)) ∧
      (LineNames V.md.params → ∀ ps : List ℂ, ps.length = parCount V → Samplable V m e ps) := by
  obtain ⟨P, h1, h2, h3, h4, h5, h6, f, h7, h8, h9⟩ := from_sympy_ok h
  have hgens : P.gens = (List.range (m + 1)).map (mergeSubscript name) := by
    rw [h3, Meta.varSyms, h2.vars, List.flatMap_singleton, varSymbols]
  refine ⟨.generic P, ?_, ?_, h5, h6, ?_, ?_⟩
  · unfold varietyFromSympy
    rw [h1]
    exact if_pos (by simp [HomKind.md, h2.vars])
  · simp [dimComplex, HomKind.md, h2.vars]
  · intro Z ps σ hps hσ
    obtain ⟨ρ, r1, r2⟩ := exists_point h2 Z ps (by rw [← hps]; simp [HomKind.md])
    have h10 := defining_none h2 ρ
    simp only [r1, r2] at h10
    rw [h10, h7, eval_rename]
    refine congrArg Except.ok (eval₂Hom_congr' rfl (fun s hs _ => ?_) rfl)
    have hsf := h.vars s hs
    simp only [Function.comp]
    rcases h.symbols s hsf with ⟨i, hi, h11⟩ | ⟨h11, -⟩
    · rw [h8 s hsf i h11, hσ s hsf ⟨i, by omega⟩ h11, ← r1]
    · rw [h9 s hsf h11]
      have hsP : s ∈ P.md.params := by
        cases hp : params with
        | none => exact ((h6 hp).2 s).2 ⟨hsf, h11⟩
        | some l =>
          rw [h5 l hp]
          rcases h.symbols s hsf with ⟨i, -, h12⟩ | ⟨-, h12⟩
          · exact absurd h12 (isParam_not_indexed h11 i)
          · exact h12 l hp
      have h13 : P.md.params.map ρ = P.md.params.map σ := r2.trans hps.symm
      exact List.map_inj_left.1 h13 s hsP
  · intro hl ps hps
    refine .generic P name m e ps h2 (by rw [h7]; exact homogeneous_rename h f h8 h9) (fun j => ?_) hl hps
    have hgood := h.name_ok.1
    refine ⟨by rw [hgens]; exact List.mem_map.2 ⟨j, List.mem_range.2 j.isLt, rfl⟩, ?_⟩
    obtain ⟨k, hk⟩ : ∃ k : Fin (m + 1), k ≠ j := by
      have : Nontrivial (Fin (m + 1)) := Fin.nontrivial_iff_two_le.2 (by omega)
      exact exists_ne j
    refine ⟨mergeSubscript name k, by rw [hgens]; exact List.mem_map.2 ⟨k, List.mem_range.2 k.isLt, rfl⟩, fun h14 => hk ?_⟩
    exact Fin.ext (merge_inj name name hgood hgood k j h14).2

/-- **C117.** With the degree of the equation as `poly_degree`, as documented, the dimension is wrong whenever the degree is
not the number of coordinates. -/
theorem C117_degree_violated (h : HypersurfaceExpr name m e p free params) (he : e ≠ m + 1) :
    ¬ ∃ V, varietyFromSympy p free name e params = .ok V ∧ dimVariety V = .ok (m - 1) := by
  rintro ⟨V, h1, h2⟩
  have h3 := (C117_dim h.nodup V h1).2.2
  rw [h2] at h3
  simp only [Except.ok.injEq] at h3
  omega

end

/-! ## Examples -/

section

/-- `z0**e + z1**e + z2**e`, as the sum of its terms. -/
noncomputable def powerSum (e : ℕ) : MvPolynomial Sym ℂ :=
  ∑ i : Fin 3, monomial (Finsupp.single (mergeSubscript "z".toList i) e) 1

private theorem powerSum_expr (e m : ℕ) (hm : 2 ≤ m) :
    HypersurfaceExpr "z".toList m e (powerSum e) [mergeSubscript "z".toList 0, mergeSubscript "z".toList 1,
      mergeSubscript "z".toList 2] none := by
  have hz : GoodName "z".toList := by decide
  have hsupp : ∀ mon ∈ (powerSum e).support, ∃ i : Fin 3, mon = Finsupp.single (mergeSubscript "z".toList i) e := by
    intro mon hmon
    rw [mem_support_iff, powerSum, coeff_sum] at hmon
    obtain ⟨i, -, hi⟩ := Finset.exists_ne_zero_of_sum_ne_zero hmon
    refine ⟨i, ?_⟩
    rw [coeff_monomial] at hi
    by_contra hne
    exact hi (if_neg (fun h => hne h.symm))
  have hmem : ∀ i : Fin 3, mergeSubscript "z".toList i ∈ [mergeSubscript "z".toList 0, mergeSubscript "z".toList 1,
      mergeSubscript "z".toList 2] := by
    intro i
    fin_cases i <;> simp
  refine ⟨⟨hz, by decide⟩, by decide, ?_, ?_, ?_, by simp, ?_⟩
  · intro s hs
    obtain ⟨mon, h1, h2⟩ := (mem_vars s).1 hs
    obtain ⟨i, rfl⟩ := hsupp mon h1
    have := Finsupp.support_single_subset h2
    rw [Finset.mem_singleton] at this
    rw [this]
    exact hmem i
  · intro mon
    rw [powerSum, coeff_sum, Complex.im_sum]
    refine Finset.sum_eq_zero fun i _ => ?_
    rw [coeff_monomial]
    split_ifs <;> simp
  · intro s hs
    left
    simp only [List.mem_cons, List.not_mem_nil, or_false] at hs
    rcases hs with rfl | rfl | rfl
    · exact ⟨0, by omega, splitSubscript_merge _ hz 0⟩
    · exact ⟨1, by omega, splitSubscript_merge _ hz 1⟩
    · exact ⟨2, by omega, splitSubscript_merge _ hz 2⟩
  · intro mon hmon
    obtain ⟨i, rfl⟩ := hsupp mon hmon
    exact coordDeg_coord _ hz _ _

/-- The conic `z0**2 + z1**2 + z2**2` with `poly_degree=2`: the call raises. -/
theorem C117_conic_violated : ∃ err, varietyFromSympy (powerSum 2) [mergeSubscript "z".toList 0,
    mergeSubscript "z".toList 1, mergeSubscript "z".toList 2] (polyDegree := 2) = .error err :=
  C117_index (powerSum_expr 2 2 le_rfl).nodup (mergeSubscript "z".toList 2) (by simp) (by simp) 2
    (splitSubscript_merge _ (by decide) 2) le_rfl

/-- The plane quartic curve `z0**4 + z1**4 + z2**4` with `poly_degree=4`: the result is a surface. -/
theorem C117_quartic_violated : ∃ V, varietyFromSympy (powerSum 4) [mergeSubscript "z".toList 0,
    mergeSubscript "z".toList 1, mergeSubscript "z".toList 2] (polyDegree := 4) = .ok V ∧ dimVariety V = .ok 2 := by
  obtain ⟨V, h1, -⟩ := C117_from_sympy_partial (powerSum_expr 4 3 (by omega)) (by omega)
  exact ⟨V, h1, (C117_dim (powerSum_expr 4 3 (by omega)).nodup V h1).2.2⟩

/-- The hypotheses of `C117_from_sympy_partial` with a parameter: `z0**3 + z1**3 + z2**3 - 3*psi*z0*z1*z2`. -/
example : ∃ p, p = powerSum 3 - C 3 * X "psi".toList * (X (mergeSubscript "z".toList 0) * X (mergeSubscript "z".toList 1) *
      X (mergeSubscript "z".toList 2)) ∧
    HypersurfaceExpr "z".toList 2 3 p ["psi".toList, mergeSubscript "z".toList 0, mergeSubscript "z".toList 1,
      mergeSubscript "z".toList 2] none := by
  have hz : GoodName "z".toList := by decide
  have hpsi : IsParam "z".toList "psi".toList :=
    ⟨_, _, splitSubscript_good "psi".toList (by decide), by decide, by simp⟩
  set t : Sym →₀ ℕ := Finsupp.single "psi".toList 1 + (Finsupp.single (mergeSubscript "z".toList 0) 1 +
    Finsupp.single (mergeSubscript "z".toList 1) 1 + Finsupp.single (mergeSubscript "z".toList 2) 1) with ht
  have hprod : C 3 * X "psi".toList * (X (mergeSubscript "z".toList 0) * X (mergeSubscript "z".toList 1) *
      X (mergeSubscript "z".toList 2)) = monomial t (3 : ℂ) := by
    simp only [X, monomial_mul, ht, mul_one, C_apply, zero_add]
  have hS := powerSum_expr 3 2 le_rfl
  refine ⟨_, rfl, ?_⟩
  rw [hprod]
  have hsupp : ∀ mon ∈ (powerSum 3 - monomial t (3 : ℂ)).support, mon ∈ (powerSum 3).support ∨ mon = t := by
    intro mon hmon
    have := support_sub Sym (powerSum 3) (monomial t (3 : ℂ)) hmon
    rw [Finset.mem_union] at this
    rcases this with h | h
    · exact Or.inl h
    · exact Or.inr (Finset.mem_singleton.1 (support_monomial_subset h))
  have htv : ∀ s ∈ t.support, s ∈ ["psi".toList, mergeSubscript "z".toList 0, mergeSubscript "z".toList 1,
      mergeSubscript "z".toList 2] := by
    intro s hs
    by_contra hne
    simp only [List.mem_cons, List.not_mem_nil, or_false, not_or] at hne
    rw [Finsupp.mem_support_iff, ht] at hs
    apply hs
    simp only [Finsupp.add_apply]
    rw [Finsupp.single_eq_of_ne hne.1, Finsupp.single_eq_of_ne hne.2.1, Finsupp.single_eq_of_ne hne.2.2.1,
      Finsupp.single_eq_of_ne hne.2.2.2]
    rfl
  refine ⟨⟨hz, by decide⟩, by decide, ?_, ?_, ?_, by simp, ?_⟩
  · intro s hs
    obtain ⟨mon, h1, h2⟩ := (mem_vars s).1 hs
    rcases hsupp mon h1 with h3 | rfl
    · exact List.mem_cons_of_mem _ (hS.vars s ((mem_vars s).2 ⟨mon, h3, h2⟩))
    · exact htv s h2
  · intro mon
    rw [coeff_sub, Complex.sub_im, hS.real mon, coeff_monomial]
    split_ifs <;> simp
  · intro s hs
    rcases List.mem_cons.1 hs with rfl | hs
    · exact Or.inr ⟨hpsi, by simp⟩
    · exact (hS.symbols s hs).imp_right fun h => ⟨h.1, by simp⟩
  · intro mon hmon
    rcases hsupp mon hmon with h3 | rfl
    · exact hS.homogeneous mon h3
    · change coordDeg _ t = 3
      rw [ht]
      simp only [coordDeg_add, coordDeg_coord _ hz, coordDeg_param _ _ hpsi]

end

end Cyjax
