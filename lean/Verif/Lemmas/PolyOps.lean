import Verif.Lemmas.Poly
import Verif.Lemmas.UnionIndices
import Mathlib.Algebra.MvPolynomial.Supported
import Mathlib.Data.Complex.BigOperators
import Mathlib.Analysis.Calculus.Deriv.Mul
import Mathlib.Analysis.Calculus.Deriv.Add

namespace Cyjax.Polynomial

open MvPolynomial

/-! ## Closure of real coefficients -/

theorem realCoeffs_iff (p : MvPolynomial Sym ℂ) : RealCoeffs p ↔ map (starRingEnd ℂ) p = p := by
  constructor
  · intro h
    ext m
    rw [coeff_map]
    exact Complex.conj_eq_iff_im.2 (h m)
  · intro h m
    rw [← Complex.conj_eq_iff_im, ← coeff_map, h]

theorem RealCoeffs.add {p q : MvPolynomial Sym ℂ} (hp : RealCoeffs p) (hq : RealCoeffs q) :
    RealCoeffs (p + q) := by
  rw [realCoeffs_iff] at *; rw [map_add, hp, hq]

theorem RealCoeffs.sub {p q : MvPolynomial Sym ℂ} (hp : RealCoeffs p) (hq : RealCoeffs q) :
    RealCoeffs (p - q) := by
  rw [realCoeffs_iff] at *; rw [map_sub, hp, hq]

theorem RealCoeffs.mul {p q : MvPolynomial Sym ℂ} (hp : RealCoeffs p) (hq : RealCoeffs q) :
    RealCoeffs (p * q) := by
  rw [realCoeffs_iff] at *; rw [map_mul, hp, hq]

theorem RealCoeffs.pow {p : MvPolynomial Sym ℂ} (hp : RealCoeffs p) (n : ℕ) : RealCoeffs (p ^ n) := by
  rw [realCoeffs_iff] at *; rw [map_pow, hp]

theorem realCoeffs_C (c : ℂ) (h : c.im = 0) : RealCoeffs (C c) := by
  rw [realCoeffs_iff, map_C, Complex.conj_eq_iff_im.2 h]

theorem realCoeffs_one : RealCoeffs 1 := by rw [realCoeffs_iff, map_one]
theorem realCoeffs_zero : RealCoeffs 0 := by rw [realCoeffs_iff, map_zero]
theorem realCoeffs_X (s : Sym) : RealCoeffs (X s) := by rw [realCoeffs_iff, map_X]

theorem realCoeffs_sum {ι : Type*} (t : Finset ι) (f : ι → MvPolynomial Sym ℂ)
    (h : ∀ i ∈ t, RealCoeffs (f i)) : RealCoeffs (∑ i ∈ t, f i) := by
  classical
  induction t using Finset.induction_on with
  | empty => simpa using realCoeffs_zero
  | insert a t ha ih =>
    rw [Finset.sum_insert ha]
    exact (h a (Finset.mem_insert_self a t)).add (ih fun i hi => h i (Finset.mem_insert_of_mem hi))

theorem realCoeffs_prod {ι : Type*} (t : Finset ι) (f : ι → MvPolynomial Sym ℂ)
    (h : ∀ i ∈ t, RealCoeffs (f i)) : RealCoeffs (∏ i ∈ t, f i) := by
  classical
  induction t using Finset.induction_on with
  | empty => simpa using realCoeffs_one
  | insert a t ha ih =>
    rw [Finset.prod_insert ha]
    exact (h a (Finset.mem_insert_self a t)).mul (ih fun i hi => h i (Finset.mem_insert_of_mem hi))

theorem realCoeffs_listProd (l : List (MvPolynomial Sym ℂ)) (h : ∀ p ∈ l, RealCoeffs p) :
    RealCoeffs l.prod := by
  induction l with
  | nil => simpa using realCoeffs_one
  | cons a l ih =>
    rw [List.prod_cons]
    exact (h a List.mem_cons_self).mul (ih fun p hp => h p (List.mem_cons_of_mem _ hp))

theorem realCoeffs_pderiv (p : MvPolynomial Sym ℂ) (s : Sym) (h : RealCoeffs p) :
    RealCoeffs (pderiv s p) := by
  rw [realCoeffs_iff] at *; rw [← pderiv_map, h]

/-! ## Declared symbols as a subalgebra -/

/-- Polynomials in a list of symbols. -/
noncomputable def polysIn (S : List Sym) : Subalgebra ℂ (MvPolynomial Sym ℂ) := supported ℂ {s | s ∈ S}

theorem mem_polysIn (S : List Sym) (p : MvPolynomial Sym ℂ) : p ∈ polysIn S ↔ ∀ s ∈ p.vars, s ∈ S := by
  unfold polysIn
  rw [mem_supported]
  rfl

theorem declared_iff (P : PolyObj) : P.Declared ↔ P.poly ∈ polysIn P.md.allSymbols :=
  (mem_polysIn _ _).symm

theorem X_mem_polysIn (S : List Sym) (s : Sym) (h : s ∈ S) : (X s : MvPolynomial Sym ℂ) ∈ polysIn S :=
  X_mem_supported.2 h

theorem C_mem_polysIn (S : List Sym) (c : ℂ) : (C c : MvPolynomial Sym ℂ) ∈ polysIn S :=
  (polysIn S).algebraMap_mem c

theorem polysIn_mono {S S' : List Sym} (h : ∀ s ∈ S, s ∈ S') {p : MvPolynomial Sym ℂ}
    (hp : p ∈ polysIn S) : p ∈ polysIn S' := by
  rw [mem_polysIn] at *
  exact fun s hs => h s (hp s hs)

theorem pderiv_mem_polysIn (S : List Sym) (s : Sym) (p : MvPolynomial Sym ℂ) (hp : p ∈ polysIn S) :
    pderiv s p ∈ polysIn S := by
  rw [mem_polysIn] at *
  intro t ht
  rw [mem_vars_iff_mem_support] at ht
  obtain ⟨d, hd, htd⟩ := ht
  rw [mem_support_iff, coeff_pderiv] at hd
  have h1 : coeff (d + Finsupp.single s 1) p ≠ 0 := by
    intro h; rw [h] at hd; simp at hd
  apply hp
  rw [mem_vars_iff_mem_support]
  refine ⟨_, mem_support_iff.2 h1, ?_⟩
  rw [Finsupp.mem_support_iff] at htd ⊢
  simp only [Finsupp.add_apply]
  omega

/-! ## `from_coeffs_and_powers` -/

theorem mapM_option {α β : Type*} (f : α → Option β) (g : α → β) (l : List α)
    (h : ∀ x ∈ l, f x = some (g x)) : l.mapM f = some (l.map g) := by
  induction l with
  | nil => rfl
  | cons a l ih =>
    rw [List.mapM_cons, h a List.mem_cons_self, ih fun x hx => h x (List.mem_cons_of_mem _ hx)]
    rfl

theorem paramCoeff_ok (params : List Sym) (hp : params.Nodup) (c : ℂ) (ps : List Sym)
    (h : ∀ p ∈ ps, p ∈ params) : paramCoeff params c ps = some (C c * (ps.map X).prod) := by
  unfold paramCoeff
  rw [mapM_option _ id ps]
  · rw [Option.map_some, prod_eq, List.map_id]
  · intro p hps
    obtain ⟨k, hk, rfl⟩ := List.getElem_of_mem (h p hps)
    rw [dictIndex_of_getElem _ hp k hk, Option.bind_some, List.getElem?_eq_getElem hk]
    rfl

theorem entryProd_map {R R' : Type*} [CommSemiring R] [CommSemiring R'] (f : R →+* R') (v : List R)
    (p : List ℕ) : f (entryProd v p) = entryProd (v.map f) p := by
  unfold entryProd
  rw [map_prod, List.length_map]
  apply Finset.prod_congr rfl
  intro i hi
  rw [map_pow]
  congr 1
  rw [Finset.mem_range] at hi
  simp [List.getD_eq_getElem?_getD, hi]

theorem monSpec_map {R R' : Type*} [CommSemiring R] [CommSemiring R'] (f : R →+* R') {M : ℕ}
    (values : List (List R)) (powers : Powers M) (c : Fin M) :
    f (monSpec (values.map some) powers c) = monSpec ((values.map (List.map f)).map some) powers c := by
  unfold monSpec
  induction values generalizing powers with
  | nil => simp
  | cons v values ih =>
    cases powers with
    | nil => simp
    | cons p powers =>
      simp only [List.map_cons, List.zip_cons_cons, List.prod_cons, map_mul]
      rw [ih]
      congr 1
      cases p with
      | none => simp
      | some p => simp only [entryProd_map]

/-- Polynomial built by `from_coeffs_and_powers`. -/
noncomputable def coeffsPoly {M : ℕ} (coeffs : Fin M → ℂ) (powers : Powers M) (ps : Fin M → List Sym)
    (md : Meta) : MvPolynomial Sym ℂ :=
  ∑ c, C (coeffs c) * ((ps c).map X).prod * monSpec ((md.vars.map varPolys).map some) powers c

theorem fromCoeffs_eq {M : ℕ} (coeffs : Fin M → ℂ) (powers : Powers M) (ps : Fin M → List Sym)
    (md : Meta) (hp : md.params.Nodup) (hps : ∀ c, ∀ p ∈ ps c, p ∈ md.params)
    (hc : Compatible (md.vars.map fun v => some (varPolys v)) powers) :
    fromCoeffs coeffs powers ps md =
      if (coeffsPoly coeffs powers ps md).vars.toList.filter (fun s => s ∉ md.params) = [] then
        .error .polynomialError
      else .ok ⟨md, coeffsPoly coeffs powers ps md,
        (coeffsPoly coeffs powers ps md).vars.toList.filter (fun s => s ∉ md.params)⟩ := by
  unfold fromCoeffs
  rw [mapM_option _ (fun c => C (coeffs c) * ((ps c).map X).prod) _
    (fun c _ => paramCoeff_ok _ hp _ _ (hps c))]
  simp only
  have hm : monSymbolic (md.vars.map fun v => some (varPolys v))
      (fun c : Fin M => ((List.finRange M).map (fun c => C (coeffs c) * ((ps c).map X).prod)).getD c 0)
      powers = some (fun c => C (coeffs c) * ((ps c).map X).prod *
        monSpec ((md.vars.map varPolys).map some) powers c) := by
    unfold monSymbolic
    rw [monLoop_prod _ (by
      intro v p acc h
      funext c
      rw [powProd_eq v (p c) (h c)]) _ powers hc]
    rw [Option.map_some]
    congr 1
    funext c
    simp [List.map_map, Function.comp_def, List.getD_eq_getElem?_getD]
  rw [hm]
  rfl

theorem monSpec_mem {M : ℕ} (S : List Sym) (values : List (List (MvPolynomial Sym ℂ)))
    (h : ∀ v ∈ values, ∀ p ∈ v, p ∈ polysIn S) (powers : Powers M) (c : Fin M) :
    monSpec (values.map some) powers c ∈ polysIn S := by
  unfold monSpec
  apply Subalgebra.list_prod_mem
  intro q hq
  obtain ⟨⟨v, p⟩, hvp, rfl⟩ := List.mem_map.1 hq
  obtain ⟨v', hv', rfl⟩ := List.mem_map.1 (List.of_mem_zip hvp).1
  cases p with
  | none => exact (polysIn S).one_mem
  | some p =>
    simp only [entryProd]
    apply Subalgebra.prod_mem
    intro i hi
    rw [Finset.mem_range] at hi
    apply Subalgebra.pow_mem
    rw [List.getD_eq_getElem?_getD, List.getElem?_eq_getElem hi]
    exact h v' hv' _ (List.getElem_mem hi)

theorem monSpec_real {M : ℕ} (values : List (List (MvPolynomial Sym ℂ)))
    (h : ∀ v ∈ values, ∀ p ∈ v, RealCoeffs p) (powers : Powers M) (c : Fin M) :
    RealCoeffs (monSpec (values.map some) powers c) := by
  unfold monSpec
  apply realCoeffs_listProd
  intro q hq
  obtain ⟨⟨v, p⟩, hvp, rfl⟩ := List.mem_map.1 hq
  obtain ⟨v', hv', rfl⟩ := List.mem_map.1 (List.of_mem_zip hvp).1
  cases p with
  | none => exact realCoeffs_one
  | some p =>
    simp only [entryProd]
    apply realCoeffs_prod
    intro i hi
    rw [Finset.mem_range] at hi
    apply RealCoeffs.pow
    rw [List.getD_eq_getElem?_getD, List.getElem?_eq_getElem hi]
    exact h v' hv' _ (List.getElem_mem hi)

theorem coeffsPoly_mem {M : ℕ} (coeffs : Fin M → ℂ) (powers : Powers M) (ps : Fin M → List Sym)
    (md : Meta) (hps : ∀ c, ∀ p ∈ ps c, p ∈ md.params) :
    coeffsPoly coeffs powers ps md ∈ polysIn md.allSymbols := by
  unfold coeffsPoly
  apply Subalgebra.sum_mem
  intro c _
  refine Subalgebra.mul_mem _ (Subalgebra.mul_mem _ (C_mem_polysIn _ _) ?_) ?_
  · apply Subalgebra.list_prod_mem
    intro q hq
    obtain ⟨p, hp, rfl⟩ := List.mem_map.1 hq
    exact X_mem_polysIn _ _ (List.mem_append_right _ (hps c p hp))
  · apply monSpec_mem
    intro v hv p hp
    obtain ⟨w, hw, rfl⟩ := List.mem_map.1 hv
    obtain ⟨s, hs, rfl⟩ := List.mem_map.1 hp
    exact X_mem_polysIn _ _ (List.mem_append_left _ (List.mem_flatMap.2 ⟨w, hw, hs⟩))

theorem coeffsPoly_real {M : ℕ} (coeffs : Fin M → ℂ) (powers : Powers M) (ps : Fin M → List Sym)
    (md : Meta) (hr : ∀ c, (coeffs c).im = 0) : RealCoeffs (coeffsPoly coeffs powers ps md) := by
  unfold coeffsPoly
  apply realCoeffs_sum
  intro c _
  refine ((realCoeffs_C _ (hr c)).mul (realCoeffs_listProd _ ?_)).mul (monSpec_real _ ?_ _ _)
  · intro q hq
    obtain ⟨p, hp, rfl⟩ := List.mem_map.1 hq
    exact realCoeffs_X p
  · intro v hv p hp
    obtain ⟨w, hw, rfl⟩ := List.mem_map.1 hv
    obtain ⟨s, hs, rfl⟩ := List.mem_map.1 hp
    exact realCoeffs_X s

theorem eval_coeffsPoly {M : ℕ} (coeffs : Fin M → ℂ) (powers : Powers M) (ps : Fin M → List Sym)
    (md : Meta) (ρ : Sym → ℂ) : eval ρ (coeffsPoly coeffs powers ps md) =
      ∑ c, coeffs c * ((ps c).map ρ).prod *
        monSpec ((md.vars.map fun v => (varSymbols v).map ρ).map some) powers c := by
  unfold coeffsPoly
  rw [map_sum]
  apply Finset.sum_congr rfl
  intro c _
  rw [map_mul, map_mul, eval_C, map_list_prod, List.map_map, monSpec_map]
  congr 2
  · congr 2
    funext s; simp
  · have hv : (List.map (eval ρ) ∘ varPolys) = fun v => (varSymbols v).map ρ := by
      funext v
      simp only [Function.comp_apply, varPolys, List.map_map]
      apply List.map_congr_left
      intro s _
      simp
    rw [← hv]
    simp only [List.map_map]

/-! ## `diff` -/

theorem hasDerivAt_eval (p : MvPolynomial Sym ℂ) (s : Sym) (ρ : Sym → ℂ) :
    HasDerivAt (fun t => eval (Function.update ρ s t) p) (eval ρ (pderiv s p)) (ρ s) := by
  induction p using MvPolynomial.induction_on with
  | C a => simpa using hasDerivAt_const (ρ s) a
  | add p q hp hq =>
    have h := hp.add hq
    simp only [map_add]
    exact h
  | mul_X p t hp =>
    have hX : HasDerivAt (fun u => Function.update ρ s u t) (eval ρ (pderiv s (X t))) (ρ s) := by
      by_cases h : t = s
      · subst h; simpa using hasDerivAt_id' (ρ t)
      · rw [pderiv_X_of_ne h]
        simpa [Function.update_of_ne h] using hasDerivAt_const (ρ s) (ρ t)
    have := hp.mul hX
    simp only [Function.update_eq_self] at this
    simp only [pderiv_mul, map_add, map_mul, eval_X]
    exact this

end Cyjax.Polynomial
