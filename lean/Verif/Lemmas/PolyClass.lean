import Verif.Model.PolyClass
import Verif.Props.HomPoly
import Verif.Lemmas.SolveDefining

/-! # Lemmas for the classes of polynomial objects -/

namespace Cyjax.Polynomial

open MvPolynomial

/-! ## The keyword `patch` of a plain polynomial -/

theorem kwVariables_patch {α : Type*} (v : α) (names : List (List Char)) (h : patchKey ∉ names) :
    kwVariables [(patchKey, v)] names = kwVariables [] names := by
  cases names with
  | nil => rfl
  | cons n ns =>
    have hn : ¬ patchKey = n := fun e => h (e ▸ List.mem_cons_self)
    simp [kwVariables, dictGet, hn]

theorem sortVarArgs_patch {α : Type*} (len : α → Option ℕ) (names : List (List Char)) (k : ℕ)
    (args : List α) (v : α) (h : patchKey ∉ names) :
    sortVarArgs len names k args [(patchKey, v)] = sortVarArgs len names k args [] := by
  have hk : ¬ patchKey = paramsKey := by decide
  have h1 : dictGet [(patchKey, v)] paramsKey = none := by simp [dictGet, hk]
  have h2 : dictGet ([] : List (List Char × α)) paramsKey = none := rfl
  have h3 : ∀ n, kwVariables [(patchKey, v)] (names.drop n) = kwVariables [] (names.drop n) :=
    fun n => kwVariables_patch v _ (fun hm => h (List.mem_of_mem_drop hm))
  unfold sortVarArgs
  rw [h1, h2]
  simp only
  split_ifs <;> simp only [h3]

theorem call_patch (P : PolyObj) (args : List Val) (v : Val) (h : patchKey ∉ P.md.names) :
    P.call args [(patchKey, v)] = P.call args [] := by
  unfold PolyObj.call callNum
  rw [sortVarArgs_patch _ _ _ _ _ h]

/-! ## Scaling -/

/-- Derivative of the value of a polynomial along the scaling of some of its symbols. -/
theorem hasDerivAt_scale (p : MvPolynomial Sym ℂ) (S : Finset Sym) (ρ : Sym → ℂ) :
    HasDerivAt (fun l : ℂ => eval (fun s => if s ∈ S then l * ρ s else ρ s) p)
      (∑ s ∈ S, ρ s * eval ρ (pderiv s p)) 1 := by
  induction p using MvPolynomial.induction_on with
  | C a => simpa using hasDerivAt_const (1 : ℂ) a
  | add p q hp hq =>
    have h := hp.add hq
    simp only [map_add, mul_add, Finset.sum_add_distrib]
    exact h
  | mul_X p t hp =>
    have hX : HasDerivAt (fun l : ℂ => if t ∈ S then l * ρ t else ρ t) (if t ∈ S then ρ t else 0) 1 := by
      by_cases h : t ∈ S
      · simpa [h] using (hasDerivAt_id' (1 : ℂ)).mul_const (ρ t)
      · simpa [h] using hasDerivAt_const (1 : ℂ) (ρ t)
    have := hp.mul hX
    simp only [one_mul, ite_self] at this
    simp only [map_mul, eval_X]
    refine this.congr_deriv ?_
    simp only [pderiv_mul, map_add, map_mul, eval_X, mul_add, Finset.sum_add_distrib]
    congr 1
    · rw [Finset.sum_mul]
      exact Finset.sum_congr rfl fun s _ => by ring
    · have : ∀ s ∈ S, ρ s * (eval ρ p * eval ρ (pderiv s (X t))) =
          if s = t then eval ρ p * ρ t else 0 := by
        intro s _
        by_cases h : s = t
        · subst h; simp [mul_comm]
        · rw [pderiv_X_of_ne (Ne.symm h)]; simp [h]
      rw [Finset.sum_congr rfl this, Finset.sum_ite_eq']
      split_ifs <;> simp

/-! ## Dwork and Fermat polynomials -/

/-- Coordinates of Dwork and Fermat polynomials. -/
def zSyms (n : ℕ) : List Sym := varSymbols ("z".toList, some (List.range n))

theorem zSyms_length (n : ℕ) : (zSyms n).length = n := by simp [zSyms, varSymbols]

theorem zSyms_get (n i : ℕ) (h : i < (zSyms n).length) : (zSyms n)[i] = mergeSubscript "z".toList i := by
  simp [zSyms, varSymbols]

/-- The common form `∑ z ^ n + q * ∏ z`. -/
noncomputable def diagonal (n : ℕ) (q : MvPolynomial Sym ℂ) : MvPolynomial Sym ℂ :=
  (((zSyms n).map X).map (· ^ n)).sum + q * ((zSyms n).map X).prod

theorem diagonal_mem (n : ℕ) (q : MvPolynomial Sym ℂ) (l : List Sym) (hq : q ∈ polysIn l)
    (hl : ∀ s ∈ zSyms n, s ∈ l) : diagonal n q ∈ polysIn l := by
  refine Subalgebra.add_mem _ (Subalgebra.list_sum_mem _ ?_)
    (Subalgebra.mul_mem _ hq (Subalgebra.list_prod_mem _ ?_))
  · intro r hr
    simp only [List.mem_map] at hr
    obtain ⟨_, ⟨s, hs, rfl⟩, rfl⟩ := hr
    exact Subalgebra.pow_mem _ (X_mem_polysIn _ _ (hl s hs)) _
  · intro r hr
    simp only [List.mem_map] at hr
    obtain ⟨s, hs, rfl⟩ := hr
    exact X_mem_polysIn _ _ (hl s hs)

theorem diagonal_real (n : ℕ) (q : MvPolynomial Sym ℂ) (hq : RealCoeffs q) : RealCoeffs (diagonal n q) := by
  have hreal : ∀ l : List (MvPolynomial Sym ℂ), (∀ q ∈ l, RealCoeffs q) →
      RealCoeffs l.sum ∧ RealCoeffs l.prod := by
    intro l hl
    induction l with
    | nil => exact ⟨by simpa using realCoeffs_C 0 (by simp), by simpa using realCoeffs_C 1 (by simp)⟩
    | cons a l ih =>
      rw [List.sum_cons, List.prod_cons]
      have h := ih (fun q hq => hl q (List.mem_cons_of_mem _ hq))
      exact ⟨(hl a List.mem_cons_self).add h.1, (hl a List.mem_cons_self).mul h.2⟩
  have hpow : ∀ (q : MvPolynomial Sym ℂ) (k : ℕ), RealCoeffs q → RealCoeffs (q ^ k) := by
    intro q k hq
    induction k with
    | zero => rw [pow_zero]; simpa using realCoeffs_C 1 (by simp)
    | succ k ih => rw [pow_succ]; exact ih.mul hq
  refine (hreal _ ?_).1.add (hq.mul (hreal _ ?_).2)
  · intro r hr
    simp only [List.mem_map] at hr
    obtain ⟨_, ⟨s, hs, rfl⟩, rfl⟩ := hr
    exact hpow _ _ (realCoeffs_X _)
  · intro r hr
    simp only [List.mem_map] at hr
    obtain ⟨s, hs, rfl⟩ := hr
    exact realCoeffs_X _

theorem eval_diagonal (n : ℕ) (q : MvPolynomial Sym ℂ) (ρ : Sym → ℂ) :
    eval ρ (diagonal n q) = (((zSyms n).map ρ).map (· ^ n)).sum + eval ρ q * ((zSyms n).map ρ).prod := by
  unfold diagonal
  simp only [map_add, map_mul, map_list_sum, map_list_prod, List.map_map]
  have e1 : List.map (⇑(eval ρ) ∘ (fun x => x ^ n) ∘ X) (zSyms n) =
      List.map ((fun x => x ^ n) ∘ ρ) (zSyms n) := List.map_congr_left fun s _ => by simp
  have e2 : List.map (⇑(eval ρ) ∘ X) (zSyms n) = List.map ρ (zSyms n) :=
    List.map_congr_left fun s _ => by simp
  rw [e1, e2]

theorem z_good : GoodName "z".toList := by decide

/-- Updating a coordinate in the assignment updates it in the list. -/
theorem zSyms_update (n i : ℕ) (ρ : Sym → ℂ) (t : ℂ) :
    (zSyms n).map (Function.update ρ (mergeSubscript "z".toList i) t) = ((zSyms n).map ρ).set i t := by
  apply List.ext_getElem
  · simp
  · intro k hk hk'
    rw [List.getElem_map, List.getElem_set, List.getElem_map, zSyms_get, Function.update_apply]
    by_cases h : i = k
    · subst h; simp
    · rw [if_neg h, if_neg (fun e => h (Variety.mergeSubscript_inj z_good e).symm)]

/-- Derivative of the list form. -/
theorem hasDerivAt_list (z : List ℂ) (n i : ℕ) (hi : i < z.length) (c : ℂ) :
    HasDerivAt (fun t => ((z.set i t).map (· ^ n)).sum + c * (z.set i t).prod)
      (n * z[i] ^ (n - 1) + c * (z.eraseIdx i).prod) z[i] := by
  have h1 : ∀ t : ℂ, ((z.set i t).map (· ^ n)).sum + c * (z.set i t).prod =
      t ^ n + (((z.map (· ^ n)).take i).sum + ((z.map (· ^ n)).drop (i + 1)).sum) +
        c * (t * (z.eraseIdx i).prod) := by
    intro t
    rw [List.map_set, List.sum_set, List.prod_set, if_pos hi, if_pos (by simpa using hi),
      List.eraseIdx_eq_take_drop_succ, List.prod_append]
    ring
  simp only [h1]
  have h2 := ((hasDerivAt_pow n z[i]).add_const
    (((z.map (· ^ n)).take i).sum + ((z.map (· ^ n)).drop (i + 1)).sum)).add
    (((hasDerivAt_id' z[i]).mul_const (z.eraseIdx i).prod).const_mul c)
  simp only [one_mul] at h2
  exact h2

theorem mem_vars_diagonal (n i : ℕ) (hi : i < n) (q : MvPolynomial Sym ℂ)
    (hq : ∃ ρ₀ : Sym → ℂ, (∀ ρ, (∀ s, s ∉ zSyms n → ρ s = ρ₀ s) → eval ρ q = 0)) :
    mergeSubscript "z".toList i ∈ (diagonal n q).vars := by
  by_contra hc
  obtain ⟨ρ₀, h0⟩ := hq
  obtain ⟨ρ, hρ⟩ : ∃ ρ : Sym → ℂ, ρ = fun s => if s ∈ zSyms n then 0 else ρ₀ s := ⟨_, rfl⟩
  have hmem : mergeSubscript "z".toList i ∈ zSyms n := by
    rw [← zSyms_get n i (by rw [zSyms_length]; exact hi)]; exact List.getElem_mem _
  have hval : ∀ t : ℂ, eval (Function.update ρ (mergeSubscript "z".toList i) t) (diagonal n q) = t ^ n := by
    intro t
    rw [eval_diagonal, h0 _ (by
      intro s hs
      rw [Function.update_of_ne (fun e : s = mergeSubscript "z".toList i => hs (e ▸ hmem)), hρ]
      simp only [if_neg hs]), zero_mul, add_zero, zSyms_update, List.map_set, List.sum_set,
      if_pos (by simp [zSyms_length, hi])]
    have hz : ((zSyms n).map ρ).map (· ^ n) = List.replicate n 0 := by
      rw [List.map_map]
      refine (List.map_congr_left (g := fun _ => (0 : ℂ)) ?_).trans ?_
      · intro s hs
        simp only [Function.comp, hρ, if_pos hs]
        exact zero_pow (by omega)
      · rw [List.map_const', zSyms_length]
    rw [hz]
    simp
  have h1 : eval (Function.update ρ (mergeSubscript "z".toList i) 1) (diagonal n q) =
      eval (Function.update ρ (mergeSubscript "z".toList i) 0) (diagonal n q) := by
    apply eval₂Hom_congr' rfl _ rfl
    intro s hs _
    have : s ≠ mergeSubscript "z".toList i := fun e => hc (e ▸ hs)
    rw [Function.update_of_ne this, Function.update_of_ne this]
  rw [hval, hval, one_pow, zero_pow (by omega)] at h1
  exact one_ne_zero h1

theorem fermatMeta_wf (n : ℕ) : (fermatMeta n).WF where
  namesNodup := by simp [fermatMeta, Meta.names]
  good := (dworkMeta_wf n).good
  indsNodup := (dworkMeta_wf n).indsNodup
  paramsNodup := by simp [fermatMeta]
  params := by simp [fermatMeta]

/-- Calling the derivative of a polynomial of the common form. -/
theorem diagonal_diff (n i : ℕ) (hi : i < n) (q : MvPolynomial Sym ℂ) (hq : RealCoeffs q) (md : Meta)
    (hmd : md.WF) (hv : md.vars = [("z".toList, some (List.range n))]) (hqd : q ∈ polysIn md.allSymbols)
    (hqz : ∀ ρ t, eval (Function.update ρ (mergeSubscript "z".toList i) t) q = eval ρ q)
    (gens : List Sym) (z ps : List ℂ) (hz : z.length = n) (hps : ps.length = md.params.length) :
    ∃ ρ : Sym → ℂ, md.paramInput ρ = ps ∧
      (PolyObj.mk md (pderiv (mergeSubscript "z".toList i) (diagonal n q)) gens).call [.vec z, .vec ps] [] =
        .ok (n * (z[i]'(hz ▸ hi)) ^ (n - 1) + eval ρ q * (z.eraseIdx i).prod) := by
  obtain ⟨ρ, h1, h2⟩ := exists_assignment md hmd [.vec z] ps
    (by simp [hv, ShapeOK, hz]) hps
  have hρz : (zSyms n).map ρ = z := by
    simp only [Meta.inputs, hv, List.map_cons, List.map_nil, varInput, List.cons.injEq,
      Val.vec.injEq, and_true] at h1
    rw [← h1, zSyms, varSymbols, List.map_map]
    rfl
  refine ⟨ρ, h2, ?_⟩
  have hl : ∀ s ∈ zSyms n, s ∈ md.allSymbols := by
    intro s hs
    apply List.mem_append_left
    unfold Meta.varSyms
    rw [hv, List.flatMap_singleton]
    exact hs
  have hcall := callAt_ok ⟨md, pderiv (mergeSubscript "z".toList i) (diagonal n q), gens⟩ hmd
    ((mem_polysIn _ _).1 (pderiv_mem_polysIn _ _ _ (diagonal_mem n q _ hqd hl)))
    (realCoeffs_pderiv _ _ (diagonal_real n q hq)) ρ
  unfold PolyObj.callAt at hcall
  simp only [h1, h2] at hcall
  refine Eq.trans hcall ?_
  congr 1
  have hd := hasDerivAt_eval (diagonal n q) (mergeSubscript "z".toList i) ρ
  have hd' := hasDerivAt_list z n i (hz ▸ hi) (eval ρ q)
  have hzi : ρ (mergeSubscript "z".toList i) = z[i]'(hz ▸ hi) := by
    have : ((zSyms n).map ρ)[i]'(by simp [zSyms_length, hi]) = z[i]'(hz ▸ hi) := by simp only [hρz]
    rw [← this, List.getElem_map, zSyms_get]
  rw [hzi] at hd
  refine hd.unique ?_
  have he : (fun t => eval (Function.update ρ (mergeSubscript "z".toList i) t) (diagonal n q)) =
      fun t => ((z.set i t).map (· ^ n)).sum + eval ρ q * (z.set i t).prod := by
    funext t
    rw [eval_diagonal, zSyms_update, hρz, hqz]
  rw [he]
  exact hd'

end Cyjax.Polynomial
