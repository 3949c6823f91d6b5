import Verif.Lemmas.SolveDefining
import Verif.Props.HomPoly

/-! # The polynomials of Dwork and Fermat varieties -/

namespace Cyjax.Variety

open Cyjax.Polynomial Cyjax.Projective Cyjax.Util MvPolynomial

/-- The symbols `z_0, ..., z_(n-1)`. -/
def zSyms (n : ℕ) : List Sym := varSymbols ("z".toList, some (List.range n))

theorem zSyms_eq (n : ℕ) : zSyms n = (List.range n).map (mergeSubscript "z".toList) := rfl

theorem realCoeffs_pow {q : MvPolynomial Sym ℂ} (k : ℕ) (hq : RealCoeffs q) : RealCoeffs (q ^ k) := by
  induction k with
  | zero => rw [pow_zero]; simpa using realCoeffs_C 1 (by simp)
  | succ k ih => rw [pow_succ]; exact ih.mul hq

theorem realCoeffs_listProd (l : List (MvPolynomial Sym ℂ)) (hl : ∀ q ∈ l, RealCoeffs q) : RealCoeffs l.prod := by
  induction l with
  | nil => simpa using realCoeffs_C 1 (by simp)
  | cons a l ih =>
    rw [List.prod_cons]
    exact (hl a List.mem_cons_self).mul (ih fun q hq => hl q (List.mem_cons_of_mem _ hq))

/-- Sum of the `k`-th powers of the coordinates. -/
noncomputable def powSum (n k : ℕ) : MvPolynomial Sym ℂ := (((zSyms n).map X).map (· ^ k)).sum

theorem powSum_declared (n k : ℕ) (m : Meta) (hm : m.vars = [("z".toList, some (List.range n))]) :
    powSum n k ∈ polysIn (m.varSyms ++ m.params) := by
  refine Subalgebra.list_sum_mem _ fun q hq => ?_
  simp only [List.mem_map] at hq
  obtain ⟨_, ⟨s, hs, rfl⟩, rfl⟩ := hq
  refine Subalgebra.pow_mem _ (X_mem_polysIn _ _ (List.mem_append_left _ ?_)) _
  unfold Meta.varSyms
  rw [hm, List.flatMap_singleton]
  exact hs

theorem prod_declared (n : ℕ) (m : Meta) (hm : m.vars = [("z".toList, some (List.range n))]) :
    ((zSyms n).map X).prod ∈ polysIn (m.varSyms ++ m.params) := by
  refine Subalgebra.list_prod_mem _ fun q hq => ?_
  simp only [List.mem_map] at hq
  obtain ⟨s, hs, rfl⟩ := hq
  refine X_mem_polysIn _ _ (List.mem_append_left _ ?_)
  unfold Meta.varSyms
  rw [hm, List.flatMap_singleton]
  exact hs

theorem powSum_real (n k : ℕ) : RealCoeffs (powSum n k) := by
  refine realCoeffs_listSum _ fun q hq => ?_
  simp only [List.mem_map] at hq
  obtain ⟨_, ⟨s, hs, rfl⟩, rfl⟩ := hq
  exact realCoeffs_pow _ (realCoeffs_X _)

theorem prod_real (n : ℕ) : RealCoeffs ((zSyms n).map X).prod := by
  refine realCoeffs_listProd _ fun q hq => ?_
  simp only [List.mem_map] at hq
  obtain ⟨s, hs, rfl⟩ := hq
  exact realCoeffs_X _

theorem eval_powSum (n k : ℕ) (ρ : Sym → ℂ) :
    eval ρ (powSum n k) = ∑ i : Fin n, ρ (mergeSubscript "z".toList i) ^ k := by
  unfold powSum
  rw [map_list_sum, List.map_map, List.map_map, zSyms_eq, List.map_map, ← List.sum_ofFn,
    ofFn_range (fun i => ρ (mergeSubscript "z".toList i) ^ k)]
  congr 1
  apply List.map_congr_left
  intro i _
  simp

theorem eval_prod (n : ℕ) (ρ : Sym → ℂ) :
    eval ρ ((zSyms n).map X).prod = ∏ i : Fin n, ρ (mergeSubscript "z".toList i) := by
  rw [map_list_prod, List.map_map, zSyms_eq, List.map_map, ← List.prod_ofFn,
    ofFn_range (fun i => ρ (mergeSubscript "z".toList i))]
  congr 1
  apply List.map_congr_left
  intro i _
  simp

theorem degreeOf_listSum (x : Sym) (k : ℕ) (l : List (MvPolynomial Sym ℂ)) (h : ∀ q ∈ l, degreeOf x q ≤ k) :
    degreeOf x l.sum ≤ k := by
  induction l with
  | nil => simp
  | cons a l ih =>
    rw [List.sum_cons]
    exact (degreeOf_add_le _ _ _).trans (max_le (h a List.mem_cons_self)
      (ih fun q hq => h q (List.mem_cons_of_mem _ hq)))

theorem degreeOf_listProd (x : Sym) (l : List (MvPolynomial Sym ℂ)) (h : ∀ q ∈ l, degreeOf x q ≤ 1) :
    degreeOf x l.prod ≤ l.length := by
  induction l with
  | nil => simp
  | cons a l ih =>
    rw [List.prod_cons, List.length_cons]
    have h1 := degreeOf_mul_le x a l.prod
    have h2 := h a List.mem_cons_self
    have h3 := ih fun q hq => h q (List.mem_cons_of_mem _ hq)
    omega

theorem degreeOf_sub (x y s : Sym) : degreeOf x (if s = y then 1 else X s : MvPolynomial Sym ℂ) ≤ 1 := by
  split_ifs
  · simp
  · rw [degreeOf_X]; split_ifs <;> simp

theorem degreeOf_powSum (n k : ℕ) (x y : Sym) :
    degreeOf x (bind₁ (fun s => if s = y then 1 else X s) (powSum n k)) ≤ k := by
  unfold powSum
  rw [map_list_sum]
  refine degreeOf_listSum x k _ fun q hq => ?_
  simp only [List.mem_map] at hq
  obtain ⟨_, ⟨_, ⟨s, _, rfl⟩, rfl⟩, rfl⟩ := hq
  rw [map_pow, bind₁_X_right]
  have h1 := degreeOf_pow_le x (if s = y then 1 else X s : MvPolynomial Sym ℂ) k
  have h2 := degreeOf_sub x y s
  nlinarith

theorem degreeOf_prod' (n : ℕ) (x y : Sym) :
    degreeOf x (bind₁ (fun s => if s = y then 1 else X s) ((zSyms n).map (X : Sym → MvPolynomial Sym ℂ)).prod) ≤ n := by
  rw [map_list_prod]
  refine (degreeOf_listProd x _ fun q hq => ?_).trans (by simp [zSyms_eq])
  simp only [List.mem_map] at hq
  obtain ⟨_, ⟨s, _, rfl⟩, rfl⟩ := hq
  rw [bind₁_X_right]
  exact degreeOf_sub x y s

theorem merge_ne_psi (i : ℕ) : mergeSubscript "z".toList i ≠ "psi".toList := by
  intro h
  have h1 := splitSubscript_merge "z".toList (by decide) i
  rw [h, splitSubscript_good "psi".toList (by decide)] at h1
  cases h1

theorem dwork_obj (m : ℕ) (f : DworkFactor) (hf : f.value.im = 0) :
    ∃ P, (HomKind.dwork (m + 1) f).polyObj = .ok P ∧ Proper P "z".toList m ∧ P.md = dworkMeta (m + 1) ∧
      (∀ ρ, eval ρ P.poly = ∑ i : Fin (m + 1), ρ (mergeSubscript "z".toList i) ^ (m + 1) +
        f.value * ρ "psi".toList * ∏ i : Fin (m + 1), ρ (mergeSubscript "z".toList i)) ∧
      ∀ i y, degreeOf (mergeSubscript "z".toList i) (bind₁ (fun s => if s = y then 1 else X s) P.poly) ≤ m + 1 := by
  have hlen : ((zSyms (m + 1)).map (X : Sym → MvPolynomial Sym ℂ)).length = m + 1 := by simp [zSyms_eq]
  have hobj : (HomKind.dwork (m + 1) f).polyObj = .ok ⟨dworkMeta (m + 1),
      powSum (m + 1) (m + 1) + C f.value * X "psi".toList * ((zSyms (m + 1)).map X).prod,
      (powSum (m + 1) (m + 1) + C f.value * X "psi".toList * ((zSyms (m + 1)).map X).prod).vars.toList.filter
        (fun s => s ∉ ["psi".toList])⟩ := by
    unfold HomKind.polyObj dworkPolyObj dworkCall
    simp only
    rw [if_pos (by simpa [zSyms] using hlen)]
    rfl
  refine ⟨_, hobj, ⟨rfl, dworkMeta_wf _, ?_, ?_⟩, rfl, ?_, ?_⟩
  · refine (mem_polysIn _ _).1 (Subalgebra.add_mem _ (powSum_declared _ _ _ rfl) (Subalgebra.mul_mem _
      (Subalgebra.mul_mem _ (C_mem_polysIn _ _) (X_mem_polysIn _ _ (List.mem_append_right _ (by simp [dworkMeta]))))
      (prod_declared _ _ rfl)))
  · exact (powSum_real _ _).add (((realCoeffs_C _ hf).mul (realCoeffs_X _)).mul (prod_real _))
  · intro ρ
    simp only [map_add, map_mul, eval_C, eval_X]
    rw [eval_powSum, eval_prod]
  · intro i y
    simp only [map_add, map_mul]
    refine (degreeOf_add_le _ _ _).trans (max_le (degreeOf_powSum _ _ _ _) ?_)
    refine (degreeOf_mul_le _ _ _).trans ?_
    have h1 := degreeOf_prod' (m + 1) (mergeSubscript "z".toList i) y
    have h2 := degreeOf_mul_le (mergeSubscript "z".toList i)
      (bind₁ (fun s => if s = y then 1 else X s) (C f.value : MvPolynomial Sym ℂ))
      (bind₁ (fun s => if s = y then 1 else X s) (X "psi".toList : MvPolynomial Sym ℂ))
    have h3 : degreeOf (mergeSubscript "z".toList i)
      (bind₁ (fun s => if s = y then 1 else X s) (C f.value : MvPolynomial Sym ℂ)) = 0 := by
      rw [bind₁_C_right, degreeOf_C]
    have h4 : degreeOf (mergeSubscript "z".toList i)
      (bind₁ (fun s => if s = y then 1 else X s) (X "psi".toList : MvPolynomial Sym ℂ)) = 0 := by
      rw [bind₁_X_right]
      split_ifs
      · simp
      · rw [degreeOf_X, if_neg (merge_ne_psi i)]
    omega

theorem fermat_wf (n : ℕ) : (HomKind.fermat n).md.WF where
  namesNodup := by simp [HomKind.md, Meta.names]
  good := by
    intro v hv
    simp only [HomKind.md, List.mem_singleton] at hv
    subst hv
    exact show GoodName "z".toList by decide
  indsNodup := by
    intro v hv inds hi
    simp only [HomKind.md, List.mem_singleton] at hv
    subst hv
    cases hi
    exact List.nodup_range
  paramsNodup := by simp [HomKind.md]
  params := by intro s hs; simp [HomKind.md] at hs

theorem fermat_obj (m : ℕ) :
    ∃ P, (HomKind.fermat (m + 1)).polyObj = .ok P ∧ Proper P "z".toList m ∧ P.md = (HomKind.fermat (m + 1)).md ∧
      (∀ ρ, eval ρ P.poly = ∑ i : Fin (m + 1), ρ (mergeSubscript "z".toList i) ^ (m + 1)) ∧
      ∀ i y, degreeOf (mergeSubscript "z".toList i) (bind₁ (fun s => if s = y then 1 else X s) P.poly) ≤ m + 1 := by
  have hlen : ((zSyms (m + 1)).map (X : Sym → MvPolynomial Sym ℂ)).length = m + 1 := by simp [zSyms_eq]
  have hobj : (HomKind.fermat (m + 1)).polyObj = .ok ⟨(HomKind.fermat (m + 1)).md,
      powSum (m + 1) (m + 1), (powSum (m + 1) (m + 1)).vars.toList⟩ := by
    unfold HomKind.polyObj fermatCall
    simp only
    rw [if_pos (by simpa [zSyms] using hlen)]
    rfl
  refine ⟨_, hobj, ⟨rfl, fermat_wf _, ?_, powSum_real _ _⟩, rfl, fun ρ => eval_powSum _ _ ρ,
    fun i y => degreeOf_powSum _ _ _ _⟩
  exact (mem_polysIn _ _).1 (powSum_declared _ _ _ rfl)

/-- A list of at most `k + 1` coefficients with the values of a monic polynomial of degree `k` is monic. -/
theorem monic_coeffs (vals : List ℂ) (k : ℕ) (hl : vals.length ≤ k + 1) (g : _root_.Polynomial ℂ)
    (hg : g.coeff k = 1) (h : ∀ r, polyval vals r = g.eval r) : ∃ cs, vals = 1 :: cs ∧ cs.length = k := by
  have he : toPoly vals = g := _root_.Polynomial.funext fun r => by rw [toPoly_eval, h]
  have hk : k < vals.length := by
    by_contra hlt
    have := toPoly_coeff_ge vals k (by omega)
    rw [he, hg] at this
    exact one_ne_zero this
  have hlen : vals.length = k + 1 := by omega
  have hc := toPoly_coeff vals k hk
  rw [he, hg, hlen, Nat.add_sub_cancel, Nat.sub_self] at hc
  cases vals with
  | nil => simp at hlen
  | cons c cs =>
    rw [List.getD_cons_zero] at hc
    exact ⟨cs, by rw [← hc], by simpa using hlen⟩

end Cyjax.Variety
