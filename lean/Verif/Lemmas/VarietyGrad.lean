import Verif.Spec.Variety
import Verif.Lemmas.HomPoly
import Verif.Lemmas.Poly
import Verif.Lemmas.PolyOps
import Mathlib.Analysis.Calculus.Deriv.Pow
import Mathlib.Analysis.Calculus.Deriv.Add
import Mathlib.Analysis.Calculus.Deriv.Mul

namespace Cyjax.Variety

open Cyjax.Polynomial MvPolynomial

theorem sortVarArgs_kw {α : Type*} (len : α → Option ℕ) (names : List (List Char)) (k : ℕ) (args : List α) (p : α)
    (h : args.length = names.length) :
    sortVarArgs len names k args [(paramsKey, p)] = sortVarArgs len names k (args ++ [p]) [] := by
  unfold sortVarArgs
  simp [dictGet, h]

theorem call_kw (P : PolyObj) (args : List Val) (p : Val) (h : args.length = P.md.vars.length) :
    P.call args [(paramsKey, p)] = P.call (args ++ [p]) [] := by
  unfold PolyObj.call callNum
  rw [sortVarArgs_kw _ _ _ _ _ (by rw [names_length]; exact h)]

theorem affine_call_kw (A : AffineObj) (args : List Val) (p : Val) (h : args.length = A.obj.md.vars.length) :
    A.call args [(paramsKey, p)] = A.call (args ++ [p]) [] := by
  unfold AffineObj.call
  rw [call_kw _ _ _ h, sortVarArgs_kw _ _ _ _ _ (by rw [names_length]; exact h)]

theorem ofFn_range {α : Type*} (f : ℕ → α) (n : ℕ) : List.ofFn (fun i : Fin n => f i) = (List.range n).map f := by
  apply List.ext_getElem <;> simp

theorem succAbove_val {m : ℕ} (p : Fin (m + 1)) (k : Fin m) :
    ((p.succAbove k : Fin (m + 1)) : ℕ) = if (k : ℕ) < p then (k : ℕ) else k + 1 := by
  rw [Fin.succAbove]
  simp only [Fin.lt_def, Fin.val_castSucc]
  split_ifs <;> simp

theorem ofFn_succAbove {α : Type*} (f : ℕ → α) {m : ℕ} (p : Fin (m + 1)) :
    List.ofFn (fun k : Fin m => f (p.succAbove k)) = ((List.range (m + 1)).filter (fun i => i ≠ (p : ℕ))).map f := by
  rw [filter_range]
  apply List.ext_getElem
  · have := p.isLt
    rw [List.length_map, List.length_eraseIdx_of_lt (by simpa using this)]
    simp
  · intro k h1 h2
    simp only [List.getElem_ofFn, List.getElem_map, List.getElem_eraseIdx, List.getElem_range, succAbove_val]
    split_ifs <;> rfl

theorem Proper.sizes {P : PolyObj} {name : List Char} {m : ℕ} (h : Proper P name m) : P.md.sizes = [m + 1] := by
  simp [Meta.sizes, h.vars]

theorem Proper.names {P : PolyObj} {name : List Char} {m : ℕ} (h : Proper P name m) : P.md.names = [name] := by
  simp [Meta.names, h.vars]

theorem Proper.goodName {P : PolyObj} {name : List Char} {m : ℕ} (h : Proper P name m) : GoodName name :=
  h.wf.good _ (by rw [h.vars]; exact List.mem_singleton.2 rfl)

theorem Proper.mem_params {P : PolyObj} {name : List Char} {m : ℕ} (h : Proper P name m) (s : Sym)
    (hs : s ∈ P.md.params) (i : ℕ) : s ≠ mergeSubscript name i := by
  rintro rfl
  obtain ⟨n, ix, h1, h2⟩ := h.wf.params _ hs
  rw [splitSubscript_merge name h.goodName i] at h1
  simp only [Except.ok.injEq, Prod.mk.injEq] at h1
  rw [h.names, ← h1.1] at h2
  simp at h2

theorem defining_none {P : PolyObj} {name : List Char} {m : ℕ} (h : Proper P name m) (ρ : Sym → ℂ) :
    defining (.generic P) (List.ofFn fun i : Fin (m + 1) => ρ (mergeSubscript name i))
      (.vec (P.md.paramInput ρ)) none = .ok (eval ρ P.poly) := by
  have h1 := callAt_ok P h.wf h.declared h.real ρ
  rw [← h1]
  unfold defining HomKind.call homCall PolyObj.callAt
  simp only
  rw [call_kw _ _ _ (by rw [h.vars]; rfl)]
  simp only [Meta.inputs, h.vars, List.map_cons, List.map_nil, varInput]
  rw [ofFn_range (fun i => ρ (mergeSubscript name i))]

theorem validPatch {P : PolyObj} {name : List Char} {m : ℕ} (h : Proper P name m) (p : Fin (m + 1)) :
    ValidPatch P.md.sizes [(p : ℕ)] := by
  rw [h.sizes]
  exact List.Forall₂.cons p.isLt List.Forall₂.nil

theorem patchSymbols_single {P : PolyObj} {name : List Char} {m : ℕ} (h : Proper P name m) (p : ℕ) :
    patchSymbols P.md [p] = [mergeSubscript name p] := by
  simp [patchSymbols, h.names]

theorem defining_patch {P : PolyObj} {name : List Char} {m : ℕ} (h : Proper P name m) (p : Fin (m + 1))
    (hp : HasPatch P name p) (ρ : Sym → ℂ) (hρ : ρ (mergeSubscript name p) = 1) :
    defining (.generic P) (List.ofFn fun k : Fin m => ρ (mergeSubscript name (p.succAbove k)))
      (.vec (P.md.paramInput ρ)) (some (.index p)) = .ok (eval ρ P.poly) := by
  have hv := validPatch h p
  unfold defining
  simp only [HomKind.md]
  rw [laxSwitch_allPatches _ _ hv]
  unfold HomKind.call
  simp only
  rw [(homCall_spec P _ (initCache_ok P) (some [(p : ℕ)]) (by rintro q h; cases h; exact hv) _ _).1]
  simp only
  rw [affine_call_kw _ _ _ (by simp [affinePoly, affineMeta, h.vars])]
  unfold AffineObj.call
  have hpoly : (affinePoly P [(p : ℕ)]).isPoly = true := by
    unfold affinePoly
    simp only [decide_eq_true_eq, patchSymbols_single h]
    refine ⟨by simpa using hp.1, fun h' => ?_⟩
    obtain ⟨s, hs, hsn⟩ := hp.2
    rw [List.filter_eq_nil_iff] at h'
    exact hsn (by simpa using h' s hs)
  rw [if_pos hpoly]
  have := callAt_ok (affinePoly P [(p : ℕ)]).obj (affineMeta_wf P.md h.wf _ (by rw [h.vars]; rfl))
    (affinePoly_declared P h.declared (by rw [h.vars]; simp) _ (by rw [h.vars]; rfl))
    (affinePoly_real P h.real _) ρ
  rw [eval_affinePoly] at this
  have he : eval (fun s => if s ∈ patchSymbols P.md [(p : ℕ)] then 1 else ρ s) P.poly = eval ρ P.poly := by
    congr 2
    funext s
    simp only [patchSymbols_single h, List.mem_singleton]
    split_ifs with hs
    · rw [hs, hρ]
    · rfl
  rw [he] at this
  rw [← this, ofFn_succAbove (fun i => ρ (mergeSubscript name i))]
  congr 1
  simp [affinePoly, affineMeta, Meta.inputs, varInput, h.vars]
  rfl

theorem update_coord {P : PolyObj} {name : List Char} {m : ℕ} (h : Proper P name m) (ρ : Sym → ℂ) (i j : ℕ) (t : ℂ) :
    Function.update ρ (mergeSubscript name i) t (mergeSubscript name j) =
      if j = i then t else ρ (mergeSubscript name j) := by
  by_cases hij : j = i
  · rw [hij, Function.update_self, if_pos rfl]
  · rw [if_neg hij, Function.update_of_ne]
    intro h'
    exact hij (merge_inj _ _ h.goodName h.goodName _ _ h').2

theorem update_params {P : PolyObj} {name : List Char} {m : ℕ} (h : Proper P name m) (ρ : Sym → ℂ) (i : ℕ) (t : ℂ) :
    P.md.paramInput (Function.update ρ (mergeSubscript name i) t) = P.md.paramInput ρ := by
  unfold Meta.paramInput
  refine List.map_congr_left fun s hs => ?_
  rw [Function.update_of_ne (h.mem_params s hs i)]

theorem grad_none {P : PolyObj} {name : List Char} {m : ℕ} (h : Proper P name m) (ρ : Sym → ℂ) :
    gradDefining (.generic P) (fun i : Fin (m + 1) => ρ (mergeSubscript name i)) (.vec (P.md.paramInput ρ)) none =
      .ok (fun i => eval ρ (pderiv (mergeSubscript name i) P.poly)) := by
  unfold gradDefining
  rw [defining_none h]
  simp only [Except.ok.injEq]
  funext i
  refine Eq.trans ?_ (hasDerivAt_eval P.poly (mergeSubscript name i) ρ).deriv
  congr 1
  funext t
  have := defining_none h (Function.update ρ (mergeSubscript name i) t)
  rw [update_params h] at this
  rw [show Function.update (fun j : Fin (m + 1) => ρ (mergeSubscript name j)) i t =
      fun j : Fin (m + 1) => Function.update ρ (mergeSubscript name i) t (mergeSubscript name j) from ?_, this]
  · rfl
  · funext j
    rw [update_coord h, Function.update_apply]
    simp only [Fin.ext_iff]

theorem grad_patch {P : PolyObj} {name : List Char} {m : ℕ} (h : Proper P name m) (p : Fin (m + 1))
    (hp : HasPatch P name p) (ρ : Sym → ℂ) (hρ : ρ (mergeSubscript name p) = 1) :
    gradDefining (.generic P) (fun k : Fin m => ρ (mergeSubscript name (p.succAbove k)))
      (.vec (P.md.paramInput ρ)) (some (.index p)) =
      .ok (fun k => eval ρ (pderiv (mergeSubscript name (p.succAbove k)) P.poly)) := by
  unfold gradDefining
  rw [defining_patch h p hp ρ hρ]
  simp only [Except.ok.injEq]
  funext k
  refine Eq.trans ?_ (hasDerivAt_eval P.poly (mergeSubscript name (p.succAbove k)) ρ).deriv
  congr 1
  funext t
  have := defining_patch h p hp (Function.update ρ (mergeSubscript name (p.succAbove k)) t) (by
    rw [update_coord h, if_neg, hρ]
    rw [← Fin.ext_iff]
    exact (Fin.succAbove_ne p k).symm)
  rw [update_params h] at this
  rw [show Function.update (fun j : Fin m => ρ (mergeSubscript name (p.succAbove j))) k t =
      fun j : Fin m => Function.update ρ (mergeSubscript name (p.succAbove k)) t
        (mergeSubscript name (p.succAbove j)) from ?_, this]
  · rfl
  · funext j
    rw [update_coord h, Function.update_apply]
    simp only [← Fin.ext_iff, Fin.succAbove_right_inj]

/-! ## Dwork and Fermat polynomials -/

theorem sum_update_pow {m : ℕ} (z : Fin m → ℂ) (i : Fin m) (t : ℂ) (n : ℕ) :
    ∑ j, Function.update z i t j ^ n = t ^ n + ∑ j ∈ Finset.univ.erase i, z j ^ n := by
  rw [← Finset.add_sum_erase _ _ (Finset.mem_univ i), Function.update_self]
  congr 1
  refine Finset.sum_congr rfl fun j hj => ?_
  rw [Function.update_of_ne (Finset.ne_of_mem_erase hj)]

theorem prod_update {m : ℕ} (z : Fin m → ℂ) (i : Fin m) (t : ℂ) :
    ∏ j, Function.update z i t j = t * ∏ j ∈ Finset.univ.erase i, z j := by
  rw [← Finset.mul_prod_erase _ _ (Finset.mem_univ i), Function.update_self]
  congr 1
  refine Finset.prod_congr rfl fun j hj => ?_
  rw [Function.update_of_ne (Finset.ne_of_mem_erase hj)]

theorem deriv_dwork {m : ℕ} (z : Fin m → ℂ) (i : Fin m) (n : ℕ) (a c : ℂ) :
    deriv (fun t => a + (∑ j, Function.update z i t j ^ n + c * ∏ j, Function.update z i t j)) (z i) =
      n * z i ^ (n - 1) + c * ∏ j ∈ Finset.univ.erase i, z j := by
  simp only [sum_update_pow, prod_update]
  have h1 := ((hasDerivAt_pow n (z i)).add_const (∑ j ∈ Finset.univ.erase i, z j ^ n)).add
    (((hasDerivAt_id' (z i)).mul_const (∏ j ∈ Finset.univ.erase i, z j)).const_mul c)
  have h2 := (h1.const_add a).deriv
  simp only [one_mul] at h2
  exact h2

theorem defining_dwork {m : ℕ} (f : DworkFactor) (z : Fin m → ℂ) (psi : ℂ) (rest : List ℂ) :
    defining (.dwork m f) (List.ofFn z) (.vec (psi :: rest)) none =
      .ok (∑ j, z j ^ m + f.value * psi * ∏ j, z j) := by
  simp [defining, HomKind.call, dworkCall, Val.entries, List.map_ofFn, List.sum_ofFn, List.prod_ofFn]

theorem defining_dwork_patch {m : ℕ} (f : DworkFactor) (z : Fin m → ℂ) (psi : ℂ) (rest : List ℂ) (p : Fin (m + 1)) :
    defining (.dwork (m + 1) f) (List.ofFn z) (.vec (psi :: rest)) (some (.index p)) =
      .ok (1 + (∑ j, z j ^ (m + 1) + f.value * psi * ∏ j, z j)) := by
  unfold defining
  simp only
  rw [laxSwitch_allPatches _ _ (show ValidPatch (HomKind.dwork (m + 1) f).md.sizes [(p : ℕ)] from by
    simp only [HomKind.md, dworkMeta, Meta.sizes]
    exact List.Forall₂.cons (by simpa using Nat.le_of_lt_succ p.isLt) List.Forall₂.nil)]
  simp [HomKind.call, dworkCall, Val.entries, List.map_ofFn, List.sum_ofFn, List.prod_ofFn]

theorem defining_fermat {m : ℕ} (z : Fin m → ℂ) (v : Val) :
    defining (.fermat m) (List.ofFn z) v none = .ok (∑ j, z j ^ m) := by
  simp [defining, HomKind.call, fermatCall, List.map_ofFn, List.sum_ofFn]

theorem defining_fermat_patch {m : ℕ} (z : Fin m → ℂ) (v : Val) (p : Fin (m + 1)) :
    defining (.fermat (m + 1)) (List.ofFn z) v (some (.index p)) = .ok (1 + ∑ j, z j ^ (m + 1)) := by
  unfold defining
  simp only
  rw [laxSwitch_allPatches _ _ (show ValidPatch (HomKind.fermat (m + 1)).md.sizes [(p : ℕ)] from by
    simp only [HomKind.md, Meta.sizes]
    exact List.Forall₂.cons (by simpa using Nat.le_of_lt_succ p.isLt) List.Forall₂.nil)]
  simp [HomKind.call, fermatCall, List.map_ofFn, List.sum_ofFn]

theorem grad_dwork {m : ℕ} (f : DworkFactor) (z : Fin m → ℂ) (psi : ℂ) (rest : List ℂ) :
    gradDefining (.dwork m f) z (.vec (psi :: rest)) none =
      .ok (fun i => m * z i ^ (m - 1) + f.value * psi * ∏ j ∈ Finset.univ.erase i, z j) := by
  unfold gradDefining
  simp only [defining_dwork, Except.ok.injEq, okVal]
  funext i
  have := deriv_dwork z i m 0 (f.value * psi)
  simpa only [zero_add] using this

theorem grad_dwork_patch {m : ℕ} (f : DworkFactor) (z : Fin m → ℂ) (psi : ℂ) (rest : List ℂ) (p : Fin (m + 1)) :
    gradDefining (.dwork (m + 1) f) z (.vec (psi :: rest)) (some (.index p)) =
      .ok (fun i => ((m + 1 : ℕ) : ℂ) * z i ^ m + f.value * psi * ∏ j ∈ Finset.univ.erase i, z j) := by
  unfold gradDefining
  simp only [defining_dwork_patch, Except.ok.injEq, okVal]
  funext i
  exact deriv_dwork z i (m + 1) 1 (f.value * psi)

theorem grad_fermat {m : ℕ} (z : Fin m → ℂ) (v : Val) :
    gradDefining (.fermat m) z v none = .ok (fun i => m * z i ^ (m - 1)) := by
  unfold gradDefining
  simp only [defining_fermat, Except.ok.injEq, okVal]
  funext i
  have := deriv_dwork z i m 0 0
  simpa only [zero_add, zero_mul, add_zero] using this

theorem grad_fermat_patch {m : ℕ} (z : Fin m → ℂ) (v : Val) (p : Fin (m + 1)) :
    gradDefining (.fermat (m + 1)) z v (some (.index p)) = .ok (fun i => ((m + 1 : ℕ) : ℂ) * z i ^ m) := by
  unfold gradDefining
  simp only [defining_fermat_patch, Except.ok.injEq, okVal]
  funext i
  have := deriv_dwork z i (m + 1) 1 0
  simpa only [zero_mul, add_zero, Nat.add_sub_cancel] using this

end Cyjax.Variety
