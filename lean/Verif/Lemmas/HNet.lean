import Verif.Model.Ml
import Mathlib.Data.List.OfFn
import Mathlib.Data.List.Dedup
import Mathlib.Data.Finset.Dedup
import Mathlib.Algebra.BigOperators.Fin

/-! # Feature products and layers of the network (helpers for C83, C84, C93, C94) -/

namespace Cyjax.Ml

open Cyjax.Polynomial (PyErr)
open scoped BigOperators

theorem mem_unique (l : List ℚ) (a : ℚ) : a ∈ unique l ↔ a ∈ l := by
  unfold unique
  rw [List.mem_dedup, (List.mergeSort_perm l _).mem_iff]

theorem nodup_unique (l : List ℚ) : (unique l).Nodup := List.nodup_dedup _

theorem length_unique (l : List ℚ) : (unique l).length = l.toFinset.card := by
  rw [← List.toFinset_card_of_nodup (nodup_unique l)]
  congr 1
  ext a
  rw [List.mem_toFinset, List.mem_toFinset, mem_unique]

theorem mem_cart {α : Type*} (l : List α) : ∀ (m : ℕ) (w : List α), w ∈ cart l m ↔ w.length = m ∧ ∀ a ∈ w, a ∈ l
  | 0, w => by
    simp only [cart, List.mem_singleton]
    constructor
    · rintro rfl; simp
    · rintro ⟨h, _⟩; exact List.length_eq_zero_iff.mp h
  | m + 1, w => by
    simp only [cart, List.mem_flatMap, List.mem_map]
    constructor
    · rintro ⟨a, ha, v, hv, rfl⟩
      obtain ⟨h1, h2⟩ := (mem_cart l m v).1 hv
      refine ⟨by rw [List.length_cons, h1], fun b hb => ?_⟩
      rcases List.mem_cons.mp hb with rfl | hb
      · exact ha
      · exact h2 b hb
    · rintro ⟨h1, h2⟩
      cases w with
      | nil => simp at h1
      | cons a v =>
        exact ⟨a, h2 a (by simp), v, (mem_cart l m v).2 ⟨by simpa using h1, fun b hb => h2 b (by simp [hb])⟩, rfl⟩

theorem nodup_cart {α : Type*} {l : List α} (hl : l.Nodup) : ∀ m, (cart l m).Nodup
  | 0 => List.nodup_singleton _
  | m + 1 => by
    rw [cart, List.nodup_flatMap]
    refine ⟨fun a _ => (nodup_cart hl m).map (List.cons_injective), ?_⟩
    refine hl.imp ?_
    intro a b hab
    rw [Function.onFun, List.disjoint_left]
    rintro w hw hw'
    obtain ⟨v, _, rfl⟩ := List.mem_map.mp hw
    obtain ⟨v', _, h⟩ := List.mem_map.mp hw'
    exact hab (by injection h with h _; exact h.symm)

theorem length_cart {α : Type*} (l : List α) : ∀ m, (cart l m).length = l.length ^ m
  | 0 => rfl
  | m + 1 => by
    rw [cart, List.length_flatMap]
    simp only [List.length_map, length_cart l m, List.map_const', List.sum_replicate, smul_eq_mul]
    rw [pow_succ, mul_comm]

theorem nodup_featurePowers (powers : List ℚ) (m : ℕ) : (featurePowers powers m).Nodup :=
  (nodup_cart (nodup_unique _) m).filter _

theorem mem_featurePowers (powers : List ℚ) (m : ℕ) (w : List ℚ) :
    w ∈ featurePowers powers m ↔ w.length = m ∧ (∀ a ∈ w, a = 0 ∨ a ∈ powers) ∧ ∃ a ∈ w, a ≠ 0 := by
  unfold featurePowers
  rw [List.mem_filter, mem_cart]
  simp only [mem_unique, List.mem_cons]
  constructor
  · rintro ⟨⟨h1, h2⟩, h3⟩
    refine ⟨h1, h2, ?_⟩
    by_contra h
    push Not at h
    simp only [List.all_eq_true, decide_eq_true_eq, decide_not, Bool.not_eq_true'] at h3
    simp at h3
    obtain ⟨x, hx, hx'⟩ := h3
    exact hx' (h x hx)
  · rintro ⟨h1, h2, a, ha, ha'⟩
    refine ⟨⟨h1, h2⟩, ?_⟩
    simp
    exact ⟨a, ha, ha'⟩

theorem length_featurePowers (powers : List ℚ) (m : ℕ) :
    (featurePowers powers m).length = (insert 0 powers.toFinset).card ^ m - 1 := by
  have h1 : (cart (unique (0 :: powers)) m).length = (insert 0 powers.toFinset).card ^ m := by
    rw [length_cart, length_unique, List.toFinset_cons]
  have h2 : (List.replicate m 0 :: featurePowers powers m).Perm (cart (unique (0 :: powers)) m) := by
    rw [List.perm_ext_iff_of_nodup (List.nodup_cons.mpr ⟨?_, nodup_featurePowers powers m⟩)
      (nodup_cart (nodup_unique _) m)]
    · intro w
      rw [List.mem_cons, mem_featurePowers, mem_cart]
      simp only [mem_unique, List.mem_cons]
      constructor
      · rintro (rfl | ⟨h1, h2, _⟩)
        · refine ⟨List.length_replicate, fun a ha => Or.inl (List.eq_of_mem_replicate ha)⟩
        · exact ⟨h1, h2⟩
      · rintro ⟨h1, h2⟩
        by_cases h : ∀ a ∈ w, a = 0
        · left
          exact List.eq_replicate_iff.mpr ⟨h1, h⟩
        · right
          push Not at h
          exact ⟨h1, h2, h⟩
    · rw [mem_featurePowers]
      rintro ⟨_, _, a, ha, ha'⟩
      exact ha' (List.eq_of_mem_replicate ha)
  have h3 := h2.length_eq
  rw [List.length_cons] at h3
  omega

/-- The exponents as functions of the position. -/
noncomputable def expFns (powers : List ℚ) (m : ℕ) : List (Fin m → ℚ) :=
  (featurePowers powers m).map fun w i => w.getD i 0

theorem ofFn_getD {m : ℕ} {w : List ℚ} (h : w.length = m) : List.ofFn (fun i : Fin m => w.getD i 0) = w := by
  subst h
  apply List.ext_getElem
  · simp
  · intro k h1 h2
    simp [List.getD_eq_getElem?_getD]

theorem nodup_expFns (powers : List ℚ) (m : ℕ) : (expFns powers m).Nodup := by
  unfold expFns
  refine (List.nodup_map_iff_inj_on (nodup_featurePowers powers m)).mpr ?_
  intro w hw w' hw' h
  rw [← ofFn_getD ((mem_featurePowers powers m w).1 hw).1, ← ofFn_getD ((mem_featurePowers powers m w').1 hw').1]
  exact congrArg List.ofFn h

theorem sorted_unique (l : List ℚ) : (unique l).Pairwise (· < ·) := by
  have h := List.pairwise_mergeSort (le := fun a b : ℚ => decide (a ≤ b)) (fun a b c h1 h2 => by
    simp only [decide_eq_true_eq] at h1 h2 ⊢
    exact h1.trans h2) (fun a b => by simpa using le_total a b) l
  have h1 : (unique l).Pairwise (· ≤ ·) := by
    unfold unique
    exact (h.imp fun h => by simpa using h).sublist (List.dedup_sublist _)
  exact (h1.and (nodup_unique l)).imp fun h => lt_of_le_of_ne h.1 h.2

/-- Lexicographic order of the exponents. -/
theorem lex_cart {l : List ℚ} (hl : l.Pairwise (· < ·)) : ∀ m, (cart l m).Pairwise fun w w' =>
    ∃ i, i < m ∧ (∀ j < i, w.getD j 0 = w'.getD j 0) ∧ w.getD i 0 < w'.getD i 0
  | 0 => List.pairwise_singleton _ _
  | m + 1 => by
    rw [cart, List.pairwise_flatMap]
    refine ⟨fun a _ => ?_, hl.imp fun {a b} hab w hw w' hw' => ?_⟩
    · rw [List.pairwise_map]
      refine (lex_cart hl m).imp ?_
      rintro w w' ⟨i, hi, h1, h2⟩
      refine ⟨i + 1, by omega, fun j hj => ?_, by simpa using h2⟩
      cases j with
      | zero => simp
      | succ j => simpa using h1 j (by omega)
    · obtain ⟨v, -, rfl⟩ := List.mem_map.1 hw
      obtain ⟨v', -, rfl⟩ := List.mem_map.1 hw'
      exact ⟨0, by omega, fun j hj => absurd hj (Nat.not_lt_zero j), by simpa using hab⟩

theorem lex_expFns (powers : List ℚ) (m : ℕ) :
    (expFns powers m).Pairwise fun e e' => ∃ i, (∀ j < i, e j = e' j) ∧ e i < e' i := by
  unfold expFns
  rw [List.pairwise_map]
  refine ((lex_cart (sorted_unique (0 :: powers)) m).filter _).imp ?_
  rintro w w' ⟨i, hi, h1, h2⟩
  exact ⟨⟨i, hi⟩, fun j hj => h1 j hj, h2⟩

theorem mem_expFns (powers : List ℚ) (m : ℕ) (e : Fin m → ℚ) :
    e ∈ expFns powers m ↔ (∀ i, e i = 0 ∨ e i ∈ powers) ∧ e ≠ 0 := by
  unfold expFns
  rw [List.mem_map]
  constructor
  · rintro ⟨w, hw, rfl⟩
    obtain ⟨h1, h2, a, ha, ha'⟩ := (mem_featurePowers powers m w).1 hw
    refine ⟨fun i => ?_, fun h => ?_⟩
    · have hi : (i : ℕ) < w.length := by rw [h1]; exact i.2
      have := h2 w[i] (List.getElem_mem hi)
      simpa [List.getD_eq_getElem?_getD, List.getElem?_eq_getElem hi] using this
    · obtain ⟨k, hk, rfl⟩ := List.getElem_of_mem ha
      have := congrFun h ⟨k, by omega⟩
      simp [List.getD_eq_getElem?_getD, List.getElem?_eq_getElem hk] at this
      exact ha' this
  · rintro ⟨h1, h2⟩
    refine ⟨List.ofFn e, (mem_featurePowers powers m _).2 ⟨List.length_ofFn, ?_, ?_⟩, ?_⟩
    · intro a ha
      obtain ⟨i, rfl⟩ := List.mem_ofFn.mp ha
      exact h1 i
    · obtain ⟨i, hi⟩ := Function.ne_iff.mp h2
      exact ⟨e i, List.mem_ofFn.mpr ⟨i, rfl⟩, hi⟩
    · funext i
      simp [List.getD_eq_getElem?_getD]

theorem powProduct_ofFn {m : ℕ} (psi : Fin m → ℂ) (w : List ℚ) (h : w.length = m) :
    powProduct (List.ofFn psi) w = ∏ i, psi i ^ ((w.getD i 0 : ℚ) : ℂ) := by
  unfold powProduct
  conv_lhs => rw [← ofFn_getD h]
  rw [← List.prod_ofFn]
  congr 1
  apply List.ext_getElem
  · simp
  · intro k h1 h2
    simp

theorem psiPow_eq {m : ℕ} (powers : List ℚ) (psi : Fin m → ℂ) :
    (featurePowers powers (List.ofFn psi).length).map (powProduct (List.ofFn psi)) =
      (expFns powers m).map fun e => ∏ i, psi i ^ ((e i : ℚ) : ℂ) := by
  unfold expFns
  rw [List.map_map, List.length_ofFn]
  refine List.map_congr_left fun w hw => ?_
  exact powProduct_ofFn psi w ((mem_featurePowers powers m w).1 hw).1

theorem expFns_eq_nil (powers : List ℚ) (m : ℕ) : expFns powers m = [] ↔ m = 0 ∨ ∀ p ∈ powers, p = 0 := by
  rw [List.eq_nil_iff_forall_not_mem]
  constructor
  · intro h
    by_contra hc
    push Not at hc
    obtain ⟨hm, p, hp, hp0⟩ := hc
    refine h (fun _ => p) ((mem_expFns powers m _).2 ⟨fun _ => Or.inr hp, ?_⟩)
    intro h0
    exact hp0 (congrFun h0 ⟨0, Nat.pos_of_ne_zero hm⟩)
  · intro h e he
    obtain ⟨h1, h2⟩ := (mem_expFns powers m e).1 he
    rcases h with rfl | h
    · exact h2 (Subsingleton.elim _ _)
    · refine h2 (funext fun i => ?_)
      rcases h1 i with h' | h'
      · exact h'
      · exact h _ h'

theorem features_ofFn {m : ℕ} (powers : List ℚ) (angle abs parts : Bool) (psi : Fin m → ℂ) :
    features powers angle abs parts (List.ofFn psi) =
      if expFns powers m = [] then .error .valueError
      else if angle = false ∧ abs = false ∧ parts = false then .error .valueError
      else .ok ((if angle then List.ofFn fun i => Complex.arg (psi i) else []) ++
        (if abs then (expFns powers m).map fun e => ‖∏ i, psi i ^ ((e i : ℚ) : ℂ)‖ else []) ++
        (if parts then (expFns powers m).map (fun e => (∏ i, psi i ^ ((e i : ℚ) : ℂ)).re) ++
          (expFns powers m).map (fun e => (∏ i, psi i ^ ((e i : ℚ) : ℂ)).im) else [])) := by
  unfold features
  simp only [psiPow_eq, List.map_eq_nil_iff, List.map_map, List.map_ofFn, Function.comp_def]

theorem dense_zero (k : ℕ) (p : DenseParams) (h : p.kernel = fun _ _ => 0) (x : List ℝ) :
    dense k p x = (List.range k).map p.bias := by
  unfold dense
  refine List.map_congr_left fun j _ => ?_
  rw [h]
  simp

end Cyjax.Ml
