import Verif.Spec.RoundingSections
import Verif.Lemmas.RoundingOps
import Verif.Lemmas.DonaldsonBasis
import Verif.Lemmas.Array

/-! # Rounding errors in reductions and sections -/

namespace Cyjax.Fl

variable {ε : ℝ} {A : Arith}

theorem RTree.leaves_pos {ι : Type*} (t : RTree ι) : 0 < t.leaves.length := by
  induction t with
  | leaf i => simp [RTree.leaves]
  | node l r hl hr => simp only [RTree.leaves, List.length_append]; omega

theorem RTree.depth_lt {ι : Type*} (t : RTree ι) : t.depth + 1 ≤ t.leaves.length := by
  induction t with
  | leaf i => simp [RTree.leaves, RTree.depth]
  | node l r hl hr =>
    simp only [RTree.leaves, RTree.depth, List.length_append]
    have := l.leaves_pos
    have := r.leaves_pos
    omega

theorem RTree.eval_add {ι M : Type*} [AddCommMonoid M] (t : RTree ι) (x : ι → M) : t.eval (· + ·) x = (t.leaves.map x).sum := by
  induction t with
  | leaf i => simp [RTree.leaves, RTree.eval]
  | node l r hl hr => simp [RTree.leaves, RTree.eval, hl, hr]

theorem RTree.eval_mul {ι M : Type*} [CommMonoid M] (t : RTree ι) (x : ι → M) : t.eval (· * ·) x = (t.leaves.map x).prod := by
  induction t with
  | leaf i => simp [RTree.leaves, RTree.eval]
  | node l r hl hr => simp [RTree.leaves, RTree.eval, hl, hr]

theorem RTree.Covers.sum {n : ℕ} {M : Type*} [AddCommMonoid M] {t : RTree (Fin n)} (h : t.Covers) (x : Fin n → M) :
    (t.leaves.map x).sum = ∑ i, x i := by
  rw [(h.map x).sum_eq, Fin.sum_univ_def]

theorem RTree.Covers.prod {n : ℕ} {M : Type*} [CommMonoid M] {t : RTree (Fin n)} (h : t.Covers) (x : Fin n → M) :
    (t.leaves.map x).prod = ∏ i, x i := by
  rw [(h.map x).prod_eq, Fin.prod_univ_def]

theorem RTree.Covers.length {n : ℕ} {t : RTree (Fin n)} (h : t.Covers) : t.leaves.length = n := by
  rw [List.Perm.length_eq h, List.length_finRange]

theorem RTree.near_mul {ι : Type*} (hA : A.Accurate ε) (t : RTree ι) {k : ι → ℕ} {y x : ι → ℂ} {a : ι → ℝ}
    (h : ∀ i, Near ε (k i) (y i) (x i) (a i)) :
    Near ε ((t.leaves.map k).sum + (t.leaves.length - 1)) (t.eval A.mul y) (t.leaves.map x).prod (t.leaves.map a).prod := by
  induction t with
  | leaf i => simpa [RTree.leaves, RTree.eval] using h i
  | node l r hl hr =>
    have := hl.mul hA hr
    simp only [RTree.leaves, RTree.eval, List.map_append, List.prod_append, List.sum_append, List.length_append]
    have h1 := l.leaves_pos
    have h2 := r.leaves_pos
    exact this.mono hA.nonneg (by omega)

theorem RTree.near_add {ι : Type*} (hA : A.Accurate ε) (t : RTree ι) {k : ℕ} {y x : ι → ℂ} {a : ι → ℝ}
    (h : ∀ i, Near ε k (y i) (x i) (a i)) :
    Near ε (k + t.depth) (t.eval A.add y) (t.leaves.map x).sum (t.leaves.map a).sum := by
  induction t with
  | leaf i => simpa [RTree.leaves, RTree.eval, RTree.depth] using h i
  | node l r hl hr =>
    have := (hl.mono hA.nonneg (Nat.add_le_add_left (le_max_left l.depth r.depth) k)).add hA
      (hr.mono hA.nonneg (Nat.add_le_add_left (le_max_right l.depth r.depth) k))
    simp only [RTree.leaves, RTree.eval, List.map_append, List.sum_append, RTree.depth]
    exact this

/-- An error in the exponent. -/
theorem exp_near {F : Funs} (h0 : 0 ≤ ε) (hF : F.Accurate ε) (y x : ℂ) (b : ℝ) (h : ‖y - x‖ ≤ b) :
    ‖F.exp y - Complex.exp x‖ ≤ ((1 + ε) * Real.exp b - 1) * ‖Complex.exp x‖ := by
  have e1 : Complex.exp y = Complex.exp x * Complex.exp (y - x) := by rw [← Complex.exp_add]; congr 1; ring
  have e2 : ‖Complex.exp (y - x) - 1‖ ≤ Real.exp b - 1 := by
    have := Complex.norm_exp_sub_sum_le_exp_norm_sub_sum (y - x) 1
    simp only [Finset.sum_range_one, pow_zero, Nat.factorial_zero, Nat.cast_one, div_one] at this
    exact this.trans (sub_le_sub_right (Real.exp_le_exp.2 h) 1)
  have e3 : ‖Complex.exp (y - x)‖ ≤ Real.exp b :=
    (Complex.norm_exp_le_exp_norm _).trans (Real.exp_le_exp.2 h)
  have e4 : ‖F.exp y - Complex.exp y‖ ≤ ε * (‖Complex.exp x‖ * Real.exp b) := by
    refine (hF.exp y).trans (mul_le_mul_of_nonneg_left ?_ h0)
    rw [e1, norm_mul]
    exact mul_le_mul_of_nonneg_left e3 (norm_nonneg _)
  have e5 : ‖Complex.exp y - Complex.exp x‖ ≤ ‖Complex.exp x‖ * (Real.exp b - 1) := by
    rw [e1, show Complex.exp x * Complex.exp (y - x) - Complex.exp x = Complex.exp x * (Complex.exp (y - x) - 1) by ring,
      norm_mul]
    exact mul_le_mul_of_nonneg_left e2 (norm_nonneg _)
  calc ‖F.exp y - Complex.exp x‖ = ‖(F.exp y - Complex.exp y) + (Complex.exp y - Complex.exp x)‖ := by ring_nf
    _ ≤ _ := norm_add_le _ _
    _ ≤ _ := add_le_add e4 e5
    _ = _ := by ring

end Cyjax.Fl

namespace Cyjax.Donaldson

open Cyjax.Fl

variable {ε : ℝ} {A : Arith}

theorem powScanF_near (hA : A.Accurate ε) (zi : ℂ) (len : ℕ) : ∀ (z : ℂ) (j : ℕ), Near ε j z (zi ^ j) (‖zi‖ ^ j) →
    (powScanF A zi z len).1.length = len ∧
    (∀ i (h : i < (powScanF A zi z len).1.length), Near ε (j + i) (powScanF A zi z len).1[i] (zi ^ (j + i)) (‖zi‖ ^ (j + i))) ∧
    Near ε (j + len) (powScanF A zi z len).2 (zi ^ (j + len)) (‖zi‖ ^ (j + len)) := by
  induction len with
  | zero =>
    intro z j hz
    exact ⟨rfl, fun i h => by simp [powScanF] at h, hz⟩
  | succ len ih =>
    intro z j hz
    have h1 : Near ε (j + 1) (A.mul z zi) (zi ^ (j + 1)) (‖zi‖ ^ (j + 1)) := by
      rw [pow_succ, pow_succ]
      exact hz.mul hA (Near.refl zi)
    obtain ⟨h2, h3, h4⟩ := ih _ _ h1
    refine ⟨by simp [powScanF, h2], fun i h => ?_, ?_⟩
    · cases i with
      | zero => simpa [powScanF] using hz
      | succ i =>
        have := h3 i (by simpa [powScanF] using h)
        rw [show j + (i + 1) = j + 1 + i by omega]
        simpa [powScanF] using this
    · rw [show j + (len + 1) = j + 1 + len by omega]
      simpa [powScanF] using h4

theorem gather_near (hA : A.Accurate ε) (zi : ℂ) (m e : ℕ) (he : e ≤ m) :
    Near ε e (gather (getPowsF A zi m) e) (zi ^ e) (‖zi‖ ^ e) := by
  obtain ⟨h1, h2, h3⟩ := powScanF_near hA zi m 1 0 ⟨by simp, by simp⟩
  have hl : (getPowsF A zi m).length = m + 1 := by simp [getPowsF, h1]
  unfold gather
  rw [hl, Nat.add_sub_cancel, min_eq_left he, List.getD_eq_getElem?_getD, List.getElem?_eq_getElem (by omega), Option.getD_some]
  simp only [getPowsF]
  rw [List.getElem_append]
  split_ifs with h
  · simpa using h2 e h
  · have : e = m := by rw [h1] at h; omega
    subst this
    simpa using h3

/-- Rolling by the patch and dropping the first column is a relabelling of the affine coordinates. -/
theorem roll_patch {n : ℕ} (p : Fin (n + 1)) : ∃ σ : Fin n → Fin n, Function.Bijective σ ∧
    (∀ {α : Type} (zs : Fin n → α) i, Cyjax.roll zs (-((p : ℕ) : ℤ)) i = zs (σ i)) ∧
    ∀ {α : Type} (f : Fin (n + 1) → α) (i : Fin n), Cyjax.roll f (-((p : ℕ) : ℤ)) i.succ = f (p.succAbove (σ i)) := by
  have hp := p.2
  let σ : Fin n → Fin n := fun i => if h : (i : ℕ) + p < n then ⟨i + p, h⟩ else ⟨i + p - n, by have := i.2; omega⟩
  have hσ : Function.Injective σ := by
    intro i j hij
    have hi := i.2
    have hj := j.2
    apply Fin.ext
    have h := congrArg Fin.val hij
    simp only [σ] at h
    split_ifs at h <;> simp at h <;> omega
  refine ⟨σ, Finite.injective_iff_bijective.1 hσ, fun zs i => ?_, fun f i => ?_⟩
  · have hi := i.2
    by_cases h : (i : ℕ) + p < n
    · refine roll_apply _ _ _ _ 0 ?_
      simp [σ, h]
    · refine roll_apply _ _ _ _ 1 ?_
      simp [σ, h]
      omega
  · have hi := i.2
    by_cases h : (i : ℕ) + p < n
    · refine roll_apply _ _ _ _ 0 ?_
      have hs : (p.succAbove (σ i) : ℕ) = i + p + 1 := by
        simp only [σ, dif_pos h, Fin.succAbove, Fin.lt_def, Fin.val_castSucc]
        rw [if_neg (by omega)]
        simp
      rw [hs]
      simp
      ring
    · refine roll_apply _ _ _ _ 1 ?_
      have hs : (p.succAbove (σ i) : ℕ) = i + p - n := by
        simp only [σ, dif_neg h, Fin.succAbove, Fin.lt_def, Fin.val_castSucc]
        rw [if_pos (by omega)]
        rfl
      rw [hs]
      simp
      omega

end Cyjax.Donaldson
