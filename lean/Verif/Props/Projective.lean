import Verif.Lemmas.Projective
import Verif.Lemmas.Argmax
import Mathlib.Tactic.FieldSimp
import Mathlib.Tactic.NormNum

/-! # Properties C14–C21: indices and charts -/

namespace Cyjax

open Projective Util

/-! ## C14 -/

/-- **C14.** `index_hom_to_affine(p, index_affine_to_hom(p, i)) = i`. -/
theorem C14_affine_hom_affine (p i : ℤ) : indexHomToAffine p (indexAffineToHom p i) = i := by
  unfold indexHomToAffine indexAffineToHom; split_ifs <;> omega

/-- **C14.** `index_affine_to_hom(p, index_hom_to_affine(p, h)) = h` for every `h ≠ p`. -/
theorem C14_hom_affine_hom (p h : ℤ) (hne : h ≠ p) :
    indexAffineToHom p (indexHomToAffine p h) = h := by
  unfold indexHomToAffine indexAffineToHom; split_ifs <;> omega

/-- **C14.** Affine indices map strictly monotonically onto the homogeneous indices except `p`. -/
theorem C14_strictMono_range (p : ℤ) :
    StrictMono (indexAffineToHom p) ∧ Set.range (indexAffineToHom p) = {h | h ≠ p} := by
  constructor
  · intro a b hab; unfold indexAffineToHom; split_ifs <;> omega
  · ext h; constructor
    · rintro ⟨i, rfl⟩; simp only [Set.mem_ofPred_eq]; unfold indexAffineToHom; split_ifs <;> omega
    · intro hne; exact ⟨_, C14_hom_affine_hom p h hne⟩

/-- **C14.** The valid ranges correspond: for `0 ≤ p ≤ n`, the affine indices `0..n-1` are mapped
exactly onto the homogeneous indices `0..n` other than `p`. -/
theorem C14_range (n p h : ℤ) (hp : 0 ≤ p ∧ p ≤ n) :
    (∃ i, (0 ≤ i ∧ i < n) ∧ indexAffineToHom p i = h) ↔ (0 ≤ h ∧ h ≤ n) ∧ h ≠ p := by
  constructor
  · rintro ⟨i, hi, rfl⟩; unfold indexAffineToHom; split_ifs <;> omega
  · rintro ⟨hh, hne⟩
    refine ⟨indexHomToAffine p h, ?_, C14_hom_affine_hom p h hne⟩
    unfold indexHomToAffine; split_ifs <;> omega

/-- **C14, meaning.** Affine index `i` in chart `p` names the same coordinate as homogeneous index
`index_affine_to_hom(p, i)` of `affine_to_hom(z, p)`. -/
theorem C14_meaning {K : Type*} [Field K] {n : ℕ} (z : Fin n → K) (p : Fin (n + 1)) (i : Fin n)
    (h : Fin (n + 1)) (hh : ((h : ℕ) : ℤ) = indexAffineToHom (p : ℕ) (i : ℕ)) :
    affineToHom z (p : ℕ) h = z i := by
  have : h = p.succAbove i := by
    apply Fin.ext
    unfold indexAffineToHom at hh
    simp only [Fin.succAbove, Fin.lt_def, Fin.val_castSucc]
    split_ifs at * <;> simp at * <;> omega
  rw [this, affineToHom_succAbove]

example : indexAffineToHom 2 3 = 4 ∧ indexHomToAffine 2 4 = 3 := by decide

/-! ## C15, C16 -/

/-- **C15.** `hom_to_affine(affine_to_hom(z, p), p) = z`. -/
theorem C15_roundtrip {K : Type*} [Field K] {n : ℕ} (z : Fin n → K) (p : Fin (n + 1)) :
    homToAffine (affineToHom z (p : ℕ)) (p : ℕ) = z := by
  funext k
  rw [homToAffine_apply, affineToHom_succAbove, affineToHom_same, div_one]

/-- **C15.** `affine_to_hom(z, p)[p] = 1`. -/
theorem C15_one_at_patch {K : Type*} [Field K] {n : ℕ} (z : Fin n → K) (p : Fin (n + 1)) :
    affineToHom z (p : ℕ) p = 1 := affineToHom_same z p

example : affineToHom ![(2 : ℚ), 3] 1 = ![2, 1, 3] ∧ homToAffine ![(2 : ℚ), 1, 3] 1 = ![2, 3] := by
  have h1 := affineToHom_eq ![(2 : ℚ), 3] (1 : Fin 3)
  constructor
  · rw [show (1 : ℤ) = (((1 : Fin 3) : ℕ) : ℤ) by simp, h1]
    funext k; fin_cases k <;> rfl
  · funext k
    rw [show (1 : ℤ) = (((1 : Fin 3) : ℕ) : ℤ) by simp, homToAffine_apply]
    fin_cases k <;> simp [Fin.succAbove]

/-- **C16.** `affine_to_hom(hom_to_affine(h, p), p) = h / h[p]` if `h[p] ≠ 0`. -/
theorem C16_roundtrip {K : Type*} [Field K] {n : ℕ} (h : Fin (n + 1) → K) (p : Fin (n + 1))
    (hp : h p ≠ 0) :
    affineToHom (homToAffine h (p : ℕ)) (p : ℕ) = fun i => h i / h p := by
  funext i
  rcases eq_or_ne i p with rfl | hi
  · rw [affineToHom_same, div_self hp]
  · obtain ⟨k, rfl⟩ := Fin.exists_succAbove_eq hi
    rw [affineToHom_succAbove, homToAffine_apply]

example : ∃ h : Fin 3 → ℚ, h 1 ≠ 0 ∧ h 0 = 0 := ⟨![0, 2, 3], by norm_num, by norm_num⟩

/-! ## C17, C18 -/

/-- **C17.** The automatically chosen patch is the first index of maximal modulus, and the
coordinates are those of that patch. -/
theorem C17_patch {n : ℕ} (h : Fin (n + 1) → ℂ) :
    (∀ i, ‖h i‖ ≤ ‖h (homToAffineAuto h).2‖) ∧
      (∀ i, i < (homToAffineAuto h).2 → ‖h i‖ < ‖h (homToAffineAuto h).2‖) ∧
      (homToAffineAuto h).1 = homToAffine h ((homToAffineAuto h).2 : ℕ) :=
  ⟨(argmax_spec fun i => ‖h i‖).1, (argmax_spec fun i => ‖h i‖).2, rfl⟩

/-- **C17.** For a non-zero point all affine coordinates have modulus at most one. -/
theorem C17_bounded {n : ℕ} (h : Fin (n + 1) → ℂ) (hne : h ≠ 0) (k : Fin n) :
    h (homToAffineAuto h).2 ≠ 0 ∧ ‖(homToAffineAuto h).1 k‖ ≤ 1 := by
  obtain ⟨h1, _, h3⟩ := C17_patch h
  have hnz : h (homToAffineAuto h).2 ≠ 0 := by
    intro h0
    apply hne; funext i
    have := h1 i
    rw [h0, norm_zero] at this
    simpa using this
  refine ⟨hnz, ?_⟩
  rw [h3, homToAffine_apply, norm_div]
  exact div_le_one_of_le₀ (h1 _) (norm_nonneg _)

/-- **C17.** The result is the same projective point: going back gives `h` divided by a non-zero
scalar. -/
theorem C17_same_point {n : ℕ} (h : Fin (n + 1) → ℂ) (hne : h ≠ 0) :
    ∃ c : ℂ, c ≠ 0 ∧ ∀ i,
      affineToHom (homToAffineAuto h).1 ((homToAffineAuto h).2 : ℕ) i = c * h i := by
  have hnz : h (homToAffineAuto h).2 ≠ 0 := by
    obtain ⟨h1, _, _⟩ := C17_patch h
    intro h0
    apply hne; funext i
    have := h1 i
    rw [h0, norm_zero] at this
    simpa using this
  refine ⟨(h (homToAffineAuto h).2)⁻¹, inv_ne_zero hnz, fun i => ?_⟩
  rw [(C17_patch h).2.2, C16_roundtrip h _ hnz]
  exact div_eq_inv_mul _ _

/-- **C17: the bound is attained**, so the strict inequality `|z_i| < 1` in the docstring is false:
for `h = (1, 1)` the coordinate has modulus exactly one. -/
theorem C17_strict_violated : ∃ h : Fin 2 → ℂ, h ≠ 0 ∧ ‖(homToAffineAuto h).1 0‖ = 1 := by
  refine ⟨fun _ => 1, fun h => one_ne_zero (congrFun h 0), ?_⟩
  rw [(C17_patch _).2.2, homToAffine_apply]; simp

example : ∃ h : Fin 3 → ℂ, h ≠ 0 ∧ (homToAffineAuto h).2 = 1 := by
  refine ⟨![0, 2, 1], fun h => by simpa using congrFun h 1, ?_⟩
  apply argmax_unique
  · intro i; fin_cases i <;> simp
  · intro i hi; fin_cases i <;> simp_all

/-- **C18.** Affine coordinates in a fixed patch do not change under rescaling. -/
theorem C18_fixed_patch {K : Type*} [Field K] {n : ℕ} (h : Fin (n + 1) → K) (p : Fin (n + 1))
    (c : K) (hc : c ≠ 0) : homToAffine (fun i => c * h i) (p : ℕ) = homToAffine h (p : ℕ) := by
  funext k
  rw [homToAffine_apply, homToAffine_apply, mul_div_mul_left _ _ hc]

/-- **C18.** Neither the automatically chosen patch nor the coordinates change under rescaling. -/
theorem C18_auto {n : ℕ} (h : Fin (n + 1) → ℂ) (c : ℂ) (hc : c ≠ 0) :
    homToAffineAuto (fun i => c * h i) = homToAffineAuto h := by
  have hp : argmax (fun i => ‖c * h i‖) = argmax fun i => ‖h i‖ := by
    have hc' : 0 < ‖c‖ := norm_pos_iff.2 hc
    obtain ⟨g1, g2⟩ := argmax_spec fun i => ‖h i‖
    apply argmax_unique
    · intro i; simp only [norm_mul]; exact mul_le_mul_of_nonneg_left (g1 i) hc'.le
    · intro i hi; simp only [norm_mul]; exact mul_lt_mul_of_pos_left (g2 i hi) hc'
  unfold homToAffineAuto
  simp only [hp]
  rw [C18_fixed_patch h _ c hc]

/-! ## C19–C21 -/

/-- **C19.** `change_chart(z, p, q) = hom_to_affine(affine_to_hom(z, p), q)` for `p ≠ q`. (If the
`q`-coordinate vanishes both sides divide by zero.) -/
theorem C19_change_chart {K : Type*} [Field K] {n : ℕ} (z : Fin (n + 1) → K) (p q : Fin (n + 2))
    (hpq : p ≠ q) :
    changeChart z (p : ℕ) (q : ℕ) = homToAffine (affineToHom z (p : ℕ)) (q : ℕ) :=
  changeChart_eq z p q hpq

/-- **C19.** The point is unchanged: the homogeneous coordinates before and after differ by the
non-zero factor `affine_to_hom(z, p)[q]`. -/
theorem C19_same_point {K : Type*} [Field K] {n : ℕ} (z : Fin (n + 1) → K) (p q : Fin (n + 2))
    (hpq : p ≠ q) (hq : affineToHom z (p : ℕ) q ≠ 0) (i : Fin (n + 2)) :
    affineToHom z (p : ℕ) q * affineToHom (changeChart z (p : ℕ) (q : ℕ)) (q : ℕ) i =
      affineToHom z (p : ℕ) i := by
  rw [C19_change_chart z p q hpq, C16_roundtrip _ _ hq]
  field_simp

/-- **C20, inverse.** `p → q → p` is the identity. -/
theorem C20_inverse {K : Type*} [Field K] {n : ℕ} (z : Fin (n + 1) → K) (p q : Fin (n + 2))
    (hpq : p ≠ q) (hq : affineToHom z (p : ℕ) q ≠ 0) :
    changeChart (changeChart z (p : ℕ) (q : ℕ)) (q : ℕ) (p : ℕ) = z := by
  rw [C19_change_chart _ q p hpq.symm, C19_change_chart z p q hpq, C16_roundtrip _ _ hq]
  have : (fun i => affineToHom z (p : ℕ) i / affineToHom z (p : ℕ) q) =
      fun i => (affineToHom z (p : ℕ) q)⁻¹ * affineToHom z (p : ℕ) i := by
    funext i; rw [div_eq_inv_mul]
  rw [this, C18_fixed_patch _ _ _ (inv_ne_zero hq), C15_roundtrip]

/-- **C20, cocycle.** `p → q → r` equals `p → r`. -/
theorem C20_cocycle {K : Type*} [Field K] {n : ℕ} (z : Fin (n + 1) → K) (p q r : Fin (n + 2))
    (hpq : p ≠ q) (hqr : q ≠ r) (hpr : p ≠ r) (hq : affineToHom z (p : ℕ) q ≠ 0) :
    changeChart (changeChart z (p : ℕ) (q : ℕ)) (q : ℕ) (r : ℕ) = changeChart z (p : ℕ) (r : ℕ) := by
  rw [C19_change_chart _ q r hqr, C19_change_chart z p q hpq, C16_roundtrip _ _ hq,
    C19_change_chart z p r hpr]
  have : (fun i => affineToHom z (p : ℕ) i / affineToHom z (p : ℕ) q) =
      fun i => (affineToHom z (p : ℕ) q)⁻¹ * affineToHom z (p : ℕ) i := by
    funext i; rw [div_eq_inv_mul]
  rw [this, C18_fixed_patch _ _ _ (inv_ne_zero hq)]

/-- In chart 0 of `P^2` the point `z = (2, 3)` has all homogeneous coordinates non-zero. -/
example : ∃ z : Fin 2 → ℚ, ∀ q : Fin 3, affineToHom z ((0 : Fin 3) : ℕ) q ≠ 0 := by
  refine ⟨![2, 3], fun q => ?_⟩
  rw [affineToHom_eq]
  fin_cases q <;> simp

/-- **C21, what the code does.** For equal charts `p` (not the last one) `change_chart` does not
return `z`: coordinate `p` is inverted and the others are divided by it. -/
theorem C21_equal_charts {K : Type*} [Field K] {n : ℕ} (z : Fin (n + 1) → K) (p : Fin (n + 1)) :
    changeChart z (p : ℕ) (p : ℕ) =
      p.insertNth (α := fun _ => K) (1 / z p) (fun k => z (p.succAbove k) / z p) := by
  unfold changeChart
  simp only [lt_irrefl, if_false, sub_zero, pop_fst, pop_snd]
  rw [insert1d_insertNth]

/-- **C21 is violated**: `change_chart([2], 0, 0) = [1/2]`. -/
theorem C21_violated : ∃ z : Fin 1 → ℚ, (∀ q : Fin 2, affineToHom z ((0 : Fin 2) : ℕ) q ≠ 0) ∧
    changeChart z 0 0 ≠ z := by
  refine ⟨fun _ => 2, fun q => ?_, fun h => ?_⟩
  · rw [affineToHom_eq]; fin_cases q <;> simp
  · have h1 := C21_equal_charts (fun _ : Fin 1 => (2 : ℚ)) 0
    simp only [Fin.val_zero, Nat.cast_zero] at h1
    rw [h1] at h
    have := congrFun h 0
    rw [Fin.insertNth_apply_same] at this
    norm_num at this

end Cyjax
