import Verif.Lemmas.DonaldsonBasis
import Verif.Props.Projective
import Mathlib.Analysis.SpecialFunctions.Complex.Log

/-! # Evaluation of monomial sections (C60, C61) -/

namespace Cyjax

open Cyjax.Donaldson Cyjax.Projective

private theorem powScan_eq {K : Type*} [CommMonoid K] (zi z : K) (m : ℕ) :
    powScan zi z m = ((List.range m).map (fun i => z * zi ^ i), z * zi ^ m) := by
  induction m generalizing z with
  | zero => simp [powScan]
  | succ m ih =>
    rw [powScan, ih, List.range_succ_eq_map, List.map_cons, List.map_map]
    simp [Function.comp_def, pow_succ', mul_assoc]

private theorem gather_getPows {K : Type*} [CommSemiring K] (zi : K) (m e : ℕ) (he : e ≤ m) :
    gather (getPows zi m) e = zi ^ e := by
  have h : getPows zi m = (List.range (m + 1)).map fun i => zi ^ i := by
    unfold getPows
    rw [powScan_eq, List.range_succ, List.map_append]
    simp
  unfold gather
  rw [h, List.length_map, List.length_range, Nat.add_sub_cancel, min_eq_left he, List.getD_eq_getElem?_getD]
  simp [Nat.lt_succ_of_le he]

/-- **C60.** With homogeneous coordinates the sections are the monomials `∏_i z_i ^ P_{ai}`. -/
theorem C60_hom {K : Type*} [CommSemiring K] {n N : ℕ} (zs : Fin (n + 1) → K) (pows : Fin N → Fin (n + 1) → ℕ)
    (deg : ℕ) (hpow : ∀ a i, pows a i ≤ deg) (a : Fin N) :
    monomialsIndexHom zs pows deg a = ∏ i, zs i ^ pows a i := by
  unfold monomialsIndexHom
  exact Finset.prod_congr rfl fun i _ => gather_getPows _ _ _ (hpow a i)

/-- **C60.** With a patch the sections are the monomials at the homogeneous point with 1 inserted at the patch. -/
theorem C60_affine {K : Type*} [Field K] {n N : ℕ} (zs : Fin n → K) (p : Fin (n + 1))
    (pows : Fin N → Fin (n + 1) → ℕ) (deg : ℕ) (hpow : ∀ a i, pows a i ≤ deg) (a : Fin N) :
    monomialsIndex zs (p : ℕ) pows deg a = ∏ i, affineToHom zs (p : ℕ) i ^ pows a i := by
  unfold monomialsIndex
  simp only [Util.pop_snd]
  rw [Fin.prod_univ_succAbove _ p, affineToHom_same, one_pow, one_mul]
  refine Finset.prod_congr rfl fun i _ => ?_
  rw [gather_getPows _ _ _ (hpow a _), affineToHom_succAbove]

private theorem exp_sum_log {n : ℕ} (z : Fin n → ℂ) (hz : ∀ i, z i ≠ 0) (e : Fin n → ℕ) :
    Complex.exp (∑ i, (e i : ℂ) * Complex.log (z i)) = ∏ i, z i ^ e i := by
  rw [Complex.exp_sum]
  refine Finset.prod_congr rfl fun i _ => ?_
  rw [Complex.exp_nat_mul, Complex.exp_log (hz i)]

/-- **C60.** The logarithmic method gives the same values if no coordinate vanishes. -/
theorem C60_log_hom {n N : ℕ} (zs : Fin (n + 1) → ℂ) (hz : ∀ i, zs i ≠ 0) (pows : Fin N → Fin (n + 1) → ℕ)
    (deg : ℕ) (hpow : ∀ a i, pows a i ≤ deg) : monomialsLogHom zs pows = monomialsIndexHom zs pows deg := by
  funext a
  rw [C60_hom zs pows deg hpow a]
  exact exp_sum_log zs hz (pows a)

/-- **C60.** The logarithmic method gives the same values if no coordinate vanishes, in every patch. -/
theorem C60_log_affine {n N : ℕ} (zs : Fin n → ℂ) (hz : ∀ i, zs i ≠ 0) (p : Fin (n + 1))
    (pows : Fin N → Fin (n + 1) → ℕ) (deg : ℕ) (hpow : ∀ a i, pows a i ≤ deg) :
    monomialsLog zs (p : ℕ) pows = monomialsIndex zs (p : ℕ) pows deg := by
  funext a
  rw [C60_affine zs p pows deg hpow a, Fin.prod_univ_succAbove _ p, affineToHom_same, one_pow, one_mul]
  simp only [affineToHom_succAbove]
  rw [← exp_sum_log zs hz]
  unfold monomialsLog
  simp only
  congr 1
  have hp := p.2
  let σ : Fin n → Fin n := fun i => if h : (i : ℕ) + p < n then ⟨i + p, h⟩ else ⟨i + p - n, by have := i.2; omega⟩
  have hσ : Function.Injective σ := by
    intro i j hij
    have hi := i.2
    have hj := j.2
    apply Fin.ext
    have h := congrArg Fin.val hij
    simp only [σ] at h
    split_ifs at h <;> simp at h <;> omega
  have hbij : Function.Bijective σ := Finite.injective_iff_bijective.1 hσ
  rw [← hbij.sum_comp fun i => (pows a (p.succAbove i) : ℂ) * Complex.log (zs i)]
  refine Finset.sum_congr rfl fun i _ => ?_
  have hi := i.2
  congr 2
  · by_cases h : (i : ℕ) + p < n
    · refine roll_apply _ _ _ _ 0 ?_
      have hs : (p.succAbove (σ i) : ℕ) = i + p + 1 := by
        simp only [σ, dif_pos h, Fin.succAbove, Fin.lt_def, Fin.val_castSucc]
        rw [if_neg (by omega)]
        simp
      rw [hs]
      simp
      ring
    · refine roll_apply _ _ _ _ 1 ?_
      have hs : (p.succAbove (σ i) : ℕ) = i + p - n := by
        simp only [σ, dif_neg h, Fin.succAbove, Fin.lt_def, Fin.val_castSucc]
        rw [if_pos (by omega)]
        rfl
      rw [hs]
      simp
      omega
  · by_cases h : (i : ℕ) + p < n
    · refine roll_apply _ _ _ _ 0 ?_
      simp [σ, h]
    · refine roll_apply _ _ _ _ 1 ?_
      simp [σ, h]
      omega

/-- The rows of a monomial basis have entries bounded by the degree. -/
theorem C60_bounded (n k : ℕ) (a : Fin (monomialBasisFull n k).size) (i : Fin (n + 1)) :
    (monomialBasisFull n k).powers a i ≤ (monomialBasisFull n k).degree := by
  have h : (monomialBasisFull n k).powers a ∈ monomialBasis n k := List.get_mem _ _
  rw [mem_monomialBasis] at h
  change _ ≤ k
  exact (Finset.single_le_sum (f := fun i => (monomialBasisFull n k).powers a i) (fun _ _ => Nat.zero_le _)
    (Finset.mem_univ i)).trans h.le

/-- **C60.** Homogeneous and affine evaluation agree: the sections at an affine point are the sections at its
homogeneous coordinates, with both methods. -/
theorem C60_affine_hom {n : ℕ} (S : MonomialSections n) (hS : ∀ a i, S.powers a i ≤ S.degree) (zs : Fin n → ℂ)
    (p : Fin (n + 1)) (pre : Bool) (hz : pre = false → ∀ i, zs i ≠ 0) :
    S.call zs (p : ℕ) pre = S.callHom (affineToHom zs (p : ℕ)) pre := by
  have hidx : monomialsIndex zs (p : ℕ) S.powers S.degree =
      monomialsIndexHom (affineToHom zs (p : ℕ)) S.powers S.degree := by
    funext a
    rw [C60_affine zs p S.powers S.degree hS a, C60_hom _ S.powers S.degree hS a]
  unfold MonomialSections.call MonomialSections.callHom
  cases pre with
  | true => exact hidx
  | false =>
    simp only [Bool.false_eq_true, if_false]
    rw [C60_log_affine zs (hz rfl) p S.powers S.degree hS, hidx, C60_log_hom _ ?_ S.powers S.degree hS]
    intro i
    rcases eq_or_ne i p with rfl | hne
    · simp
    · obtain ⟨j, rfl⟩ := Fin.exists_succAbove_eq hne
      rw [affineToHom_succAbove]
      exact hz rfl j

/-! ## C61, sections -/

/-- **C61.** Sections of degree `k` in two patches differ by the `k`-th power of the transition coordinate
`affine_to_hom(z, p)[q]`. -/
theorem C61_transition {n : ℕ} (S : MonomialSections (n + 1)) (hS : ∀ a, ∑ i, S.powers a i = S.degree)
    (zs : Fin (n + 1) → ℂ) (p q : Fin (n + 2)) (hpq : p ≠ q) (hq : affineToHom zs (p : ℕ) q ≠ 0) (a : Fin S.size) :
    affineToHom zs (p : ℕ) q ^ S.degree * S.call (changeChart zs (p : ℕ) (q : ℕ)) (q : ℕ) true a =
      S.call zs (p : ℕ) true a := by
  have hle : ∀ a i, S.powers a i ≤ S.degree := by
    intro a i
    rw [← hS a]
    exact Finset.single_le_sum (f := fun i => S.powers a i) (fun _ _ => Nat.zero_le _) (Finset.mem_univ i)
  unfold MonomialSections.call
  simp only [if_true]
  rw [C60_affine _ q S.powers S.degree hle a, C60_affine _ p S.powers S.degree hle a]
  rw [← hS a, ← Finset.prod_pow_eq_pow_sum, ← Finset.prod_mul_distrib]
  refine Finset.prod_congr rfl fun i _ => ?_
  rw [← mul_pow, C19_same_point zs p q hpq hq]

/-- The full basis satisfies the hypothesis. -/
theorem C61_full_degree (n k : ℕ) (a : Fin (monomialBasisFull n k).size) :
    ∑ i, (monomialBasisFull n k).powers a i = (monomialBasisFull n k).degree :=
  (mem_monomialBasis n k _).1 (List.get_mem _ _)

/-- Quadratic sections on the plane between patches 0 and 1 at the point `(2, 3)`. -/
example (a : Fin (monomialBasisFull 2 2).size) :
    (2 : ℂ) ^ 2 * (monomialBasisFull 2 2).call (changeChart ![2, 3] ((0 : Fin 3) : ℕ) ((1 : Fin 3) : ℕ)) ((1 : Fin 3) : ℕ) true a =
      (monomialBasisFull 2 2).call ![2, 3] ((0 : Fin 3) : ℕ) true a := by
  have hv : affineToHom ![(2 : ℂ), 3] ((0 : Fin 3) : ℕ) 1 = 2 :=
    affineToHom_succAbove ![(2 : ℂ), 3] (0 : Fin 3) 0
  have := C61_transition (monomialBasisFull 2 2) (C61_full_degree 2 2) ![2, 3] 0 1 (by decide) (by rw [hv]; norm_num) a
  rwa [hv] at this

end Cyjax
