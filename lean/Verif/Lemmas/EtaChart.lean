import Verif.Lemmas.Represents
import Verif.Lemmas.Density
import Verif.Props.Curvature

/-! # Transformation of the volume density under a change of chart (for C102) -/

namespace Cyjax

open Cyjax.Projective Cyjax.Differential MvPolynomial Matrix
open scoped ComplexConjugate ComplexOrder

variable {n : ℕ}

theorem IsChartJac.unique {z : Fin (n + 1) → ℂ} {p q : Fin (n + 2)} {M M' : Matrix (Fin (n + 1)) (Fin (n + 1)) ℂ}
    (h : IsChartJac z p q M) (h' : IsChartJac z p q M') : M = M' := by
  ext a i
  exact (h a i).unique (h' a i)

theorem exists_chartJac (z : Fin (n + 1) → ℂ) (p q : Fin (n + 2)) (hpq : p ≠ q) (hq : affineToHom z (p : ℕ) q ≠ 0) :
    ∃ M, IsChartJac z p q M := by
  obtain ⟨M, hM, -⟩ := C26_fs_chart z p q hpq hq
  exact ⟨M, hM⟩

/-- `|det M|² |c|^(2 (n + 2)) = 1`. -/
theorem chartJac_det {z : Fin (n + 1) → ℂ} {p q : Fin (n + 2)} (hpq : p ≠ q) (hq : affineToHom z (p : ℕ) q ≠ 0)
    {M : Matrix (Fin (n + 1)) (Fin (n + 1)) ℂ} (hM : IsChartJac z p q M) :
    ‖M.det‖ ^ 2 * ‖affineToHom z (p : ℕ) q‖ ^ (2 * (n + 2)) = 1 := by
  obtain ⟨M', hM', h⟩ := C26_fs_chart z p q hpq hq
  have hMM : M' = M := IsChartJac.unique hM' hM
  rw [hMM] at h
  have hdet := congrArg Matrix.det h
  have hconj : (M.map conj).det = conj M.det := ((starRingEnd ℂ).map_det M).symm
  rw [det_mul, det_mul, det_transpose, hconj, C25_fs_det, C25_fs_det] at hdet
  set w := changeChart z (p : ℕ) (q : ℕ) with hw
  have hN : ∀ (r : Fin (n + 2)) (x : Fin (n + 1) → ℂ), 1 + ∑ k, ‖x k‖ ^ 2 = ∑ i, ‖affineToHom x (r : ℕ) i‖ ^ 2 := by
    intro r x
    rw [Fin.sum_univ_succAbove _ r]
    simp
  have hNz : (1 + ∑ k, ‖z k‖ ^ 2 : ℝ) = ‖affineToHom z (p : ℕ) q‖ ^ 2 * (1 + ∑ k, ‖w k‖ ^ 2) := by
    rw [hN p z, hN q w, Finset.mul_sum]
    refine Finset.sum_congr rfl fun i _ => ?_
    rw [← mul_pow, ← norm_mul, C19_same_point z p q hpq hq]
  rw [hNz, mul_right_comm, Complex.mul_conj'] at hdet
  have hw0 := norm2p1_pos w
  set Nw : ℝ := 1 + ∑ k, ‖w k‖ ^ 2
  have hc0 : 0 < ‖affineToHom z (p : ℕ) q‖ := norm_pos_iff.2 hq
  have h2 : (1 : ℝ) / (‖affineToHom z (p : ℕ) q‖ ^ 2 * Nw) ^ (n + 1 + 1) = ‖M.det‖ ^ 2 * (1 / Nw ^ (n + 1 + 1)) := by
    exact_mod_cast hdet
  rw [mul_pow] at h2
  field_simp at h2
  rw [← pow_mul] at h2
  rw [show 2 * (n + 2) = 2 * (n + 1 + 1) from rfl]
  linarith

/-- Volume density of a covariant metric and gradient. -/
theorem density_covariant (g' : Matrix (Fin (n + 1)) (Fin (n + 1)) ℂ) (hg' : g'.PosDef)
    (M : Matrix (Fin (n + 1)) (Fin (n + 1)) ℂ) (hM : M.det ≠ 0) (c : ℂ) (hc : c ≠ 0) (G' : Fin (n + 1) → ℂ)
    (d d' : Fin (n + 1)) (hd : (c • (Mᵀ *ᵥ G')) d ≠ 0) (hd' : G' d' ≠ 0) :
    (inducedMetric (Mᵀ * g' * M.map conj) (c • (Mᵀ *ᵥ G')) (d : ℕ) none).det *
        (star ((c • (Mᵀ *ᵥ G')) d) * (c • (Mᵀ *ᵥ G')) d) =
      (‖M.det‖ : ℂ) ^ 2 * (‖c‖ : ℂ) ^ 2 * ((inducedMetric g' G' (d' : ℕ) none).det * (star (G' d') * G' d')) := by
  set g := Mᵀ * g' * M.map conj with hg
  set G := c • (Mᵀ *ᵥ G') with hG
  have hconj : (M.map conj).det = conj M.det := ((starRingEnd ℂ).map_det M).symm
  have hdetg : g.det = (‖M.det‖ : ℂ) ^ 2 * g'.det := by
    rw [hg, det_mul, det_mul, det_transpose, hconj, mul_right_comm, Complex.mul_conj']
  have hgH : g.IsHermitian := by
    have e : M.map conj = Mᵀᴴ := by
      ext i j
      simp [conjTranspose_apply]
    rw [hg, e]
    exact isHermitian_mul_mul_conjTranspose _ hg'.isHermitian
  have hgd : g.det ≠ 0 := by
    rw [hdetg]
    exact mul_ne_zero (pow_ne_zero 2 (by simpa using hM)) hg'.det_pos.ne'
  have hG'0 : G' ≠ 0 := fun h => hd' (by rw [h]; rfl)
  have hq' : star G' ⬝ᵥ (g'⁻¹ *ᵥ G') ≠ 0 := (hg'.inv.dotProduct_mulVec_pos hG'0).ne'
  have hq : star G ⬝ᵥ (g⁻¹ *ᵥ G) = (‖c‖ : ℂ) ^ 2 * (star G' ⬝ᵥ (g'⁻¹ *ᵥ G')) := by
    have hu : IsUnit Mᵀ.det := by rw [det_transpose]; exact Ne.isUnit hM
    have hu2 : IsUnit (M.map conj).det := by rw [hconj]; exact Ne.isUnit ((map_ne_zero _).2 hM)
    have e1 : g⁻¹ = (M.map conj)⁻¹ * (g'⁻¹ * Mᵀ⁻¹) := by
      rw [hg, Matrix.mul_inv_rev, Matrix.mul_inv_rev]
    have e2 : g⁻¹ *ᵥ G = c • ((M.map conj)⁻¹ *ᵥ (g'⁻¹ *ᵥ G')) := by
      rw [e1, hG, mulVec_smul]
      simp only [← mulVec_mulVec]
      rw [mulVec_mulVec (M := Mᵀ⁻¹), nonsing_inv_mul _ hu, one_mulVec]
    have e3 : star G = conj c • (star G' ᵥ* M.map conj) := by
      rw [hG, star_smul]
      congr 1
      rw [star_mulVec]
      rfl
    rw [e2, e3, smul_dotProduct, dotProduct_smul, ← dotProduct_mulVec, mulVec_mulVec, mul_nonsing_inv _ hu2,
      one_mulVec, smul_eq_mul, smul_eq_mul, ← mul_assoc, mul_comm (conj c), Complex.mul_conj']
  have hq0 : star G ⬝ᵥ (g⁻¹ *ᵥ G) ≠ 0 := by
    rw [hq]
    exact mul_ne_zero (pow_ne_zero 2 (by simpa using hc)) hq'
  rw [Variety.density g hgH hgd G d hd hq0, Variety.density g' hg'.isHermitian hg'.det_pos.ne' G' d' hd' hq', hq, hdetg]
  ring

/-- Tangent rows in terms of the frame of `jacobian_embed`. -/
theorem tangent_factor {K : Type*} [Field K] {m : ℕ} (T : Matrix (Fin m) (Fin (n + 1)) K) (G : Fin (n + 1) → K)
    (d : Fin (n + 1)) (hd : G d ≠ 0) (hT : ∀ r, ∑ j, T r j * G j = 0) :
    T = T.submatrix id d.succAbove * jacobianEmbed G (d : ℕ) := by
  ext r c
  rw [mul_apply]
  rcases eq_or_ne c d with rfl | hc
  · have h := hT r
    rw [Fin.sum_univ_succAbove _ c] at h
    simp only [submatrix_apply, id, jacobianEmbed_dep (d := c)]
    have h2 : ∑ s, T r (c.succAbove s) * (-G (c.succAbove s) / G c) = -(∑ s, T r (c.succAbove s) * G (c.succAbove s)) / G c := by
      rw [← Finset.sum_neg_distrib, Finset.sum_div]
      exact Finset.sum_congr rfl fun s _ => by ring
    rw [h2, eq_neg_of_add_eq_zero_right h]
    field_simp
  · obtain ⟨l, rfl⟩ := Fin.exists_succAbove_eq hc
    simp

theorem inducedMetric_eq (g : Matrix (Fin (n + 1)) (Fin (n + 1)) ℂ) (G : Fin (n + 1) → ℂ) (d : Fin (n + 1)) :
    inducedMetric g G (d : ℕ) none = jacobianEmbed G (d : ℕ) * g * (jacobianEmbed G (d : ℕ))ᴴ := by
  unfold inducedMetric
  exact pullback_eq _ _ _

/-- The volume density transforms with a constant that does not depend on the metric. -/
theorem density_covariant_any (g' : Matrix (Fin (n + 1)) (Fin (n + 1)) ℂ)
    (M : Matrix (Fin (n + 1)) (Fin (n + 1)) ℂ) (hM : M.det ≠ 0) (c : ℂ) (hc : c ≠ 0) (G' : Fin (n + 1) → ℂ)
    (d d' : Fin (n + 1)) (hd : (c • (Mᵀ *ᵥ G')) d ≠ 0) (hd' : G' d' ≠ 0) :
    (inducedMetric (Mᵀ * g' * M.map conj) (c • (Mᵀ *ᵥ G')) (d : ℕ) none).det *
        (star ((c • (Mᵀ *ᵥ G')) d) * (c • (Mᵀ *ᵥ G')) d) =
      (‖M.det‖ : ℂ) ^ 2 * (‖c‖ : ℂ) ^ 2 * ((inducedMetric g' G' (d' : ℕ) none).det * (star (G' d') * G' d')) := by
  have h1 := density_covariant 1 Matrix.PosDef.one M hM c hc G' d d' hd hd'
  set G := c • (Mᵀ *ᵥ G') with hG
  set J := jacobianEmbed G (d : ℕ) with hJ
  set J' := jacobianEmbed G' (d' : ℕ) with hJ'
  have hT : ∀ r, ∑ j, (J * Mᵀ) r j * G' j = 0 := by
    intro r
    have h := C27_tangent G d hd r
    have e : ∑ j, J r j * G j = c * ∑ j, (J * Mᵀ) r j * G' j := by
      change J r ⬝ᵥ G = c * ((J * Mᵀ) r ⬝ᵥ G')
      rw [hG, dotProduct_smul, smul_eq_mul]
      congr 1
      rw [dotProduct_mulVec]
      rfl
    rw [e] at h
    exact (mul_eq_zero.1 h).resolve_left hc
  set A := (J * Mᵀ).submatrix id d'.succAbove with hA
  have hf : J * Mᵀ = A * J' := tangent_factor _ G' d' hd' hT
  have key : ∀ g : Matrix (Fin (n + 1)) (Fin (n + 1)) ℂ, (inducedMetric (Mᵀ * g * M.map conj) G (d : ℕ) none).det =
      A.det * star A.det * (inducedMetric g G' (d' : ℕ) none).det := by
    intro g
    rw [inducedMetric_eq, inducedMetric_eq, ← hJ, ← hJ']
    have e : M.map conj = Mᵀᴴ := by
      ext i j
      simp [conjTranspose_apply]
    have e2 : J * (Mᵀ * g * M.map conj) * Jᴴ = A * (J' * g * J'ᴴ) * Aᴴ := by
      have : J * (Mᵀ * g * M.map conj) * Jᴴ = (J * Mᵀ) * g * (J * Mᵀ)ᴴ := by
        rw [e, conjTranspose_mul]
        simp only [Matrix.mul_assoc]
      rw [this, hf, conjTranspose_mul]
      simp only [Matrix.mul_assoc]
    rw [e2, det_mul, det_mul, det_conjTranspose]
    ring
  have hpos : (inducedMetric 1 G' (d' : ℕ) none).det ≠ 0 := (C28_posDef 1 Matrix.PosDef.one G' d').det_pos.ne'
  rw [key] at h1 ⊢
  have h2 : A.det * star A.det * (star (G d) * G d) = (‖M.det‖ : ℂ) ^ 2 * (‖c‖ : ℂ) ^ 2 * (star (G' d') * G' d') := by
    refine mul_right_cancel₀ hpos ?_
    linear_combination h1
  linear_combination (inducedMetric g' G' (d' : ℕ) none).det * h2

end Cyjax
