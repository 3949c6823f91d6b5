import Verif.Lemmas.Samplable
import Verif.Lemmas.Density
import Verif.Props.Variety
import Mathlib.RingTheory.MvPolynomial.EulerIdentity

/-! # Weights at the points of a hypersurface -/

namespace Cyjax

open Cyjax.Spec Cyjax.Polynomial Cyjax.Projective Cyjax.Variety Cyjax.Differential MvPolynomial

variable {n e : ℕ} {V : HomKind} {params : Val} {F : MvPolynomial (Fin (n + 2)) ℂ}

theorem sum_norm_sq_pos {m : ℕ} (f : Fin m → ℂ) (i : Fin m) (hi : f i ≠ 0) : 0 < ∑ k, ‖f k‖ ^ 2 :=
  Finset.sum_pos' (fun k _ => by positivity) ⟨i, Finset.mem_univ i, by have := norm_pos_iff.2 hi; positivity⟩

/-- The weight at a point given in affine coordinates. -/
theorem weight_hypersurface (hV : Hypersurface V params (n + 1) e F) (p : Fin (n + 2)) (z : Fin (n + 1) → ℂ)
    (h0 : eval (affineToHom z (p : ℕ)) F = 0) (hs : ∃ i, eval (affineToHom z (p : ℕ)) (pderiv i F) ≠ 0) (vol : Option ℝ) :
    weight V z params (some (.index p)) none vol = .ok ((if vol = none then 1 else Real.pi ^ n / n.factorial) *
      ((∑ i, ‖affineToHom z (p : ℕ) i‖ ^ 2) ^ (n + 1) / ∑ i, ‖eval (affineToHom z (p : ℕ)) (pderiv i F)‖ ^ 2)) := by
  have g1 := (hV.represents p).grad z
  set W := affineToHom z (p : ℕ) with hW
  set g : Fin (n + 1) → ℂ := fun k => eval W (pderiv (p.succAbove k) F) with hgd
  have hWp : W p = 1 := affineToHom_same z p
  have hWk : ∀ k, W (p.succAbove k) = z k := affineToHom_succAbove z p
  have heu : eval W (pderiv p F) = -∑ k, z k * g k := by
    have := congrArg (eval W) (hV.homogeneous.sum_X_mul_pderiv)
    rw [map_sum, map_nsmul, h0, smul_zero] at this
    simp only [map_mul, eval_X] at this
    rw [Fin.sum_univ_succAbove _ p, hWp, one_mul] at this
    simp only [hWk] at this
    exact eq_neg_of_add_eq_zero_left this
  have hgrad : ∑ i : Fin (n + 2), ‖eval W (pderiv i F)‖ ^ 2 = ∑ k, ‖g k‖ ^ 2 + ‖∑ k, z k * g k‖ ^ 2 := by
    rw [Fin.sum_univ_succAbove _ p, heu, norm_neg, add_comm]
  have hnorm : ∑ i : Fin (n + 2), ‖W i‖ ^ 2 = 1 + ∑ k, ‖z k‖ ^ 2 := by
    rw [Fin.sum_univ_succAbove _ p, hWp, norm_one, one_pow]
    simp only [hWk]
  obtain ⟨e, he, _, hmax⟩ := chooseDep_eq g none
  have he0 : g e ≠ 0 := by
    intro hz0
    have hall : ∀ k, g k = 0 := by
      intro k
      have := hmax rfl k
      rw [hz0, norm_zero] at this
      exact norm_le_zero_iff.1 this
    obtain ⟨i, hi⟩ := hs
    apply hi
    rcases eq_or_ne i p with rfl | hip
    · rw [heu]; simp [hall]
    · obtain ⟨k, rfl⟩ := Fin.exists_succAbove_eq hip
      exact hall k
  unfold weight
  simp only [g1, weightParts_eq g z none e he vol]
  have hd := fs_density z g e he0
  congr 1
  rw [hgrad, hnorm]
  cases vol with
  | none =>
    simp only [if_true]
    rw [hd, one_mul, one_div_div]
  | some v =>
    simp only [reduceCtorEq, if_false]
    rw [mul_right_comm, hd]
    field_simp

/-- The weight at a point given in homogeneous coordinates. -/
theorem weight_point (hV : Hypersurface V params (n + 1) e F) (Z : Fin (n + 2) → ℂ) (p : Fin (n + 2)) (hp : Z p ≠ 0)
    (h0 : eval Z F = 0) (hs : ∃ i, eval Z (pderiv i F) ≠ 0) (vol : Option ℝ) :
    weight V (homToAffine Z (p : ℕ)) params (some (.index p)) none vol =
      .ok ((if vol = none then 1 else Real.pi ^ n / n.factorial) *
        ((∑ i, ‖Z i‖ ^ 2) ^ (n + 1) / ∑ i, ‖eval Z (pderiv i F)‖ ^ 2) *
        (‖Z p‖ ^ (2 * (e - 1)) / ‖Z p‖ ^ (2 * (n + 1)))) := by
  have hW : affineToHom (homToAffine Z (p : ℕ)) (p : ℕ) = fun i => (Z p)⁻¹ * Z i := by
    rw [C16_roundtrip Z p hp]
    funext i
    ring
  have hder : ∀ i, eval (fun i => (Z p)⁻¹ * Z i) (pderiv i F) = (Z p)⁻¹ ^ (e - 1) * eval Z (pderiv i F) := fun i =>
    eval_smul_homogeneous (hV.homogeneous.pderiv (i := i)) _ Z
  have hn : 0 < ‖Z p‖ := norm_pos_iff.2 hp
  rw [weight_hypersurface hV p _ (by rw [hW, eval_smul_homogeneous hV.homogeneous, h0, mul_zero]) (by
    obtain ⟨i, hi⟩ := hs
    exact ⟨i, by rw [hW, hder]; exact mul_ne_zero (pow_ne_zero _ (inv_ne_zero hp)) hi⟩) vol, hW]
  congr 1
  simp only [hder, norm_mul, norm_pow, norm_inv, mul_pow, ← Finset.mul_sum]
  have hpos : 0 < ∑ i, ‖eval Z (pderiv i F)‖ ^ 2 := by
    obtain ⟨i, hi⟩ := hs
    exact sum_norm_sq_pos (fun i => eval Z (pderiv i F)) i hi
  rw [mul_assoc]
  congr 1
  simp only [inv_pow, ← pow_mul]
  rw [mul_comm (e - 1) 2]
  field_simp

end Cyjax
