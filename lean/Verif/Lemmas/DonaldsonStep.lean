import Verif.Model.DonaldsonStep
import Verif.Lemmas.Geometry
import Mathlib.Algebra.BigOperators.Fin
import Mathlib.Algebra.BigOperators.Field

/-! # The T matrix of a Donaldson step (for C74, C75) -/

namespace Cyjax.Donaldson

open scoped ComplexConjugate ComplexOrder

variable {N B M : ℕ}

private theorem foldl_add (f : Fin B → Matrix (Fin N) (Fin N) ℂ) (L : List (Fin B)) (T : Matrix (Fin N) (Fin N) ℂ)
    (c : ℂ) (a b : Fin N) :
    (L.foldl (fun T i => Matrix.of fun a b => T a b + f i a b / c) T) a b =
      T a b + (L.map fun i => f i a b / c).sum := by
  induction L generalizing T with
  | nil => simp
  | cons i L ih =>
    rw [List.foldl_cons, ih, Matrix.of_apply, List.map_cons, List.sum_cons, add_assoc]

theorem stepT_apply (h : Matrix (Fin N) (Fin N) ℂ) (vol : ℝ) (mon : Fin B → Fin M → Fin N → ℂ) (w : Fin B → Fin M → ℝ)
    (a b : Fin N) :
    stepT h vol mon w a b = (N : ℂ) / (vol * (B * M)) * ∑ i, ∑ k,
      mon i k a * conj (mon i k b) * ((w i k / stepDen (symmetrise h) (mon i k) : ℝ) : ℂ) := by
  unfold stepT
  simp only [Matrix.of_apply]
  rw [foldl_add, Matrix.zero_apply, zero_add, ← List.ofFn_eq_map, List.sum_ofFn, ← Finset.sum_div]
  simp only [deltaT, meanC, Matrix.of_apply, ← Finset.sum_div]
  rw [div_div, div_mul_div_comm, mul_comm, div_mul_eq_mul_div]
  congr 1
  ring

theorem symmetrise_isHermitian (h : Matrix (Fin N) (Fin N) ℂ) : (symmetrise h).IsHermitian := by
  ext a b
  change conj (symmetrise h b a) = symmetrise h a b
  simp only [symmetrise, Matrix.of_apply, map_div₀, map_add, Complex.conj_conj, map_ofNat]
  ring

theorem symmetrise_posDef {h : Matrix (Fin N) (Fin N) ℂ} (hh : (h + h.conjTranspose).PosDef) : (symmetrise h).PosDef := by
  have e : symmetrise h = (2⁻¹ : ℂ) • (h + h.conjTranspose) := by
    ext a b
    simp only [symmetrise, Matrix.of_apply, Matrix.smul_apply, Matrix.add_apply, Matrix.conjTranspose_apply, smul_eq_mul]
    rw [div_eq_inv_mul]
    rfl
  rw [e]
  exact hh.smul (by simp)

theorem symmetrise_of_isHermitian {h : Matrix (Fin N) (Fin N) ℂ} (hh : h.IsHermitian) : symmetrise h = h := by
  ext a b
  have e : conj (h b a) = h a b := hh.apply a b
  simp only [symmetrise, Matrix.of_apply, e]
  ring

theorem stepDen_eq {h : Matrix (Fin N) (Fin N) ℂ} (hh : h.IsHermitian) (s : Fin N → ℂ) :
    (stepDen h s : ℂ) = psi (.full h) s (conjS s) := by
  have e : psi (.full h) s (conjS s) = ∑ a, ∑ b, s a * conj (s b) * h a b := by
    simp only [psi, conjS]
    refine Finset.sum_congr rfl fun i _ => Finset.sum_congr rfl fun j _ => ?_
    ring
  have h0 : (psi (.full h) s (conjS s)).im = 0 := Complex.conj_eq_iff_im.1 (bil_conj hh s s)
  rw [e] at h0 ⊢
  apply Complex.ext
  · rfl
  · rw [h0]
    rfl

theorem stepDen_pos {h : Matrix (Fin N) (Fin N) ℂ} (hh : h.PosDef) {s : Fin N → ℂ} (hs : s ≠ 0) : 0 < stepDen h s := by
  have h1 : (0 : ℂ) < psi (.full h) s (conjS s) := bil_pos hh hs
  rw [← stepDen_eq hh.isHermitian] at h1
  exact_mod_cast h1

theorem stepT_eq_sum (h : Matrix (Fin N) (Fin N) ℂ) (vol : ℝ) (mon : Fin B → Fin M → Fin N → ℂ)
    (w : Fin B → Fin M → ℝ) :
    stepT h vol mon w = ((N : ℂ) / (vol * (B * M))) • ∑ i, ∑ k, Matrix.of fun a b =>
      mon i k a * conj (mon i k b) * ((w i k / stepDen (symmetrise h) (mon i k) : ℝ) : ℂ) := by
  ext a b
  rw [stepT_apply]
  simp only [Matrix.smul_apply, Matrix.sum_apply, Matrix.of_apply, smul_eq_mul]

/-- The quadratic form of `T`. -/
theorem stepT_form (h : Matrix (Fin N) (Fin N) ℂ) (vol : ℝ) (mon : Fin B → Fin M → Fin N → ℂ) (w : Fin B → Fin M → ℝ)
    (x : Fin N → ℂ) :
    star x ⬝ᵥ (stepT h vol mon w).mulVec x = (((N : ℝ) / (vol * (B * M)) * ∑ i, ∑ k,
      ‖∑ a, conj (x a) * mon i k a‖ ^ 2 * (w i k / stepDen (symmetrise h) (mon i k)) : ℝ) : ℂ) := by
  have e : ∀ i k, ((‖∑ a, conj (x a) * mon i k a‖ ^ 2 * (w i k / stepDen (symmetrise h) (mon i k)) : ℝ) : ℂ) =
      ∑ a, ∑ b, conj (x a) * (mon i k a * conj (mon i k b) *
        ((w i k / stepDen (symmetrise h) (mon i k) : ℝ) : ℂ) * x b) := by
    intro i k
    rw [Complex.ofReal_mul, Complex.ofReal_pow, ← Complex.mul_conj', map_sum, Finset.sum_mul_sum, Finset.sum_mul]
    refine Finset.sum_congr rfl fun a _ => ?_
    rw [Finset.sum_mul]
    refine Finset.sum_congr rfl fun b _ => ?_
    rw [map_mul, Complex.conj_conj]
    ring
  rw [stepT_eq_sum, Matrix.smul_mulVec, dotProduct_smul, Matrix.sum_mulVec, dotProduct_sum, smul_eq_mul]
  simp only [Matrix.sum_mulVec, dotProduct_sum]
  rw [Complex.ofReal_mul, Complex.ofReal_sum]
  simp only [Complex.ofReal_sum, e]
  push_cast
  congr 1
  refine Finset.sum_congr rfl fun i _ => Finset.sum_congr rfl fun k _ => ?_
  simp only [dotProduct, Matrix.mulVec, Matrix.of_apply, Finset.mul_sum, Pi.star_apply, RCLike.star_def]

end Cyjax.Donaldson
