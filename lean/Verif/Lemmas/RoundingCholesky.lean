import Verif.Model.RoundingCholesky
import Verif.Spec.RoundingCholesky
import Verif.Lemmas.RoundingIntegrate
import Verif.Lemmas.Cholesky
import Mathlib.Analysis.InnerProductSpace.Basic
import Mathlib.Algebra.Order.Chebyshev

/-! # Errors and symmetry of a rounded product with the conjugate transpose -/

namespace Cyjax.Fl

open scoped ComplexConjugate

/-- The product of a matrix with its conjugate transpose, in the given arithmetic. -/
def selfMulF (A : Arith) {n : ℕ} (t : RTree (Fin n)) (M : Matrix (Fin n) (Fin n) ℂ) : Matrix (Fin n) (Fin n) ℂ :=
  Matrix.of fun i j => t.eval A.add fun k => A.mul (M i k) (conj (M j k))

theorem selfMul_diag {n : ℕ} (M : Matrix (Fin n) (Fin n) ℂ) (i : Fin n) : ((M * M.conjTranspose) i i).re = ∑ k, ‖M i k‖ ^ 2 := by
  simp only [Matrix.mul_apply, Matrix.conjTranspose_apply, Complex.re_sum]
  refine Finset.sum_congr rfl fun k _ => ?_
  rw [Complex.star_def, Complex.mul_conj, Complex.ofReal_re, Complex.normSq_eq_norm_sq]

theorem selfMulF_near {A : Arith} {ε : ℝ} (hA : A.Accurate ε) {n : ℕ} (t : RTree (Fin n)) (ht : t.Covers)
    (M : Matrix (Fin n) (Fin n) ℂ) (i j : Fin n) :
    ‖selfMulF A t M i j - (M * M.conjTranspose) i j‖ ≤
      ((1 + ε) ^ (t.depth + 1) - 1) * √(((M * M.conjTranspose) i i).re * ((M * M.conjTranspose) j j).re) := by
  have h1 : ∀ k, NearG (1 + ε) (A.mul (M i k) (conj (M j k))) (M i k * conj (M j k)) (‖M i k‖ * ‖M j k‖) := fun k => by
    have := (NearG.refl (M i k)).mul hA (NearG.refl (conj (M j k)))
    rwa [Complex.norm_conj, mul_one, mul_one] at this
  have h2 := t.nearG_add hA h1
  rw [ht.sum, ht.sum, ← pow_succ] at h2
  have hle : ∑ k, ‖M i k‖ * ‖M j k‖ ≤ √(((M * M.conjTranspose) i i).re * ((M * M.conjTranspose) j j).re) := by
    rw [selfMul_diag, selfMul_diag, Real.sqrt_mul (Finset.sum_nonneg fun k _ => by positivity)]
    exact Real.sum_mul_le_sqrt_mul_sqrt _ _ _
  refine (show _ from h2.err).trans (mul_le_mul_of_nonneg_left hle ?_)
  linarith [h2.one_le]

theorem OddRounding.zero {fl : ℝ → ℝ} (h : OddRounding fl) : fl 0 = 0 := by
  have := h 0
  rw [neg_zero] at this
  linarith

theorem conj_add_odd {fl : ℝ → ℝ} (h : OddRounding fl) (a b : ℂ) :
    (ofRounding fl).add (conj a) (conj b) = conj ((ofRounding fl).add a b) := by
  apply Complex.ext
  · simp [ofRounding]
  · simp only [ofRounding, Complex.conj_im]
    rw [← h]
    congr 1
    ring

theorem conj_mul_odd {fl : ℝ → ℝ} (h : OddRounding fl) (a b : ℂ) :
    (ofRounding fl).mul b (conj a) = conj ((ofRounding fl).mul a (conj b)) := by
  apply Complex.ext
  · simp only [ofRounding, Complex.conj_re, Complex.conj_im]
    congr 2
    · rw [mul_comm]
    · congr 1
      ring
  · simp only [ofRounding, Complex.conj_re, Complex.conj_im]
    rw [← h]
    congr 1
    rw [show b.re * -a.im = -(a.im * b.re) by ring, show a.re * -b.im = -(b.im * a.re) by ring, h, h]
    ring

theorem eval_conj {fl : ℝ → ℝ} (h : OddRounding fl) {ι : Type*} (t : RTree ι) (x : ι → ℂ) :
    t.eval (ofRounding fl).add (fun k => conj (x k)) = conj (t.eval (ofRounding fl).add x) := by
  induction t with
  | leaf i => rfl
  | node l r hl hr => simp only [RTree.eval, hl, hr, conj_add_odd h]

theorem selfMulF_hermitian {fl : ℝ → ℝ} (h : OddRounding fl) {n : ℕ} (t : RTree (Fin n)) (M : Matrix (Fin n) (Fin n) ℂ) :
    (selfMulF (ofRounding fl) t M).IsHermitian := by
  ext i j
  simp only [selfMulF, Matrix.conjTranspose_apply, Matrix.of_apply, Complex.star_def]
  rw [← eval_conj h]
  simp only [conj_mul_odd h (M i _) (M j _), Complex.conj_conj]

theorem selfMulF_diag_nonneg {fl : ℝ → ℝ} (h : OddRounding fl) (hpos : ∀ x, 0 ≤ x → 0 ≤ fl x) {n : ℕ} (t : RTree (Fin n))
    (M : Matrix (Fin n) (Fin n) ℂ) (i : Fin n) : 0 ≤ (selfMulF (ofRounding fl) t M i i).re := by
  simp only [selfMulF, Matrix.of_apply]
  have hx : ∀ k, 0 ≤ ((ofRounding fl).mul (M i k) (conj (M i k))).re := by
    intro k
    simp only [ofRounding, Complex.conj_re, Complex.conj_im]
    rw [show (M i k).im * -(M i k).im = -((M i k).im * (M i k).im) by ring, h, sub_neg_eq_add]
    exact hpos _ (add_nonneg (hpos _ (mul_self_nonneg _)) (hpos _ (mul_self_nonneg _)))
  induction t with
  | leaf k => exact hx k
  | node l r hl hr =>
    simp only [RTree.eval, ofRounding]
    exact hpos _ (add_nonneg hl hr)

theorem rndSym_odd (p : ℕ) : OddRounding (rndSym p) := by
  intro x
  unfold rndSym
  rcases lt_trichotomy x 0 with h | h | h
  · rw [if_neg (by linarith), if_pos h, neg_neg]
  · subst h
    simp [rnd_zero]
  · rw [if_pos (by linarith), if_neg (by linarith), neg_neg]

theorem rndSym_isRounding (p : ℕ) : IsRounding (rndSym p) (2 ^ (-(p : ℤ))) := by
  intro x
  unfold rndSym
  split
  · have := rnd_isRounding p (-x)
    rwa [abs_neg, show rnd p (-x) - -x = -(-rnd p (-x) - x) by ring, abs_neg] at this
  · exact rnd_isRounding p x

theorem rnd_nonneg (p : ℕ) {x : ℝ} (hx : 0 ≤ x) : 0 ≤ rnd p x := by
  have h := rnd_isRounding p x
  rw [abs_of_nonneg hx] at h
  have h2 : (2 : ℝ) ^ (-(p : ℤ)) ≤ 1 := by
    rw [zpow_neg, zpow_natCast]
    exact inv_le_one_of_one_le₀ (one_le_pow₀ (by norm_num))
  have := (abs_le.1 h).1
  nlinarith

theorem rndSym_nonneg (p : ℕ) : ∀ x, 0 ≤ x → 0 ≤ rndSym p x := by
  intro x hx
  unfold rndSym
  rw [if_neg (by linarith)]
  exact rnd_nonneg p hx

/-- The roundings met by `M = [[1, x], [0, 1]]` with `x = 2^p + 2`: the square of `x` loses its last digit. -/
theorem rnd_large (p : ℕ) (hp : 4 ≤ p) (x : ℝ) (hx : x = 2 ^ p + 2) :
    rnd p 1 = 1 ∧ rnd p x = x ∧ rnd p (x * x) = x * x - 4 ∧ rnd p (x * x - 4) = x * x - 4 ∧ rnd p (1 + (x * x - 4)) = x * x - 4 := by
  obtain ⟨r, rfl⟩ : ∃ r, p = r + 1 := ⟨p - 1, by omega⟩
  have hR : (8 : ℝ) ≤ 2 ^ r := by
    calc (8 : ℝ) = 2 ^ 3 := by norm_num
      _ ≤ _ := pow_le_pow_right₀ (by norm_num) (by omega)
  obtain ⟨R, hRd⟩ : ∃ R : ℝ, R = 2 ^ r := ⟨_, rfl⟩
  rw [← hRd] at hR
  have hx' : x = 2 * R + 2 := by rw [hx, hRd, pow_succ]; ring
  have hm : ∀ k : ℤ, (((2 : ℤ) ^ r + k : ℤ) : ℝ) = R + k := fun k => by push_cast; rw [hRd]
  have z1 : (2 : ℝ) ^ (((r + 1 : ℕ) : ℤ)) = 2 * R := by rw [zpow_natCast, pow_succ, hRd]; ring
  have z2 : (2 : ℝ) ^ (((r + 1 : ℕ) : ℤ) + 1) = 4 * R := by rw [zpow_add_one₀ (by norm_num), z1]; ring
  have z3 : (2 : ℝ) ^ (2 * ((r + 1 : ℕ) : ℤ)) = 4 * R ^ 2 := by rw [two_mul, zpow_add₀ (by norm_num), z1]; ring
  have z4 : (2 : ℝ) ^ (2 * ((r + 1 : ℕ) : ℤ) + 1) = 8 * R ^ 2 := by rw [zpow_add_one₀ (by norm_num), z3]; ring
  have z5 : (2 : ℝ) ^ (((r + 1 : ℕ) : ℤ) - 1 - ((r + 1 : ℕ) : ℤ)) = 1 / 2 := by
    rw [show ((r + 1 : ℕ) : ℤ) - 1 - ((r + 1 : ℕ) : ℤ) = -1 by ring]; norm_num
  have z6 : (2 : ℝ) ^ (((r + 1 : ℕ) : ℤ) - (((r + 1 : ℕ) : ℤ) - 1)) = 2 := by
    rw [show ((r + 1 : ℕ) : ℤ) - (((r + 1 : ℕ) : ℤ) - 1) = 1 by ring]; norm_num
  have z7 : (2 : ℝ) ^ (((r + 1 : ℕ) : ℤ) - 1 - 2 * ((r + 1 : ℕ) : ℤ)) = 1 / (4 * R) := by
    rw [show ((r + 1 : ℕ) : ℤ) - 1 - 2 * ((r + 1 : ℕ) : ℤ) = -(((r + 1 : ℕ) : ℤ) + 1) by ring, zpow_neg, z2, one_div]
  have z8 : (2 : ℝ) ^ (2 * ((r + 1 : ℕ) : ℤ) - (((r + 1 : ℕ) : ℤ) - 1)) = 4 * R := by
    rw [show 2 * ((r + 1 : ℕ) : ℤ) - (((r + 1 : ℕ) : ℤ) - 1) = ((r + 1 : ℕ) : ℤ) + 1 by ring, z2]
  have hbig : ∀ y, x * x - 4 ≤ y → y ≤ x * x → rnd (r + 1) y = x * x - 4 := by
    intro y h1 h2
    have e := rnd_eq_of (r + 1) y (2 * ((r + 1 : ℕ) : ℤ)) (2 ^ r + 2) (by rw [z3]; nlinarith) (by rw [z4]; nlinarith)
    rw [z7, z8, hm] at e
    rw [e ?_ ?_, hx']
    · push_cast; ring
    · rw [mul_one_div, le_div_iff₀ (by linarith)]
      push_cast
      nlinarith
    · rw [mul_one_div, div_lt_iff₀ (by linarith)]
      push_cast
      nlinarith
  refine ⟨?_, ?_, hbig _ (by linarith) le_rfl, hbig _ le_rfl (by linarith), hbig _ (by linarith) (by linarith)⟩
  · rw [rnd_one r 1 (2 ^ r) le_rfl (by norm_num) (by push_cast; linarith) (by push_cast; linarith)]
    push_cast
    field_simp
  · have e := rnd_eq_of (r + 1) x ((r + 1 : ℕ) : ℤ) (2 ^ r + 1) (by rw [z1]; linarith) (by rw [z2]; linarith)
    rw [z5, z6, hm] at e
    rw [e (by push_cast; linarith) (by push_cast; linarith), hx']
    push_cast
    ring

end Cyjax.Fl

namespace Cyjax.Ml

open Cyjax.Fl

theorem decodeF_eq (A : Arith) {n : ℕ} (t : RTree (Fin n)) (diag : Fin n → ℝ) (upper : List ℂ) {H : Matrix (Fin n) (Fin n) ℂ}
    (h : choleskyDecodeF A t diag upper = .ok H) :
    ∃ M, choleskyDecode diag upper = .ok (M * M.conjTranspose) ∧ H = selfMulF A t M := by
  unfold choleskyDecodeF at h
  unfold choleskyDecode
  cases hM : setEntries (Matrix.diagonal fun i => (diag i : ℂ)) (triuIndices n) upper with
  | error e => rw [hM] at h; cases h
  | ok M =>
    rw [hM] at h
    exact ⟨M, rfl, (Except.ok.inj h).symm⟩

end Cyjax.Ml
