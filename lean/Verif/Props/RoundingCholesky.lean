import Verif.Lemmas.RoundingCholesky
import Verif.Props.Cholesky
import Verif.Props.StepErrors
import Verif.Props.RoundingAccuracy

/-! # Property C172: the Cholesky parametrisation in rounded arithmetic -/

namespace Cyjax

open Cyjax.Fl Cyjax.Ml Cyjax.Donaldson Cyjax.Spec
open scoped ComplexOrder

variable {n : ℕ}

/-- **C172.** The parameters accepted do not depend on the arithmetic, and in exact arithmetic the result is that of C76. -/
theorem C172_accepts (A : Arith) (t : RTree (Fin n)) (diag : Fin n → ℝ) (upper : List ℂ) :
    (∃ H, choleskyDecodeF A t diag upper = .ok H) ↔ ∃ H, choleskyDecode diag upper = .ok H := by
  unfold choleskyDecodeF choleskyDecode
  cases setEntries (Matrix.diagonal fun i => (diag i : ℂ)) (triuIndices n) upper with
  | error e => simp
  | ok M => simp

theorem C172_exact (t : RTree (Fin n)) (ht : t.Covers) (diag : Fin n → ℝ) (upper : List ℂ) :
    choleskyDecodeF Fl.exact t diag upper = choleskyDecode diag upper := by
  unfold choleskyDecodeF choleskyDecode
  cases setEntries (Matrix.diagonal fun i => (diag i : ℂ)) (triuIndices n) upper with
  | error e => rfl
  | ok M =>
    simp only
    congr 1
    ext i j
    simp only [Matrix.of_apply, Matrix.mul_apply, Matrix.map_apply, Matrix.transpose_apply]
    exact (RTree.eval_add t _).trans (ht.sum _)

/-- **C172, errors.** Every entry of the computed matrix differs from the exact one by at most
`((1 + ε)^(d + 1) - 1) √(H_ii H_jj)`, where `d` is the depth of the sums. -/
theorem C172_error (A : Arith) {ε : ℝ} (hA : A.Accurate ε) (t : RTree (Fin n)) (ht : t.Covers) (diag : Fin n → ℝ) (upper : List ℂ)
    {H HF : Matrix (Fin n) (Fin n) ℂ} (h : choleskyDecode diag upper = .ok H) (hF : choleskyDecodeF A t diag upper = .ok HF)
    (i j : Fin n) : ‖HF i j - H i j‖ ≤ ((1 + ε) ^ (t.depth + 1) - 1) * √((H i i).re * (H j j).re) := by
  obtain ⟨M, h1, rfl⟩ := decodeF_eq A t diag upper hF
  rw [h1] at h
  obtain rfl := Except.ok.inj h
  exact selfMulF_near hA t ht M i j

/-- **C172.** With a rounding that does not depend on the sign the computed matrix is exactly Hermitian, with non-negative diagonal. -/
theorem C172_hermitian (fl : ℝ → ℝ) (hodd : OddRounding fl) (hpos : ∀ x, 0 ≤ x → 0 ≤ fl x) (t : RTree (Fin n)) (diag : Fin n → ℝ)
    (upper : List ℂ) {HF : Matrix (Fin n) (Fin n) ℂ} (hF : choleskyDecodeF (ofRounding fl) t diag upper = .ok HF) :
    HF.IsHermitian ∧ ∀ i, 0 ≤ (HF i i).re := by
  obtain ⟨M, -, rfl⟩ := decodeF_eq _ t diag upper hF
  exact ⟨selfMulF_hermitian hodd t M, selfMulF_diag_nonneg hodd hpos t M⟩

/-- **C172, partial.** It is positive definite, and agrees with the exact matrix up to a factor close to one, if the exact matrix is
sufficiently well conditioned: `H ≥ m`, diagonal at most `μ` and `n ((1 + 4u)^(d + 1) - 1) μ < m`. Missing: all other matrices, see
`C172_indefinite_violated`. -/
theorem C172_posDef_partial (fl : ℝ → ℝ) (u : ℝ) (hu0 : 0 ≤ u) (hu : u ≤ 1 / 2) (hfl : IsRounding fl u) (hodd : OddRounding fl)
    (t : RTree (Fin n)) (ht : t.Covers) (diag : Fin n → ℝ) (upper : List ℂ) {H HF : Matrix (Fin n) (Fin n) ℂ}
    (h : choleskyDecode diag upper = .ok H) (hF : choleskyDecodeF (ofRounding fl) t diag upper = .ok HF) {m μ : ℝ} (hm : 0 < m)
    (hlo : (H - (m : ℂ) • (1 : Matrix (Fin n) (Fin n) ℂ)).PosSemidef) (hμ : ∀ i, (H i i).re ≤ μ)
    (hc : n * (((1 + 4 * u) ^ (t.depth + 1) - 1) * μ) < m) :
    HF.PosDef ∧ WithinFactor (1 - n * (((1 + 4 * u) ^ (t.depth + 1) - 1) * μ) / m)⁻¹ HF H := by
  have hA := ofRounding_accurate fl u hu0 hu hfl
  have hherm : HF.IsHermitian := by
    obtain ⟨M, -, rfl⟩ := decodeF_eq _ t diag upper hF
    exact selfMulF_hermitian hodd t M
  have hsym : symmetrise HF = HF := by
    ext a b
    have := congrFun (congrFun hherm a) b
    rw [Matrix.conjTranspose_apply, Complex.star_def] at this
    simp only [symmetrise, Matrix.of_apply, this]
    ring
  have hdiag : ∀ i, 0 ≤ (H i i).re := fun i => by
    have h1 := (C76_posSemidef diag upper H h).2.1.diag_nonneg (i := i)
    exact (Complex.le_def.1 h1).1
  have hg : 0 ≤ (1 + 4 * u) ^ (t.depth + 1) - 1 := by
    have := one_le_pow₀ (n := t.depth + 1) (show 1 ≤ 1 + 4 * u by linarith)
    linarith
  have herr : ∀ a b, ‖HF a b - H a b‖ ≤ ((1 + 4 * u) ^ (t.depth + 1) - 1) * μ := fun a b => by
    refine (C172_error _ hA t ht diag upper h hF a b).trans (mul_le_mul_of_nonneg_left ?_ hg)
    have hμ0 : 0 ≤ μ := (hdiag a).trans (hμ a)
    rw [Real.sqrt_le_left hμ0, sq]
    exact mul_le_mul (hμ a) (hμ b) (hdiag b) hμ0
  have := C164_entries hm hc hlo herr
  rwa [hsym] at this

/-- The identity with an entry `1` above the diagonal, in double precision. -/
example : ∃ HF, choleskyDecodeF (ofRounding (rndSym 53)) (.node (.leaf 0) (.leaf 1)) ![1, 1] [1] = .ok HF ∧ HF.PosDef := by
  obtain ⟨HF, hF⟩ := (C172_accepts (ofRounding (rndSym 53)) (.node (.leaf 0) (.leaf 1)) ![1, 1] [1]).2
    ((C76_accepts ![1, 1] [1]).2 (Or.inr rfl))
  have h : choleskyDecode ![1, 1] [1] = .ok (!![2, 1; 1, 1] : Matrix (Fin 2) (Fin 2) ℂ) := by
    have e := decode_of_upper (n := 2) (M := !![1, 1; 0, 1]) (d := ![1, 1]) ⟨by
      intro i j hij; fin_cases i <;> fin_cases j <;> simp_all, by intro i; fin_cases i <;> simp⟩
    rw [show rowsAbove (!![1, 1; 0, 1] : Matrix (Fin 2) (Fin 2) ℂ) = [1] by simp [rowsAbove, List.finRange]] at e
    rw [e]
    congr 1
    ext i j
    fin_cases i <;> fin_cases j <;> simp [Matrix.mul_apply, Fin.sum_univ_two] <;> norm_num
  refine ⟨HF, hF, (C172_posDef_partial (rndSym 53) (2 ^ (-(53 : ℤ))) (by positivity) (by norm_num [zpow_neg])
    (rndSym_isRounding 53) (rndSym_odd 53) _ (by unfold RTree.Covers; decide) _ _ h hF (m := 1 / 4) (μ := 2) (by norm_num) ?_ ?_ ?_).1⟩
  · have e1 := Matrix.posSemidef_vecMulVec_self_star (R := ℂ) ![5 / 4, 4 / 5]
    have e2 : (Matrix.diagonal ![((3 / 16 : ℝ) : ℂ), ((11 / 100 : ℝ) : ℂ)] : Matrix (Fin 2) (Fin 2) ℂ).PosSemidef := by
      refine Matrix.PosSemidef.diagonal fun i => ?_
      fin_cases i <;> exact Complex.zero_le_real.2 (by norm_num)
    have e3 := e1.add e2
    convert e3 using 1
    ext i j
    rw [Matrix.add_apply, Matrix.vecMulVec_apply]
    fin_cases i <;> fin_cases j <;> simp <;> norm_num
  · intro i
    fin_cases i <;> norm_num
  · norm_num [RTree.depth, zpow_neg]

/-- **C172 is violated for badly conditioned parameters.** In arithmetic with `p ≥ 4` digits, for the diagonal `1, 1` and the entry
`x = 2^p + 2` above it, all represented exactly, the matrix returned is Hermitian but not positive definite: it is negative on the
vector `(1, -x)`. No tie is met, so the rule for ties does not matter. -/
theorem C172_indefinite_violated (p : ℕ) (hp : 4 ≤ p) (fl : ℝ → ℝ) (hfl : ∀ x, 0 ≤ x → fl x = rnd p x) :
    ∃ (x : ℝ) (H HF : Matrix (Fin 2) (Fin 2) ℂ), fl x = x ∧ fl 1 = 1 ∧ choleskyDecode ![1, 1] [(x : ℂ)] = .ok H ∧ H.PosDef ∧
      choleskyDecodeF (ofRounding fl) (.node (.leaf 0) (.leaf 1)) ![1, 1] [(x : ℂ)] = .ok HF ∧ HF.IsHermitian ∧
      dotProduct (star ![1, -(x : ℂ)]) (HF.mulVec ![1, -(x : ℂ)]) = -4 ∧ ¬ HF.PosDef := by
  obtain ⟨x, hx⟩ : ∃ x : ℝ, x = 2 ^ p + 2 := ⟨_, rfl⟩
  obtain ⟨r1, r2, r3, r4, r5⟩ := rnd_large p hp x hx
  have hx0 : 18 ≤ x := by
    have : (2 : ℝ) ^ 4 ≤ 2 ^ p := pow_le_pow_right₀ (by norm_num) hp
    rw [hx]
    linarith
  have z : fl 0 = 0 := by rw [hfl 0 le_rfl, rnd_zero]
  rw [← hfl _ (by norm_num)] at r1
  rw [← hfl _ (by linarith)] at r2
  rw [← hfl _ (by nlinarith)] at r3 r4 r5
  have hM : setEntries (Matrix.diagonal fun i => ((![1, 1] i : ℝ) : ℂ)) (triuIndices 2) [(x : ℂ)] =
      .ok (!![1, (x : ℂ); 0, 1] : Matrix (Fin 2) (Fin 2) ℂ) := by
    rw [show triuIndices 2 = [(0, 1)] by decide]
    simp only [setEntries, List.length_cons, List.length_nil, if_true, List.zip_cons_cons, List.zip_nil_right, List.foldl_cons,
      List.foldl_nil]
    congr 1
    ext i j
    fin_cases i <;> fin_cases j <;> simp [setEntry]
  have hmul : ∀ a b : ℝ, (ofRounding fl).mul (a : ℂ) (starRingEnd ℂ (b : ℂ)) = ((fl (fl (a * b)) : ℝ) : ℂ) := fun a b => by
    rw [Complex.conj_ofReal, ofRounding_mul_real _ z]
  have hprod : (Matrix.of fun i j => (RTree.node (.leaf (0 : Fin 2)) (.leaf 1)).eval (ofRounding fl).add fun k =>
      (ofRounding fl).mul ((!![1, (x : ℂ); 0, 1] : Matrix (Fin 2) (Fin 2) ℂ) i k)
        (starRingEnd ℂ ((!![1, (x : ℂ); 0, 1] : Matrix (Fin 2) (Fin 2) ℂ) j k))) =
      (!![((x * x - 4 : ℝ) : ℂ), (x : ℂ); (x : ℂ), 1] : Matrix (Fin 2) (Fin 2) ℂ) := by
    have h1 : (1 : ℂ) = ((1 : ℝ) : ℂ) := by simp
    have h0 : (0 : ℂ) = ((0 : ℝ) : ℂ) := by simp
    ext i j
    simp only [RTree.eval, Matrix.of_apply]
    rw [h1, h0]
    fin_cases i <;> fin_cases j <;> simp only [Matrix.cons_val', Matrix.cons_val_zero, Matrix.cons_val_one,
      Matrix.cons_val_fin_one, Fin.zero_eta, Fin.mk_one, Fin.isValue] <;> rw [hmul, hmul, ofRounding_add_real _ z]
    · rw [mul_one, r1, r1, r3, r4, r5]
    · rw [mul_zero, mul_one, z, z, r2, r2, zero_add, r2]
    · rw [zero_mul, one_mul, z, z, r2, r2, zero_add, r2]
    · rw [zero_mul, one_mul, z, z, r1, r1, zero_add, r1]
  refine ⟨x, _, !![((x * x - 4 : ℝ) : ℂ), (x : ℂ); (x : ℂ), 1], r2, r1, by unfold choleskyDecode; rw [hM],
    ?_, by unfold choleskyDecodeF; rw [hM]; simp only; rw [hprod], ?_, ?_, ?_⟩
  · refine (C76_posSemidef ![1, 1] [(x : ℂ)] _ (by unfold choleskyDecode; rw [hM])).2.2.2 fun i => ?_
    fin_cases i <;> simp
  · ext i j
    fin_cases i <;> fin_cases j <;> simp
  · simp [Matrix.mulVec, dotProduct, Fin.sum_univ_two]
    ring
  · intro hpd
    have := hpd.dotProduct_mulVec_pos (x := ![1, -(x : ℂ)]) (fun h => by simpa using congrFun h 0)
    rw [show dotProduct (star ![1, -(x : ℂ)]) ((!![((x * x - 4 : ℝ) : ℂ), (x : ℂ); (x : ℂ), 1] : Matrix (Fin 2) (Fin 2) ℂ).mulVec
      ![1, -(x : ℂ)]) = -4 by simp [Matrix.mulVec, dotProduct, Fin.sum_univ_two]; ring] at this
    have h4 := (Complex.lt_def.1 this).1
    norm_num at h4

/-- Double precision, ties away from zero. -/
example := C172_indefinite_violated 53 (by norm_num) (rndSym 53) fun x hx => by simp [rndSym, not_lt.2 hx]

end Cyjax
