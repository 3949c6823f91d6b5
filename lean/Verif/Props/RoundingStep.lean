import Verif.Lemmas.RoundingStep
import Verif.Props.StepErrors
import Verif.Props.RoundingAccuracy
import Verif.Props.Rounding

/-! # Rounding errors of Donaldson's step (C165) -/

namespace Cyjax

open Cyjax.Donaldson Cyjax.Spec Cyjax.Fl
open Cyjax.Polynomial (PyErr)
open scoped ComplexConjugate ComplexOrder

variable {N B M : ℕ}

/-- **C165.** The matrix `T` of a step, computed with rounding errors of at most `ε` for every operation, from sections, weights and a
volume with relative errors `δs`, `δw` and `δv`. If the terms of the denominators `∑ s_a h_ab conj(s_b)` are not larger, in sum,
than `κ` times the denominators, the error of every entry is at most `(P - 1) √(T_aa T_bb)` with
`P = (1 + ε)^(d + B + 7) (1 + δs)^2 (1 + δw) / ((2 - Q) (1 - δv))` and `Q = 1 + κ ((1 + ε)^(da + db + 4) (1 + δs)^2 - 1) < 2`; `B`
is the number of batches, `d`, `da` and `db` are the depths of the summations. `h` need not be Hermitian. -/
theorem C165_matrix (A : Arith) (D : DivAbs) {ε : ℝ} (hA : A.Accurate ε) (hD : D.Accurate ε) (ta tb : RTree (Fin N)) (hta : ta.Covers)
    (htb : tb.Covers) (hB : B ≠ 0) (t : RTree (Fin M)) (ht : t.Covers) (h : Matrix (Fin N) (Fin N) ℂ)
    (hh : (h + h.conjTranspose).PosDef) (vol vol' : ℝ) (hvol : 0 < vol) (mon mon' : Fin B → Fin M → Fin N → ℂ)
    (hmon : ∀ i k, mon i k ≠ 0) (w w' : Fin B → Fin M → ℝ) (hw : ∀ i k, 0 ≤ w i k) {δs δw δv κ : ℝ} (hδs : 0 ≤ δs) (hδw : 0 ≤ δw)
    (hδv : 0 ≤ δv) (hv1 : δv < 1) (hκ : 0 ≤ κ)
    (hcond : ∀ i k, ∑ b, ∑ a, ‖mon i k a‖ * ((‖h a b‖ + ‖h b a‖) / 2) * ‖mon i k b‖ ≤
      κ * ‖∑ a, ∑ b, mon i k a * conj (mon i k b) * ((h a b + conj (h b a)) / 2)‖)
    (hmon' : ∀ i k a, RelErr δs (mon' i k a) (mon i k a)) (hw' : ∀ i k, RelErr δw (w' i k) (w i k)) (hv : RelErr δv vol' vol)
    {Q P : ℝ} (hQ : Q = 1 + κ * ((1 + ε) ^ (ta.depth + tb.depth + 4) * (1 + δs) ^ 2 - 1)) (hQ2 : Q < 2)
    (hP : P = (1 + ε) ^ (t.depth + B + 7) * ((1 + δs) ^ 2 * (1 + δw)) / ((2 - Q) * (1 - δv))) (a b : Fin N) :
    ‖stepTF A D ta tb t h vol' mon' w' a b - stepT h vol mon w a b‖ ≤
      (P - 1) * √((stepT h vol mon w a a).re * (stepT h vol mon w b b).re) := by
  have hs := symmetrise_posDef hh
  have hc : ∀ i k, absDen (halfAbs h) (mon i k) ≤ κ * stepDen (symmetrise h) (mon i k) := by
    intro i k
    have e : (stepDen (symmetrise h) (mon i k) : ℂ) = ∑ a, ∑ b, mon i k a * conj (mon i k b) * ((h a b + conj (h b a)) / 2) := by
      rw [stepDen_eq (symmetrise_isHermitian h)]
      simp only [psi, conjS]
      exact Finset.sum_congr rfl fun a _ => Finset.sum_congr rfl fun b _ => by
        simp only [symmetrise, Matrix.of_apply]
        ring
    have := hcond i k
    rw [← e, Complex.norm_real, Real.norm_of_nonneg (stepDen_pos hs (hmon i k)).le] at this
    exact this
  have hn := stepTF_near hA hD hta htb hB ht hs hvol hmon hw hδs hδw hδv hκ hc hmon' hw' hv (by rw [denGrowth, ← hQ]; exact hQ2) hv1 a b
  rw [denGrowth, ← hQ, ← hP] at hn
  exact hn.err.trans (mul_le_mul_of_nonneg_left (stepT_cauchy hs hvol hmon hw a b) (by linarith [hn.one_le]))

/-- **C165.** The condition of `C165_matrix` holds, at all points, with `κ = N μ / m` if the Hermitian part of `h` is at least `m` and the entries of
`h` are at most `μ`. -/
theorem C165_condition {h : Matrix (Fin N) (Fin N) ℂ} {μ m : ℝ} (hm : 0 < m) (hμ : ∀ a b, ‖h a b‖ ≤ μ)
    (hlo : (symmetrise h - (m : ℂ) • (1 : Matrix (Fin N) (Fin N) ℂ)).PosSemidef) (s : Fin N → ℂ) :
    ∑ b, ∑ a, ‖s a‖ * ((‖h a b‖ + ‖h b a‖) / 2) * ‖s b‖ ≤
      N * μ / m * ‖∑ a, ∑ b, s a * conj (s b) * ((h a b + conj (h b a)) / 2)‖ := by
  have h1 : ((m : ℂ) • (1 : Matrix (Fin N) (Fin N) ℂ)).IsHermitian := smul_isHermitian m Matrix.isHermitian_one
  have hlo' : ∀ u, m * qf 1 u ≤ qf (symmetrise h) u := by
    have := (sub_psd_iff h1 (symmetrise_isHermitian h)).1 hlo
    simpa only [qf_smul] using this
  refine (absDen_le hm hμ hlo' s).trans ?_
  rcases isEmpty_or_nonempty (Fin N) with hN | ⟨⟨a₀⟩⟩
  · simp [stepDen]
  have hμ0 : 0 ≤ μ := (norm_nonneg _).trans (hμ a₀ a₀)
  refine mul_le_mul_of_nonneg_left ?_ (by positivity)
  exact (Complex.re_le_norm _)

/-- **C165, the inverse.** Let `T'` be `T` with errors and `X` the result of a library function for its inverse, with the residual
`T' X - 1`. Row sums: `L` of `T⁻¹`, `φ` of the errors `T' - T` and `η` of the residual. Then the errors of the entries of `X` are at
most `L (η + φ L (1 + η) / (1 - L φ))`. -/
theorem C165_inverse {T T' X : Matrix (Fin N) (Fin N) ℂ} (hT : IsUnit T) {L φ η : ℝ} (hL : 0 ≤ L) (hφ : 0 ≤ φ) (hη : 0 ≤ η)
    (hinv : ∀ a, ∑ b, ‖T⁻¹ a b‖ ≤ L) (hF : ∀ a, ∑ b, ‖T' a b - T a b‖ ≤ φ) (hX : ∀ a, ∑ b, ‖(T' * X - 1) a b‖ ≤ η) (hLφ : L * φ < 1)
    (a b : Fin N) : ‖X a b - T⁻¹ a b‖ ≤ L * (η + φ * (L * (1 + η) / (1 - L * φ))) :=
  inv_entries hT hL hφ hη hinv hF hX hLφ a b

/-- **C165, the step.** The result of a step in rounded arithmetic is, up to a factor close to one, the result `e` of the exact step
from the same matrix: with `P` as in `C165_matrix`, a bound `τ` of the diagonal entries of the exact `T`, row sums of `T⁻¹` of at most
`L`, a residual of the library function of at most `η` and `e ≥ m`, the factor is `1 / (1 - N err / m)` with
`err = L (η + φ L (1 + η) / (1 - L φ))` and `φ = N τ (P - 1)`. This is the hypothesis of `C164_iteration`. -/
theorem C165_step (A : Arith) (D : DivAbs) {ε : ℝ} (hA : A.Accurate ε) (hD : D.Accurate ε) (ta tb : RTree (Fin N)) (hta : ta.Covers)
    (htb : tb.Covers) (hB : B ≠ 0) (t : RTree (Fin M)) (ht : t.Covers) (h : Matrix (Fin N) (Fin N) ℂ)
    (hh : (h + h.conjTranspose).PosDef) (vol vol' : ℝ) (hvol : 0 < vol) (mon mon' : Fin B → Fin M → Fin N → ℂ)
    (hmon : ∀ i k, mon i k ≠ 0) (w w' : Fin B → Fin M → ℝ) (hw : ∀ i k, 0 ≤ w i k)
    (hspan : ∀ c : Fin N → ℂ, (∀ i k, 0 < w i k → ∑ a, c a * mon i k a = 0) → c = 0) {δs δw δv κ : ℝ} (hδs : 0 ≤ δs) (hδw : 0 ≤ δw)
    (hδv : 0 ≤ δv) (hv1 : δv < 1) (hκ : 0 ≤ κ)
    (hcond : ∀ i k, ∑ b, ∑ a, ‖mon i k a‖ * ((‖h a b‖ + ‖h b a‖) / 2) * ‖mon i k b‖ ≤
      κ * ‖∑ a, ∑ b, mon i k a * conj (mon i k b) * ((h a b + conj (h b a)) / 2)‖)
    (hmon' : ∀ i k a, RelErr δs (mon' i k a) (mon i k a)) (hw' : ∀ i k, RelErr δw (w' i k) (w i k)) (hv : RelErr δv vol' vol)
    {Q P : ℝ} (hQ : Q = 1 + κ * ((1 + ε) ^ (ta.depth + tb.depth + 4) * (1 + δs) ^ 2 - 1)) (hQ2 : Q < 2)
    (hP : P = (1 + ε) ^ (t.depth + B + 7) * ((1 + δs) ^ 2 * (1 + δw)) / ((2 - Q) * (1 - δv)))
    (inv : Matrix (Fin N) (Fin N) ℂ → Matrix (Fin N) (Fin N) ℂ) {η L τ φ err m : ℝ} (hη : 0 ≤ η) (hL : 0 ≤ L)
    (hres : ∀ a, ∑ b, ‖(stepTF A D ta tb t h vol' mon' w' * inv (stepTF A D ta tb t h vol' mon' w') - 1) a b‖ ≤ η)
    (hinv : ∀ a, ∑ b, ‖(stepT h vol mon w)⁻¹ a b‖ ≤ L) (hτ : ∀ a, (stepT h vol mon w a a).re ≤ τ)
    (hφ : φ = N * (τ * (P - 1))) (hLφ : L * φ < 1) (herr : err = L * (η + φ * (L * (1 + η) / (1 - L * φ)))) (hm : 0 < m)
    (hNerr : N * err < m) {e : Matrix (Fin N) (Fin N) ℂ} (he : donaldsonStep .complex h vol mon w = .ok e)
    (hlo : (e - (m : ℂ) • (1 : Matrix (Fin N) (Fin N) ℂ)).PosSemidef) :
    (∀ a b, ‖donaldsonStepF A D inv ta tb t h vol' mon' w' a b - e a b‖ ≤ err) ∧
      (symmetrise (donaldsonStepF A D inv ta tb t h vol' mon' w')).PosDef ∧
      WithinFactor (1 - N * err / m)⁻¹ (symmetrise (donaldsonStepF A D inv ta tb t h vol' mon' w')) e := by
  have hT := C74_invertible h hh vol hvol mon hmon w hw hspan
  have hent := C165_matrix A D hA hD ta tb hta htb hB t ht h hh vol vol' hvol mon mon' hmon w w' hw hδs hδw hδv hv1 hκ hcond hmon' hw'
    hv hQ hQ2 hP
  have hd0 : ∀ a, 0 ≤ (stepT h vol mon w a a).re := fun a => (Complex.le_def.1 (hT.posSemidef.diag_nonneg (i := a))).1
  have hP1 : ∀ _ : Fin N, 0 ≤ P - 1 := by
    intro a
    rcases (hd0 a).lt_or_eq with h1 | h1
    · have h2 := (norm_nonneg _).trans (hent a a)
      rw [Real.sqrt_mul_self (hd0 a)] at h2
      exact nonneg_of_mul_nonneg_left h2 h1
    · have := (Complex.lt_def.1 (hT.diag_pos (i := a))).1
      rw [Complex.zero_re, ← h1] at this
      exact absurd this (lt_irrefl _)
  have hrow : ∀ a, ∑ b, ‖stepTF A D ta tb t h vol' mon' w' a b - stepT h vol mon w a b‖ ≤ φ := by
    intro a
    have hτ0 : 0 ≤ τ := (hd0 a).trans (hτ a)
    calc _ ≤ ∑ _b : Fin N, τ * (P - 1) := by
            refine Finset.sum_le_sum fun b _ => (hent a b).trans ?_
            rw [mul_comm]
            refine mul_le_mul_of_nonneg_right ?_ (hP1 a)
            exact Real.sqrt_le_iff.2 ⟨hτ0, by rw [sq]; exact mul_le_mul (hτ a) (hτ b) (hd0 b) hτ0⟩
      _ = φ := by rw [Finset.sum_const, Finset.card_univ, Fintype.card_fin, nsmul_eq_mul, hφ]
  have hE : e = (stepT h vol mon w)⁻¹.transpose := by
    have : donaldsonStep .complex h vol mon w = .ok (stepT h vol mon w)⁻¹.transpose := rfl
    rw [this] at he
    exact (Except.ok.inj he).symm
  have hbound : ∀ a b, ‖donaldsonStepF A D inv ta tb t h vol' mon' w' a b - e a b‖ ≤ err := by
    intro a b
    have hφ0 : 0 ≤ φ := (Finset.sum_nonneg fun b _ => norm_nonneg _).trans (hrow a)
    rw [hE, herr]
    exact C165_inverse hT.isUnit hL hφ0 hη hinv hrow hres hLφ b a
  exact ⟨hbound, C164_entries hm hNerr hlo hbound⟩

/-- **C165.** In exact arithmetic, and with the exact inverse, this is the step of C21 and C74. -/
theorem C165_exact (ta tb : RTree (Fin N)) (hta : ta.Covers) (htb : tb.Covers) (t : RTree (Fin M)) (ht : t.Covers)
    (h : Matrix (Fin N) (Fin N) ℂ) (vol : ℝ) (mon : Fin B → Fin M → Fin N → ℂ) (w : Fin B → Fin M → ℝ) :
    donaldsonStep .complex h vol mon w = .ok (donaldsonStepF Fl.exact exactDivAbs (·⁻¹) ta tb t h vol mon w) := by
  have h0 : symmetriseF Fl.exact exactDivAbs h = symmetrise h := rfl
  have h1 : ∀ s, stepDenF Fl.exact ta tb (symmetrise h) s = stepDen (symmetrise h) s := by
    intro s
    simp only [stepDenF, stepDen, Fl.exact, RTree.eval_add, hta.sum, htb.sum]
    rw [Finset.sum_comm]
    refine congrArg Complex.re (Finset.sum_congr rfl fun b _ => ?_)
    rw [Finset.sum_mul]
    exact Finset.sum_congr rfl fun a _ => by ring
  have h2 : ∀ i a b, deltaTF Fl.exact exactDivAbs ta tb t (symmetrise h) (mon i) (w i) a b = deltaT (symmetrise h) (mon i) (w i) a b := by
    intro i a b
    simp only [deltaTF, deltaT, Matrix.of_apply, meanF, meanC, h1]
    simp only [Fl.exact, exactDivAbs, RTree.eval_add, ht.sum, Complex.ofReal_div]
  have h3 : stepTF Fl.exact exactDivAbs ta tb t h vol mon w = stepT h vol mon w := by
    simp only [stepTF, stepT, h0, h2]
    rfl
  rw [donaldsonStepF, h3]
  rfl

/-! Two sections and two points, at each of which one of the sections vanishes, the unit matrix, single precision, and any inverse
with a residual of at most `10^(-6)`: the errors of the entries are at most `2 * 10^(-5)`. -/

private def exMon : Fin 1 → Fin 2 → Fin 2 → ℂ := fun _ k => Pi.single k 1

private theorem exT : stepT (1 : Matrix (Fin 2) (Fin 2) ℂ) 1 exMon (fun _ _ => 1) = 1 := by
  ext a b
  rw [stepT_apply, symmetrise_of_isHermitian Matrix.isHermitian_one]
  have hd : ∀ k, stepDen (1 : Matrix (Fin 2) (Fin 2) ℂ) (exMon 0 k) = 1 := by
    intro k
    simp [stepDen, exMon, Pi.single_apply, Matrix.one_apply]
  simp only [Finset.univ_unique, Fin.default_eq_zero, Finset.sum_singleton, hd, Fin.sum_univ_two]
  fin_cases a <;> fin_cases b <;> simp [exMon]

example (inv : Matrix (Fin 2) (Fin 2) ℂ → Matrix (Fin 2) (Fin 2) ℂ) (X : Matrix (Fin 2) (Fin 2) ℂ)
    (hX : X = donaldsonStepF (ofRounding (rnd 24)) (divAbsOfRounding (rnd 24)) inv (.node (.leaf 0) (.leaf 1)) (.node (.leaf 1) (.leaf 0))
      (.node (.leaf 0) (.leaf 1)) 1 1 exMon fun _ _ => 1) (T : Matrix (Fin 2) (Fin 2) ℂ)
    (hT : T = stepTF (ofRounding (rnd 24)) (divAbsOfRounding (rnd 24)) (.node (.leaf 0) (.leaf 1)) (.node (.leaf 1) (.leaf 0))
      (.node (.leaf 0) (.leaf 1)) 1 1 exMon fun _ _ => 1)
    (hinv : ∀ a, ∑ b, ‖(T * inv T - 1) a b‖ ≤ 10 ^ (-(6 : ℤ))) (a b : Fin 2) :
    ‖X a b - (1 : Matrix (Fin 2) (Fin 2) ℂ) a b‖ ≤ 2 * 10 ^ (-(5 : ℤ)) := by
  have hrow : ∀ a : Fin 2, ∑ b, ‖(1 : Matrix (Fin 2) (Fin 2) ℂ) a b‖ ≤ 1 := by
    intro a
    rw [Finset.sum_eq_single a (fun b _ h => by rw [Matrix.one_apply_ne h.symm, norm_zero]) (by simp), Matrix.one_apply_eq, norm_one]
  have he : donaldsonStep .complex (1 : Matrix (Fin 2) (Fin 2) ℂ) 1 exMon (fun _ _ => 1) = .ok 1 := by
    show Except.ok _ = _
    rw [exT, inv_one, Matrix.transpose_one]
  have h := (C165_step _ _ (C159_floats 24 (by norm_num)).2 (C161_floats 24) (.node (.leaf 0) (.leaf 1)) (.node (.leaf 1) (.leaf 0))
    (by unfold RTree.Covers; decide) (by unfold RTree.Covers; decide) one_ne_zero (.node (.leaf 0) (.leaf 1)) (by unfold RTree.Covers; decide)
    (1 : Matrix (Fin 2) (Fin 2) ℂ) (by rw [Matrix.conjTranspose_one]; exact Matrix.PosDef.one.add Matrix.PosDef.one) 1 1 one_pos exMon exMon
    (fun i k h => by
      have := congrFun h k
      simp [exMon] at this)
    (fun _ _ => 1) (fun _ _ => 1) (fun _ _ => zero_le_one)
    (fun c h => by
      funext k
      have := h 0 k one_pos
      simpa [exMon, Pi.single_apply] using this)
    (δs := 0) (δw := 0) (δv := 0) (κ := 2 * 1 / 1) le_rfl le_rfl le_rfl one_pos (by norm_num)
    (fun i k => C165_condition (N := 2) one_pos (fun a b => by fin_cases a <;> fin_cases b <;> simp)
      (by rw [symmetrise_of_isHermitian Matrix.isHermitian_one]; simpa using Matrix.PosSemidef.zero) (exMon i k))
    (fun _ _ _ => by simp [RelErr]) (fun _ _ => by simp [RelErr]) (by simp [RelErr]) rfl
    (by norm_num [RTree.depth, zpow_neg]) rfl inv (η := 10 ^ (-(6 : ℤ))) (L := 1) (τ := 1) (m := 1) (by positivity) zero_le_one
    (by rw [hT] at hinv; exact hinv) (by rw [exT, inv_one]; exact hrow) (fun a => by rw [exT]; fin_cases a <;> simp) rfl
    (by norm_num [RTree.depth, zpow_neg]) rfl one_pos (by norm_num [RTree.depth, zpow_neg]) he
    (by simpa using Matrix.PosSemidef.zero)).1 a b
  rw [hX]
  refine h.trans ?_
  norm_num [RTree.depth, zpow_neg]

end Cyjax
