import Verif.Lemmas.DonaldsonStep
import Verif.Props.Geometry
import Verif.Props.DonaldsonBasis
import Mathlib.Analysis.Matrix.Order
import Mathlib.Algebra.Order.BigOperators.Group.Finset

/-! # `sigma_accuracy` and `donaldson_step` (C73–C75, C98, C99) -/

namespace Cyjax

open Cyjax.Donaldson Cyjax.Spec Cyjax.Projective
open Cyjax.Polynomial (PyErr)
open scoped ComplexConjugate ComplexOrder

/-! ## C73 -/

section Sigma

variable {n : ℕ}

theorem sigma_eq (e w : Fin n → ℝ) (hn : n ≠ 0) (hw : 0 < ∑ i, w i) :
    sigmaAccuracy (fun i => (e i : ℂ)) w =
      (∑ i, |1 - e i * (∑ j, w j) / ∑ j, e j * w j| * w i) / ∑ i, w i := by
  have hnR : (n : ℝ) ≠ 0 := Nat.cast_ne_zero.2 hn
  have hnC : (n : ℂ) ≠ 0 := Nat.cast_ne_zero.2 hn
  have h1 : meanC (fun i => (e i : ℂ) * w i) = (((∑ j, e j * w j) / n : ℝ) : ℂ) := by
    unfold meanC
    push_cast
    rfl
  have h2 : (meanC fun i => (w i : ℂ)).re = (∑ j, w j) / n := by
    have : meanC (fun i => (w i : ℂ)) = (((∑ j, w j) / n : ℝ) : ℂ) := by
      unfold meanC
      push_cast
      rfl
    rw [this, Complex.ofReal_re]
  unfold sigmaAccuracy
  simp only [h1, h2]
  have h3 : ∀ i, ‖1 - (e i : ℂ) * (((∑ j, w j) / n : ℝ) : ℂ) / (((∑ j, e j * w j) / n : ℝ) : ℂ)‖ =
      |1 - e i * (∑ j, w j) / ∑ j, e j * w j| := by
    intro i
    rw [← Complex.ofReal_mul, ← Complex.ofReal_div, ← Complex.ofReal_one, ← Complex.ofReal_sub, Complex.norm_real,
      Real.norm_eq_abs]
    congr 2
    field_simp
  simp only [h3]
  rw [div_div_div_cancel_right₀ hnR]

/-- **C73.** For positive `eta` and positive weights, `0 ≤ sigma ≤ 2`. -/
theorem C73_bounds (e w : Fin n → ℝ) (hn : n ≠ 0) (he : ∀ i, 0 < e i) (hw : ∀ i, 0 < w i) :
    0 ≤ sigmaAccuracy (fun i => (e i : ℂ)) w ∧ sigmaAccuracy (fun i => (e i : ℂ)) w ≤ 2 := by
  have : Nonempty (Fin n) := ⟨⟨0, Nat.pos_of_ne_zero hn⟩⟩
  have hW : 0 < ∑ i, w i := Finset.sum_pos (fun i _ => hw i) Finset.univ_nonempty
  have hE : 0 < ∑ i, e i * w i := Finset.sum_pos (fun i _ => mul_pos (he i) (hw i)) Finset.univ_nonempty
  rw [sigma_eq e w hn hW]
  constructor
  · exact div_nonneg (Finset.sum_nonneg fun i _ => mul_nonneg (abs_nonneg _) (hw i).le) hW.le
  · rw [div_le_iff₀ hW]
    have h1 : ∀ i, |1 - e i * (∑ j, w j) / ∑ j, e j * w j| * w i ≤
        w i + e i * w i * ((∑ j, w j) / ∑ j, e j * w j) := by
      intro i
      have hx : 0 ≤ e i * (∑ j, w j) / ∑ j, e j * w j := div_nonneg (mul_nonneg (he i).le hW.le) hE.le
      have : |1 - e i * (∑ j, w j) / ∑ j, e j * w j| ≤ 1 + e i * (∑ j, w j) / ∑ j, e j * w j := by
        rw [abs_le]
        constructor <;> linarith
      calc _ ≤ (1 + e i * (∑ j, w j) / ∑ j, e j * w j) * w i := mul_le_mul_of_nonneg_right this (hw i).le
        _ = _ := by ring
    calc _ ≤ ∑ i, (w i + e i * w i * ((∑ j, w j) / ∑ j, e j * w j)) := Finset.sum_le_sum fun i _ => h1 i
      _ = 2 * ∑ i, w i := by
        rw [Finset.sum_add_distrib, ← Finset.sum_mul]
        field_simp
        ring

/-- **C73.** `sigma` vanishes exactly if all `eta` are equal. -/
theorem C73_zero (e w : Fin n → ℝ) (hn : n ≠ 0) (he : ∀ i, 0 < e i) (hw : ∀ i, 0 < w i) :
    sigmaAccuracy (fun i => (e i : ℂ)) w = 0 ↔ ∀ i j, e i = e j := by
  have : Nonempty (Fin n) := ⟨⟨0, Nat.pos_of_ne_zero hn⟩⟩
  have hW : 0 < ∑ i, w i := Finset.sum_pos (fun i _ => hw i) Finset.univ_nonempty
  have hE : 0 < ∑ i, e i * w i := Finset.sum_pos (fun i _ => mul_pos (he i) (hw i)) Finset.univ_nonempty
  rw [sigma_eq e w hn hW, div_eq_zero_iff, or_iff_left hW.ne',
    Finset.sum_eq_zero_iff_of_nonneg fun i _ => mul_nonneg (abs_nonneg _) (hw i).le]
  constructor
  · intro h i j
    have key : ∀ i, e i = (∑ j, e j * w j) / ∑ j, w j := by
      intro i
      have h1 := h i (Finset.mem_univ i)
      rw [mul_eq_zero, or_iff_left (hw i).ne', abs_eq_zero, sub_eq_zero, eq_comm, div_eq_one_iff_eq hE.ne'] at h1
      rw [eq_div_iff hW.ne', h1]
    rw [key i, key j]
  · intro h i _
    have h1 : ∑ j, e j * w j = e i * ∑ j, w j := by
      rw [Finset.mul_sum]
      exact Finset.sum_congr rfl fun j _ => by rw [h j i]
    rw [← h1, div_self hE.ne', sub_self, abs_zero, zero_mul]

/-- **C73.** `sigma` is unchanged if all `eta` are multiplied by the same non-zero constant. -/
theorem C73_scale (e : Fin n → ℂ) (w : Fin n → ℝ) (c : ℂ) (hc : c ≠ 0) :
    sigmaAccuracy (fun i => c * e i) w = sigmaAccuracy e w := by
  unfold sigmaAccuracy
  have h1 : meanC (fun i => c * e i * w i) = c * meanC fun i => e i * w i := by
    unfold meanC
    rw [mul_div_assoc', Finset.mul_sum]
    simp only [mul_assoc]
  simp only [h1]
  have h2 : ∀ (x y z : ℂ), c * x * y / (c * z) = x * y / z := by
    intro x y z
    rw [mul_assoc, mul_div_mul_left _ _ hc]
  simp only [h2]

/-- Two points with different `eta`. -/
example : ∃ e w : Fin 2 → ℝ, (∀ i, 0 < e i) ∧ (∀ i, 0 < w i) ∧ e 0 ≠ e 1 :=
  ⟨![1, 2], ![1, 3], by intro i; fin_cases i <;> simp, by intro i; fin_cases i <;> simp, by simp⟩

end Sigma

/-! ## C74 -/

variable {N B M : ℕ}

/-- **C74.** `T` is Hermitian, for every `h`, points and weights. -/
theorem C74_hermitian (h : Matrix (Fin N) (Fin N) ℂ) (vol : ℝ) (mon : Fin B → Fin M → Fin N → ℂ)
    (w : Fin B → Fin M → ℝ) : (stepT h vol mon w).IsHermitian := by
  ext a b
  change conj (stepT h vol mon w b a) = stepT h vol mon w a b
  rw [stepT_apply, stepT_apply]
  simp only [map_mul, map_div₀, map_sum, Complex.conj_ofReal, Complex.conj_conj, map_natCast]
  congr 1
  refine Finset.sum_congr rfl fun i _ => Finset.sum_congr rfl fun k _ => ?_
  ring

/-- **C74.** `T` is positive semi-definite for `H` with positive definite Hermitian part, sections without common zero at
the sampled points, non-negative weights and positive volume. -/
theorem C74_posSemidef (h : Matrix (Fin N) (Fin N) ℂ) (hh : (h + h.conjTranspose).PosDef) (vol : ℝ) (hvol : 0 < vol)
    (mon : Fin B → Fin M → Fin N → ℂ) (hmon : ∀ i k, mon i k ≠ 0) (w : Fin B → Fin M → ℝ) (hw : ∀ i k, 0 ≤ w i k) :
    (stepT h vol mon w).PosSemidef := by
  refine Matrix.PosSemidef.of_dotProduct_mulVec_nonneg (C74_hermitian h vol mon w) fun x => ?_
  rw [stepT_form]
  have : 0 ≤ (N : ℝ) / (vol * (B * M)) * ∑ i, ∑ k,
      ‖∑ a, conj (x a) * mon i k a‖ ^ 2 * (w i k / stepDen (symmetrise h) (mon i k)) := by
    refine mul_nonneg (by positivity) (Finset.sum_nonneg fun i _ => Finset.sum_nonneg fun k _ => ?_)
    exact mul_nonneg (by positivity) (div_nonneg (hw i k) (stepDen_pos (symmetrise_posDef hh) (hmon i k)).le)
  exact_mod_cast this

/-- **C74.** The new `H` is Hermitian. -/
theorem C74_new_hermitian (h : Matrix (Fin N) (Fin N) ℂ) (vol : ℝ) (mon : Fin B → Fin M → Fin N → ℂ)
    (w : Fin B → Fin M → ℝ) :
    ∃ h', donaldsonStep .complex h vol mon w = .ok h' ∧ h'.IsHermitian := by
  refine ⟨_, rfl, ?_⟩
  exact (C74_hermitian h vol mon w).inv.transpose

/-- **C74.** If `T` is invertible, the new `H` is positive definite. -/
theorem C74_new_posDef (h : Matrix (Fin N) (Fin N) ℂ) (hh : (h + h.conjTranspose).PosDef) (vol : ℝ) (hvol : 0 < vol)
    (mon : Fin B → Fin M → Fin N → ℂ) (hmon : ∀ i k, mon i k ≠ 0) (w : Fin B → Fin M → ℝ) (hw : ∀ i k, 0 ≤ w i k)
    (hT : IsUnit (stepT h vol mon w)) :
    ∃ h', donaldsonStep .complex h vol mon w = .ok h' ∧ h'.PosDef := by
  refine ⟨_, rfl, ?_⟩
  have h1 : (stepT h vol mon w).PosDef := (C74_posSemidef h hh vol hvol mon hmon w hw).posDef_iff_isUnit.2 hT
  exact h1.inv.transpose

/-- **C74.** `T` is positive definite, hence invertible, if no non-trivial linear combination of the sections vanishes at
all sampled points of positive weight. -/
theorem C74_invertible (h : Matrix (Fin N) (Fin N) ℂ) (hh : (h + h.conjTranspose).PosDef) (vol : ℝ) (hvol : 0 < vol)
    (mon : Fin B → Fin M → Fin N → ℂ) (hmon : ∀ i k, mon i k ≠ 0) (w : Fin B → Fin M → ℝ) (hw : ∀ i k, 0 ≤ w i k)
    (hspan : ∀ c : Fin N → ℂ, (∀ i k, 0 < w i k → ∑ a, c a * mon i k a = 0) → c = 0) :
    (stepT h vol mon w).PosDef := by
  refine Matrix.PosDef.of_dotProduct_mulVec_pos (C74_hermitian h vol mon w) fun {x} hx => ?_
  rw [stepT_form]
  have hx' : (fun a => conj (x a)) ≠ 0 := by
    intro h0
    apply hx
    funext i
    have := congrFun h0 i
    simpa using this
  have hne : ∃ i k, 0 < w i k ∧ ∑ a, conj (x a) * mon i k a ≠ 0 := by
    by_contra hcon
    push Not at hcon
    exact hx' (hspan _ hcon)
  obtain ⟨i, k, hik, hsum⟩ := hne
  have hN : 0 < N := by
    rcases Nat.eq_zero_or_pos N with rfl | h0
    · exact absurd (funext fun a => a.elim0) hx
    · exact h0
  have hB : 0 < B := i.pos
  have hM : 0 < M := k.pos
  have hterm : ∀ i k, 0 ≤ ‖∑ a, conj (x a) * mon i k a‖ ^ 2 * (w i k / stepDen (symmetrise h) (mon i k)) :=
    fun i k => mul_nonneg (by positivity) (div_nonneg (hw i k) (stepDen_pos (symmetrise_posDef hh) (hmon i k)).le)
  have : 0 < (N : ℝ) / (vol * (B * M)) * ∑ i, ∑ k,
      ‖∑ a, conj (x a) * mon i k a‖ ^ 2 * (w i k / stepDen (symmetrise h) (mon i k)) := by
    refine mul_pos (by positivity) ?_
    refine Finset.sum_pos' (fun i _ => Finset.sum_nonneg fun k _ => hterm i k) ⟨i, Finset.mem_univ i, ?_⟩
    refine Finset.sum_pos' (fun k _ => hterm i k) ⟨k, Finset.mem_univ k, ?_⟩
    exact mul_pos (pow_pos (norm_pos_iff.2 hsum) 2) (div_pos hik (stepDen_pos (symmetrise_posDef hh) (hmon i k)))
  exact_mod_cast this

/-- One section, one point. -/
example : (stepT (1 : Matrix (Fin 1) (Fin 1) ℂ) 1 (fun _ _ _ => 1 : Fin 1 → Fin 1 → Fin 1 → ℂ) fun _ _ => 1).PosDef := by
  refine C74_invertible 1 ?_ 1 one_pos _ (fun i k h => ?_) _ (fun _ _ => zero_le_one) fun c hc => ?_
  · rw [Matrix.conjTranspose_one]
    exact Matrix.PosDef.one.add Matrix.PosDef.one
  · simpa using congrFun h 0
  · have := hc 0 0 one_pos
    funext i
    fin_cases i
    simpa using this

/-! ## C75 -/

/-- **C75.** `T` is `N / vol_cy` times the average of `s_a conj(s_b) w / psi` over all sampled points of all batches. -/
theorem C75_average (h : Matrix (Fin N) (Fin N) ℂ) (hh : h.IsHermitian) (vol : ℝ) (mon : Fin B → Fin M → Fin N → ℂ)
    (w : Fin B → Fin M → ℝ) (a b : Fin N) :
    stepT h vol mon w a b = (N : ℂ) / vol * ((∑ i, ∑ k,
      mon i k a * conj (mon i k b) * w i k / psi (.full h) (mon i k) (conjS (mon i k))) / (B * M : ℕ)) := by
  rw [stepT_apply, symmetrise_of_isHermitian hh]
  have : ∀ i k, mon i k a * conj (mon i k b) * ((w i k / stepDen h (mon i k) : ℝ) : ℂ) =
      mon i k a * conj (mon i k b) * w i k / psi (.full h) (mon i k) (conjS (mon i k)) := by
    intro i k
    rw [Complex.ofReal_div, stepDen_eq hh, mul_div_assoc']
  simp only [this]
  push_cast
  rw [mul_div_assoc', div_mul_eq_mul_div, div_mul_eq_mul_div, div_div]

/-- **C75.** Only the collection of sampled points matters: distributing the same points over batches in another way
(another number of batches, another order) gives the same result. -/
theorem C75_split {B' M' : ℕ} (dt : DType) (h : Matrix (Fin N) (Fin N) ℂ) (vol : ℝ) (mon : Fin B → Fin M → Fin N → ℂ)
    (w : Fin B → Fin M → ℝ) (mon' : Fin B' → Fin M' → Fin N → ℂ) (w' : Fin B' → Fin M' → ℝ)
    (σ : Fin B × Fin M ≃ Fin B' × Fin M') (hmon : ∀ i k, mon' (σ (i, k)).1 (σ (i, k)).2 = mon i k)
    (hw : ∀ i k, w' (σ (i, k)).1 (σ (i, k)).2 = w i k) :
    donaldsonStep dt h vol mon' w' = donaldsonStep dt h vol mon w := by
  have hcard : B' * M' = B * M := by
    have := Fintype.card_congr σ
    simpa using this.symm
  have hT : stepT h vol mon' w' = stepT h vol mon w := by
    ext a b
    rw [stepT_apply, stepT_apply]
    have hc : ((B' : ℂ) * M') = (B : ℂ) * M := by exact_mod_cast hcard
    rw [hc]
    congr 1
    rw [← Fintype.sum_prod_type', ← Fintype.sum_prod_type']
    symm
    refine Fintype.sum_equiv σ _ _ fun x => ?_
    rw [hmon x.1 x.2, hw x.1 x.2]
  cases dt
  · rfl
  · unfold donaldsonStep
    simp only [hT]

private theorem symmetrise_smul (c : ℝ) (h : Matrix (Fin N) (Fin N) ℂ) :
    symmetrise ((c : ℂ) • h) = (c : ℂ) • symmetrise h := by
  ext a b
  simp only [symmetrise, Matrix.of_apply, Matrix.smul_apply, smul_eq_mul, map_mul, Complex.conj_ofReal]
  ring

private theorem stepDen_smul (c : ℝ) (h : Matrix (Fin N) (Fin N) ℂ) (s : Fin N → ℂ) :
    stepDen ((c : ℂ) • h) s = c * stepDen h s := by
  unfold stepDen
  rw [← Complex.re_ofReal_mul, Finset.mul_sum]
  congr 1
  refine Finset.sum_congr rfl fun a _ => ?_
  rw [Finset.mul_sum]
  refine Finset.sum_congr rfl fun b _ => ?_
  rw [Matrix.smul_apply, smul_eq_mul]
  ring

/-- **C75.** Rescaling `H` by a non-zero real number rescales the new `H` by the same number. -/
theorem C75_scale (h : Matrix (Fin N) (Fin N) ℂ) (vol : ℝ) (mon : Fin B → Fin M → Fin N → ℂ)
    (w : Fin B → Fin M → ℝ) (c : ℝ) (hc : c ≠ 0) (hT : IsUnit (stepT h vol mon w)) :
    ∃ h', donaldsonStep .complex h vol mon w = .ok h' ∧
      donaldsonStep .complex ((c : ℂ) • h) vol mon w = .ok ((c : ℂ) • h') := by
  refine ⟨_, rfl, ?_⟩
  have e : stepT ((c : ℂ) • h) vol mon w = (c : ℂ)⁻¹ • stepT h vol mon w := by
    ext a b
    rw [Matrix.smul_apply, stepT_apply, stepT_apply, symmetrise_smul, smul_eq_mul, mul_left_comm (c : ℂ)⁻¹]
    congr 1
    rw [Finset.mul_sum]
    refine Finset.sum_congr rfl fun i _ => ?_
    rw [Finset.mul_sum]
    refine Finset.sum_congr rfl fun k _ => ?_
    rw [stepDen_smul]
    push_cast
    rw [div_mul_eq_div_div_swap, div_eq_inv_mul _ (c : ℂ)]
    ring
  have hcc : (c : ℂ) ≠ 0 := Complex.ofReal_ne_zero.2 hc
  have hinv : ((c : ℂ)⁻¹ • stepT h vol mon w)⁻¹ = (c : ℂ) • (stepT h vol mon w)⁻¹ := by
    refine Matrix.inv_eq_right_inv ?_
    rw [Matrix.smul_mul, Matrix.mul_smul, smul_smul, inv_mul_cancel₀ hcc, one_smul]
    exact Matrix.mul_nonsing_inv _ ((Matrix.isUnit_iff_isUnit_det _).1 hT)
  change Except.ok (stepT ((c : ℂ) • h) vol mon w)⁻¹.transpose = _
  rw [e, hinv, Matrix.transpose_smul]

/-- **C75.** `Σ_ab T_ab H_ab = N · mean(w) / vol_cy`. -/
theorem C75_trace (h : Matrix (Fin N) (Fin N) ℂ) (hh : h.IsHermitian) (vol : ℝ) (mon : Fin B → Fin M → Fin N → ℂ)
    (hmon : ∀ i k, psi (.full h) (mon i k) (conjS (mon i k)) ≠ 0) (w : Fin B → Fin M → ℝ) :
    (stepT h vol mon w * h.transpose).trace = (N : ℂ) / vol * ((∑ i, ∑ k, (w i k : ℂ)) / (B * M : ℕ)) := by
  have key : ∀ i k, ((Matrix.of fun a b => mon i k a * conj (mon i k b) * ((w i k / stepDen h (mon i k) : ℝ) : ℂ)) *
      h.transpose).trace = (w i k : ℂ) := by
    intro i k
    have e : ((Matrix.of fun a b => mon i k a * conj (mon i k b) * ((w i k / stepDen h (mon i k) : ℝ) : ℂ)) *
        h.transpose).trace = ∑ a, ∑ b, mon i k a * conj (mon i k b) *
          ((w i k / stepDen h (mon i k) : ℝ) : ℂ) * h a b := rfl
    have e2 : psi (.full h) (mon i k) (conjS (mon i k)) = ∑ a, ∑ b, mon i k a * h a b * conj (mon i k b) := rfl
    have e3 : ∑ a, ∑ b, mon i k a * conj (mon i k b) * ((w i k / stepDen h (mon i k) : ℝ) : ℂ) * h a b =
        ((w i k / stepDen h (mon i k) : ℝ) : ℂ) * psi (.full h) (mon i k) (conjS (mon i k)) := by
      rw [e2]
      simp only [Finset.mul_sum]
      refine Finset.sum_congr rfl fun a _ => Finset.sum_congr rfl fun b _ => ?_
      ring
    rw [e, e3, Complex.ofReal_div, stepDen_eq hh, div_mul_cancel₀ _ (hmon i k)]
  rw [stepT_eq_sum, symmetrise_of_isHermitian hh, Matrix.smul_mul, Matrix.trace_smul, Matrix.sum_mul, Matrix.trace_sum]
  simp only [Matrix.sum_mul, Matrix.trace_sum, key]
  push_cast
  rw [smul_eq_mul, mul_div_assoc', div_mul_eq_mul_div, div_mul_eq_mul_div, div_div]

/-! ## C98 -/

/-- **C98, fails for dependent sections.** If a non-trivial linear combination of the sections vanishes at all sampled
points, `T` is singular and there is no new `H`, whatever `H`, the weights and the number of points. -/
theorem C98_dependent_violated (h : Matrix (Fin N) (Fin N) ℂ) (vol : ℝ) (mon : Fin B → Fin M → Fin N → ℂ)
    (w : Fin B → Fin M → ℝ) (c : Fin N → ℂ) (hc : c ≠ 0) (hrel : ∀ i k, ∑ a, c a * mon i k a = 0) :
    (stepT h vol mon w).det = 0 := by
  rw [← Matrix.exists_vecMul_eq_zero_iff]
  refine ⟨c, hc, ?_⟩
  rw [stepT_eq_sum, Matrix.vecMul_smul, Matrix.vecMul_sum]
  refine smul_eq_zero_of_right _ (Finset.sum_eq_zero fun i _ => ?_)
  rw [Matrix.vecMul_sum]
  refine Finset.sum_eq_zero fun k _ => ?_
  funext b
  have : ∑ a, c a * (mon i k a * conj (mon i k b) * ((w i k / stepDen (symmetrise h) (mon i k) : ℝ) : ℂ)) =
      (∑ a, c a * mon i k a) * (conj (mon i k b) * ((w i k / stepDen (symmetrise h) (mon i k) : ℝ) : ℂ)) := by
    rw [Finset.sum_mul]
    refine Finset.sum_congr rfl fun a _ => ?_
    ring
  exact this.trans (by rw [hrel, zero_mul]; rfl)

/-- **C98, fails for the full basis.** On a hypersurface of degree `d ≤ k` the step with `MonomialBasisFull(k)` has a
singular `T` for every sample of points of the hypersurface. -/
theorem C98_full_violated {n d k : ℕ} (P : MvPolynomial (Fin (n + 1)) ℂ) (hP0 : P ≠ 0) (hP : P.IsHomogeneous d)
    (hdk : d ≤ k) (h : Matrix (Fin (monomialBasisFull n k).size) (Fin (monomialBasisFull n k).size) ℂ) (vol : ℝ)
    (zs : Fin B → Fin M → Fin n → ℂ) (patch : Fin B → Fin M → Fin (n + 1))
    (hzs : ∀ i j, MvPolynomial.eval (affineToHom (zs i j) ((patch i j : ℕ) : ℤ)) P = 0) (w : Fin B → Fin M → ℝ) :
    (stepT h vol (fun i j => (monomialBasisFull n k).call (zs i j) ((patch i j : ℕ) : ℤ) true) w).det = 0 := by
  classical
  set Q : MvPolynomial (Fin (n + 1)) ℂ := P * MvPolynomial.X 0 ^ (k - d) with hQ
  have hQ0 : Q ≠ 0 := mul_ne_zero hP0 (pow_ne_zero _ (MvPolynomial.X_ne_zero 0))
  have hQh : Q.IsHomogeneous k := by
    have h1 := hP.mul ((MvPolynomial.isHomogeneous_X ℂ (0 : Fin (n + 1))).pow (k - d))
    have h2 : d + 1 * (k - d) = k := by omega
    rwa [h2] at h1
  have hsum : ∀ m ∈ Q.support, ∑ i, m i = k := by
    intro m hm
    have := hQh (MvPolynomial.mem_support_iff.1 hm)
    rw [← this]
    simp [Finsupp.weight_apply, Finsupp.sum_fintype]
  refine C98_dependent_violated h vol _ w
    (fun a => Q.coeff (Finsupp.equivFunOnFinite.symm ((monomialBasisFull n k).powers a))) ?_ ?_
  · intro h0
    obtain ⟨m, hm⟩ := MvPolynomial.support_nonempty.2 hQ0
    have hmem : (⇑m : Fin (n + 1) → ℕ) ∈ monomialBasis n k := (mem_monomialBasis n k _).2 (hsum m hm)
    obtain ⟨a, ha⟩ := List.get_of_mem hmem
    have h1 := congrFun h0 a
    have hrow : (monomialBasisFull n k).powers a = ⇑m := ha
    simp only [hrow] at h1
    rw [show Finsupp.equivFunOnFinite.symm (⇑m : Fin (n + 1) → ℕ) = m from by ext i; rfl] at h1
    exact MvPolynomial.mem_support_iff.1 hm h1
  · intro i j
    have hev : MvPolynomial.eval (affineToHom (zs i j) ((patch i j : ℕ) : ℤ)) Q = 0 := by
      rw [hQ, map_mul, hzs, zero_mul]
    rw [← hev, MvPolynomial.eval_eq']
    set x := affineToHom (zs i j) ((patch i j : ℕ) : ℤ) with hx
    set F : (Fin (n + 1) →₀ ℕ) → ℂ := fun m => Q.coeff m * ∏ l, x l ^ m l with hF
    set e : Fin (monomialBasisFull n k).size → (Fin (n + 1) →₀ ℕ) :=
      fun a => Finsupp.equivFunOnFinite.symm ((monomialBasisFull n k).powers a) with he
    have hinj : Function.Injective e := fun a b hab =>
      List.nodup_iff_injective_get.1 (monomialBasis_nodup n k) (Finsupp.equivFunOnFinite.symm.injective hab)
    have h1 : ∑ a, F (e a) = ∑ m ∈ Finset.univ.image e, F m := (Finset.sum_image fun a _ b _ hab => hinj hab).symm
    have h2 : ∑ m ∈ Q.support, F m = ∑ m ∈ Finset.univ.image e, F m := by
      refine Finset.sum_subset ?_ fun m _ hm => ?_
      · intro m hm
        have hmem : (⇑m : Fin (n + 1) → ℕ) ∈ monomialBasis n k := (mem_monomialBasis n k _).2 (hsum m hm)
        obtain ⟨a, ha⟩ := List.get_of_mem hmem
        refine Finset.mem_image.2 ⟨a, Finset.mem_univ _, ?_⟩
        ext l
        exact congrFun ha l
      · rw [hF]
        simp only [MvPolynomial.notMem_support_iff.1 hm, zero_mul]
    rw [h2, ← h1]
    refine Finset.sum_congr rfl fun a _ => ?_
    refine congrArg (Q.coeff (e a) * ·) ?_
    exact C60_affine (zs i j) (patch i j) _ _ (C60_bounded n k) a

/-- Non-vacuity: the conic `X_0² + X_1 X_2 = 0` with quadrics, on points `(1 : z : −1/z)`. -/
example (h : Matrix (Fin (monomialBasisFull 2 2).size) (Fin (monomialBasisFull 2 2).size) ℂ) (vol : ℝ)
    (w : Fin 3 → Fin 5 → ℝ) (t : Fin 3 → Fin 5 → ℂ) (ht : ∀ i j, t i j ≠ 0) :
    (stepT h vol (fun i j => (monomialBasisFull 2 2).call ![t i j, -(t i j)⁻¹] (((0 : Fin 3) : ℕ) : ℤ) true) w).det = 0 := by
  have hP : (MvPolynomial.X 0 ^ 2 + MvPolynomial.X 1 * MvPolynomial.X 2 :
      MvPolynomial (Fin 3) ℂ).IsHomogeneous 2 :=
    ((MvPolynomial.isHomogeneous_X ℂ (0 : Fin 3)).pow 2).add
      ((MvPolynomial.isHomogeneous_X ℂ (1 : Fin 3)).mul (MvPolynomial.isHomogeneous_X ℂ (2 : Fin 3)))
  refine C98_full_violated _ ?_ hP le_rfl h vol (fun i j => ![t i j, -(t i j)⁻¹]) (fun _ _ => 0) ?_ w
  · intro h0
    have := congrArg (MvPolynomial.eval (![1, 0, 0] : Fin 3 → ℂ)) h0
    simp at this
  · intro i j
    have h0 : affineToHom ![t i j, -(t i j)⁻¹] (((0 : Fin 3) : ℕ) : ℤ) 0 = 1 := affineToHom_same _ 0
    have h1 : affineToHom ![t i j, -(t i j)⁻¹] (((0 : Fin 3) : ℕ) : ℤ) 1 = t i j := affineToHom_succAbove _ 0 0
    have h2 : affineToHom ![t i j, -(t i j)⁻¹] (((0 : Fin 3) : ℕ) : ℤ) 2 = -(t i j)⁻¹ := affineToHom_succAbove _ 0 1
    simp only [map_add, map_mul, map_pow, MvPolynomial.eval_X]
    rw [h0, h1, h2, mul_neg, mul_inv_cancel₀ (ht i j)]
    norm_num

/-! ## C99 -/

/-- **C99.** With a complex-valued `H`, `donaldson_step` returns `T⁻¹ᵀ`. -/
theorem C99_complex_partial (h : Matrix (Fin N) (Fin N) ℂ) (vol : ℝ) (mon : Fin B → Fin M → Fin N → ℂ)
    (w : Fin B → Fin M → ℝ) : donaldsonStep .complex h vol mon w = .ok ((stepT h vol mon w)⁻¹).transpose := rfl

/-- **C99, fails for a real-valued `H`** such as `jnp.eye(N)`: the loop carry `zeros_like(h)` is real, the update is
complex, and `fori_loop` rejects the change of type — whatever the points, weights and the rest of the input. -/
theorem C99_real_violated (h : Matrix (Fin N) (Fin N) ℂ) (vol : ℝ) (mon : Fin B → Fin M → Fin N → ℂ)
    (w : Fin B → Fin M → ℝ) : donaldsonStep .real h vol mon w = .error .typeError := rfl

end Cyjax
