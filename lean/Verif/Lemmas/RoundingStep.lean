import Verif.Model.RoundingStep
import Verif.Lemmas.RoundingAccuracy
import Verif.Lemmas.StepErrors
import Mathlib.Analysis.Matrix.Normed
import Mathlib.Algebra.Order.Chebyshev

/-! # Rounding errors of Donaldson's step (for C165) -/

namespace Cyjax.Donaldson

open Cyjax.Fl Cyjax.Spec
open scoped ComplexConjugate ComplexOrder

variable {N : ℕ} {A : Arith} {D : DivAbs} {ε G : ℝ}

theorem nearG_relErr {δ : ℝ} (hδ : 0 ≤ δ) {y x : ℂ} (h : RelErr δ y x) : NearG (1 + δ) y x ‖x‖ :=
  ⟨by rw [add_sub_cancel_left]; exact h, le_rfl, by linarith⟩

theorem nearG_conj {y x : ℂ} {a : ℝ} (h : NearG G y x a) : NearG G (conj y) (conj x) a :=
  ⟨by rw [← map_sub, RCLike.norm_conj]; exact h.err, by rw [RCLike.norm_conj]; exact h.size, h.one_le⟩

/-- From an error relative to a larger number to a relative error. -/
theorem nearG_rel {y x : ℂ} {a κ : ℝ} (h : NearG G y x a) (hκ : 0 ≤ κ) (ha : a ≤ κ * ‖x‖) : NearG (1 + κ * (G - 1)) y x ‖x‖ := by
  have hG := h.one_le
  refine ⟨?_, le_rfl, by nlinarith⟩
  calc ‖y - x‖ ≤ (G - 1) * a := h.err
    _ ≤ (G - 1) * (κ * ‖x‖) := mul_le_mul_of_nonneg_left ha (by linarith)
    _ = _ := by ring

/-- The sizes of the entries of the two halves of the Hermitian part. -/
noncomputable def halfAbs (h : Matrix (Fin N) (Fin N) ℂ) (a b : Fin N) : ℝ := (‖h a b‖ + ‖h b a‖) / 2

theorem symmetriseF_near (hA : A.Accurate ε) (hD : D.Accurate ε) (h : Matrix (Fin N) (Fin N) ℂ)
    (a b : Fin N) : NearG ((1 + ε) ^ 2) (symmetriseF A D h a b) (symmetrise h a b) (halfAbs h a b) := by
  have h1 := (NearG.refl (h a b)).add hA (NearG.refl (conj (h b a)))
  have h2 := h1.div hA.nonneg hD (NearG.refl (2 : ℂ)) two_ne_zero (by norm_num)
  have e3 : (1 + ε) * ((1 + ε) * 1 / (2 - 1)) = (1 + ε) ^ 2 := by ring
  rw [RCLike.norm_conj, Complex.norm_two, e3] at h2
  exact h2

/-- The sum of the absolute values of the terms of `den`. -/
noncomputable def absDen (z : Fin N → Fin N → ℝ) (s : Fin N → ℂ) : ℝ := ∑ b, ∑ a, ‖s a‖ * z a b * ‖s b‖

theorem stepDenF_near (hA : A.Accurate ε) {ta tb : RTree (Fin N)} (hta : ta.Covers) (htb : tb.Covers)
    {h hs : Matrix (Fin N) (Fin N) ℂ} (hh : h.IsHermitian) {z : Fin N → Fin N → ℝ} (hhs : ∀ a b, NearG G (hs a b) (h a b) (z a b))
    {mon s : Fin N → ℂ} {S : ℝ} (hmon : ∀ a, NearG S (mon a) (s a) ‖s a‖) :
    NearG ((1 + ε) ^ (ta.depth + tb.depth + 2) * (G * S ^ 2)) (stepDenF A ta tb hs mon : ℂ) (stepDen h s : ℂ) (absDen z s) := by
  have h1 : ∀ b, NearG ((1 + ε) ^ ta.depth * ((1 + ε) * (S * G))) (ta.eval A.add fun a => A.mul (mon a) (hs a b))
      (∑ a, s a * h a b) (∑ a, ‖s a‖ * z a b) := by
    intro b
    have := ta.nearG_add hA (fun a => (hmon a).mul hA (hhs a b))
    rwa [hta.sum, hta.sum] at this
  have h2 := tb.nearG_add hA (fun b => (h1 b).mul hA (nearG_conj (hmon b)))
  rw [htb.sum, htb.sum] at h2
  have e1 : (∑ b, (∑ a, s a * h a b) * conj (s b)) = (stepDen h s : ℂ) := by
    rw [stepDen_eq hh]
    simp only [psi, conjS]
    rw [Finset.sum_comm]
    exact Finset.sum_congr rfl fun b _ => by rw [Finset.sum_mul]
  have e2 : (∑ b, (∑ a, ‖s a‖ * z a b) * ‖s b‖) = absDen z s :=
    Finset.sum_congr rfl fun b _ => by rw [Finset.sum_mul]
  rw [e1, e2] at h2
  have e3 : (1 + ε) ^ tb.depth * ((1 + ε) * ((1 + ε) ^ ta.depth * ((1 + ε) * (S * G)) * S)) =
      (1 + ε) ^ (ta.depth + tb.depth + 2) * (G * S ^ 2) := by ring
  rw [e3] at h2
  exact h2.re

theorem foldl_near (hA : A.Accurate ε) {ι : Type*} {y x : ι → ℂ} {a : ι → ℝ} (hG : ∀ i, NearG G (y i) (x i) (a i)) (L : List ι)
    {u v : ℂ} {c : ℝ} (h : NearG G u v c) :
    NearG ((1 + ε) ^ L.length * G) (L.foldl (fun s i => A.add s (y i)) u) (v + (L.map x).sum) (c + (L.map a).sum) := by
  induction L generalizing u v c G with
  | nil => simpa using h
  | cons i L ih =>
    have e : 1 ≤ 1 + ε := by linarith [hA.nonneg]
    have hG1 : ∀ i, NearG ((1 + ε) * G) (y i) (x i) (a i) := fun i =>
      (hG i).mono (le_mul_of_one_le_left (zero_le_one.trans (hG i).one_le) e)
    have := ih hG1 (h.add hA (hG i))
    simp only [List.foldl_cons, List.map_cons, List.sum_cons, List.length_cons]
    rw [pow_succ, mul_assoc, ← add_assoc, ← add_assoc]
    exact this

private theorem foldl_entry {B : ℕ} (f : Fin B → Fin N → Fin N → ℂ) (L : List (Fin B)) (T : Matrix (Fin N) (Fin N) ℂ)
    (a b : Fin N) : (L.foldl (fun T i => Matrix.of fun a b => A.add (T a b) (f i a b)) T) a b =
      L.foldl (fun s i => A.add s (f i a b)) (T a b) := by
  induction L generalizing T with
  | nil => rfl
  | cons i L ih => rw [List.foldl_cons, ih, Matrix.of_apply, List.foldl_cons]

/-- Relative error of the denominators. -/
noncomputable def denGrowth (ε δs κ : ℝ) (ta tb : RTree (Fin N)) : ℝ :=
  1 + κ * ((1 + ε) ^ (ta.depth + tb.depth + 4) * (1 + δs) ^ 2 - 1)

theorem stepTF_near (hA : A.Accurate ε) (hD : D.Accurate ε) {ta tb : RTree (Fin N)} (hta : ta.Covers) (htb : tb.Covers) {B M : ℕ}
    (hB : B ≠ 0) {t : RTree (Fin M)} (ht : t.Covers) {h : Matrix (Fin N) (Fin N) ℂ} (hh : (symmetrise h).PosDef) {vol vol' : ℝ} (hvol : 0 < vol)
    {mon mon' : Fin B → Fin M → Fin N → ℂ} (hmon : ∀ i k, mon i k ≠ 0) {w w' : Fin B → Fin M → ℝ} (hw : ∀ i k, 0 ≤ w i k)
    {δs δw δv κ : ℝ} (hδs : 0 ≤ δs) (hδw : 0 ≤ δw) (hδv : 0 ≤ δv) (hκ : 0 ≤ κ) (hcond : ∀ i k, absDen (halfAbs h) (mon i k) ≤ κ * stepDen (symmetrise h) (mon i k))
    (hmon' : ∀ i k a, RelErr δs (mon' i k a) (mon i k a)) (hw' : ∀ i k, RelErr δw (w' i k) (w i k)) (hv : RelErr δv vol' vol)
    (hG : denGrowth ε δs κ ta tb < 2) (hv1 : δv < 1) (a b : Fin N) :
    NearG ((1 + ε) ^ (t.depth + B + 7) * ((1 + δs) ^ 2 * (1 + δw)) / ((2 - denGrowth ε δs κ ta tb) * (1 - δv)))
      (stepTF A D ta tb t h vol' mon' w' a b) (stepT h vol mon w a b)
      (N / (vol * (B * M)) * ∑ i, ∑ k, ‖mon i k a‖ * ‖mon i k b‖ * (w i k / stepDen (symmetrise h) (mon i k))) := by
  have h0 := hA.nonneg
  set Q := denGrowth ε δs κ ta tb with hQ
  have hden : ∀ i k, NearG Q (stepDenF A ta tb (symmetriseF A D h) (mon' i k) : ℂ) (stepDen (symmetrise h) (mon i k) : ℂ) ‖(stepDen (symmetrise h) (mon i k) : ℂ)‖ := by
    intro i k
    have h1 := stepDenF_near hA hta htb hh.isHermitian (symmetriseF_near hA hD h)
      (fun a => nearG_relErr hδs (hmon' i k a))
    have h2 := nearG_rel h1 hκ (by
      rw [Complex.norm_real, Real.norm_eq_abs, abs_of_pos (stepDen_pos hh (hmon i k))]
      exact hcond i k)
    have e : 1 + κ * ((1 + ε) ^ (ta.depth + tb.depth + 2) * ((1 + ε) ^ 2 * (1 + δs) ^ 2) - 1) = Q := by
      rw [hQ, denGrowth]
      ring
    rwa [e] at h2
  set P₁ := (1 + ε) * ((1 + ε) * ((1 + δs) * (1 + δs)) * ((1 + ε) * ((1 + δw) / (2 - Q)))) with hP₁
  have hterm : ∀ i k, NearG P₁ (A.mul (A.mul (mon' i k a) (conj (mon' i k b)))
      (D.div (w' i k) (stepDenF A ta tb (symmetriseF A D h) (mon' i k))))
      (mon i k a * conj (mon i k b) * ((w i k : ℂ) / (stepDen (symmetrise h) (mon i k) : ℂ)))
      (‖mon i k a‖ * ‖mon i k b‖ * (w i k / stepDen (symmetrise h) (mon i k))) := by
    intro i k
    have hd := stepDen_pos hh (hmon i k)
    have h1 := (nearG_relErr hδs (hmon' i k a)).mul hA (nearG_conj (nearG_relErr hδs (hmon' i k b)))
    have h2 := (nearG_relErr hδw (hw' i k)).div h0 hD (hden i k) (by exact_mod_cast hd.ne') hG
    have h3 := h1.mul hA h2
    rwa [Complex.norm_real, Complex.norm_real, Real.norm_eq_abs, Real.norm_eq_abs, abs_of_nonneg (hw i k), abs_of_pos hd] at h3
  have hBc : (B : ℂ) ≠ 0 := by exact_mod_cast hB
  have hbatch : ∀ i, NearG ((1 + ε) * ((1 + ε) ^ (t.depth + 1) * P₁ / (2 - 1)))
      (D.div (deltaTF A D ta tb t (symmetriseF A D h) (mon' i) (w' i) a b) B)
      ((∑ k, mon i k a * conj (mon i k b) * ((w i k : ℂ) / (stepDen (symmetrise h) (mon i k) : ℂ))) / M / B)
      ((∑ k, ‖mon i k a‖ * ‖mon i k b‖ * (w i k / stepDen (symmetrise h) (mon i k))) / M / B) := by
    intro i
    have h1 := meanF_near hA hD t ht (fun k => hterm i k)
    have h2 := h1.div h0 hD (NearG.refl (B : ℂ)) hBc (by norm_num)
    rw [Complex.norm_natCast] at h2
    exact h2
  set P₂ := (1 + ε) * ((1 + ε) ^ (t.depth + 1) * P₁ / (2 - 1)) with hP₂
  have hP₂1 : 1 ≤ P₂ := (hbatch ⟨0, Nat.pos_of_ne_zero hB⟩).one_le
  have hfold := foldl_near hA hbatch (List.finRange B) (u := 0) (v := 0) (c := 0) ⟨by simp, by simp, hP₂1⟩
  rw [List.length_finRange, zero_add, zero_add, ← List.ofFn_eq_map, ← List.ofFn_eq_map, List.sum_ofFn, List.sum_ofFn] at hfold
  have hvC : (vol : ℂ) ≠ 0 := by exact_mod_cast hvol.ne'
  have hNv := (NearG.refl (N : ℂ)).div h0 hD (nearG_relErr hδv hv) hvC (by linarith)
  rw [Complex.norm_natCast, Complex.norm_real, Real.norm_eq_abs, abs_of_pos hvol] at hNv
  have hfin := hfold.mul hA hNv
  have hFG : (1 + ε) * ((1 + ε) ^ B * P₂ * ((1 + ε) * (1 / (2 - (1 + δv))))) =
      (1 + ε) ^ (t.depth + B + 7) * ((1 + δs) ^ 2 * (1 + δw)) / ((2 - Q) * (1 - δv)) := by
    have h1 : 2 - Q ≠ 0 := by linarith
    have h2 : 1 - δv ≠ 0 := by linarith
    have h3 : 2 - (1 + δv) = 1 - δv := by ring
    rw [hP₂, hP₁, h3]
    field_simp
    ring
  rw [hFG] at hfin
  have eF : stepTF A D ta tb t h vol' mon' w' a b = A.mul ((List.finRange B).foldl (fun s i => A.add s
      (D.div (deltaTF A D ta tb t (symmetriseF A D h) (mon' i) (w' i) a b) B)) 0) (D.div N vol') := by
    simp only [stepTF, Matrix.of_apply]
    rw [foldl_entry (fun i a b => D.div (deltaTF A D ta tb t (symmetriseF A D h) (mon' i) (w' i) a b) B)]
    rfl
  have eT : stepT h vol mon w a b = (∑ i, (∑ k, mon i k a * conj (mon i k b) * ((w i k : ℂ) / (stepDen (symmetrise h) (mon i k) : ℂ))) / M / B) *
      (N / vol) := by
    rw [stepT_apply, ← Finset.sum_div, ← Finset.sum_div]
    simp only [Complex.ofReal_div]
    rw [div_div, mul_comm (M : ℂ), div_mul_div_comm, div_mul_eq_mul_div, mul_comm (N : ℂ), mul_comm (vol : ℂ)]
  have ea : (N : ℝ) / (vol * (B * M)) * ∑ i, ∑ k, ‖mon i k a‖ * ‖mon i k b‖ * (w i k / stepDen (symmetrise h) (mon i k)) =
      (∑ i, (∑ k, ‖mon i k a‖ * ‖mon i k b‖ * (w i k / stepDen (symmetrise h) (mon i k))) / M / B) * (N / vol) := by
    rw [← Finset.sum_div, ← Finset.sum_div, div_div, mul_comm (M : ℝ), div_mul_div_comm, div_mul_eq_mul_div, mul_comm (N : ℝ),
      mul_comm vol]
  rw [eF, eT, ea]
  exact hfin

/-- Cauchy's inequality for the bounds of the entries. -/
theorem stepT_cauchy {B M : ℕ} {h : Matrix (Fin N) (Fin N) ℂ} (hh : (symmetrise h).PosDef) {vol : ℝ} (hvol : 0 < vol)
    {mon : Fin B → Fin M → Fin N → ℂ} (hmon : ∀ i k, mon i k ≠ 0) {w : Fin B → Fin M → ℝ} (hw : ∀ i k, 0 ≤ w i k) (a b : Fin N) :
    N / (vol * (B * M)) * ∑ i, ∑ k, ‖mon i k a‖ * ‖mon i k b‖ * (w i k / stepDen (symmetrise h) (mon i k)) ≤
      √((stepT h vol mon w a a).re * (stepT h vol mon w b b).re) := by
  set r : Fin B × Fin M → ℝ := fun p => w p.1 p.2 / stepDen (symmetrise h) (mon p.1 p.2) with hr
  have hr0 : ∀ p, 0 ≤ r p := fun p => div_nonneg (hw _ _) (stepDen_pos hh (hmon _ _)).le
  set C : ℝ := N / (vol * (B * M)) with hC
  have hC0 : 0 ≤ C := by positivity
  have hdiag : ∀ a, (stepT h vol mon w a a).re = C * ∑ p : Fin B × Fin M, (‖mon p.1 p.2 a‖ * √(r p)) ^ 2 := by
    intro a
    have e : stepT h vol mon w a a = ((C * ∑ p : Fin B × Fin M, (‖mon p.1 p.2 a‖ * √(r p)) ^ 2 : ℝ) : ℂ) := by
      rw [stepT_apply, Fintype.sum_prod_type]
      push_cast [hC]
      congr 1
      refine Finset.sum_congr rfl fun i _ => Finset.sum_congr rfl fun k _ => ?_
      rw [Complex.mul_conj, Complex.normSq_eq_norm_sq, mul_pow, ← Complex.ofReal_pow √_, Real.sq_sqrt (hr0 _)]
      push_cast [hr]
      ring
    rw [e, Complex.ofReal_re]
  refine Real.le_sqrt_of_sq_le ?_
  rw [hdiag, hdiag, ← Fintype.sum_prod_type' (fun i k => ‖mon i k a‖ * ‖mon i k b‖ * (w i k / stepDen (symmetrise h) (mon i k)))]
  have hs := Finset.sum_mul_sq_le_sq_mul_sq Finset.univ (fun p : Fin B × Fin M => ‖mon p.1 p.2 a‖ * √(r p))
    (fun p => ‖mon p.1 p.2 b‖ * √(r p))
  have e : ∀ p : Fin B × Fin M, ‖mon p.1 p.2 a‖ * √(r p) * (‖mon p.1 p.2 b‖ * √(r p)) = ‖mon p.1 p.2 a‖ * ‖mon p.1 p.2 b‖ * r p := by
    intro p
    have := Real.mul_self_sqrt (hr0 p)
    linear_combination ‖mon p.1 p.2 a‖ * ‖mon p.1 p.2 b‖ * this
  simp only [e] at hs
  calc _ = C ^ 2 * (∑ p : Fin B × Fin M, ‖mon p.1 p.2 a‖ * ‖mon p.1 p.2 b‖ * r p) ^ 2 := by rw [mul_pow]
    _ ≤ C ^ 2 * _ := mul_le_mul_of_nonneg_left hs (sq_nonneg C)
    _ = _ := by ring

/-- The condition number of the denominators. -/
theorem absDen_le {h : Matrix (Fin N) (Fin N) ℂ} {μ m : ℝ} (hm : 0 < m) (hμ : ∀ a b, ‖h a b‖ ≤ μ)
    (hlo : ∀ u, m * qf 1 u ≤ qf (symmetrise h) u) (s : Fin N → ℂ) : absDen (halfAbs h) s ≤ N * μ / m * stepDen (symmetrise h) s := by
  rcases isEmpty_or_nonempty (Fin N) with hN | ⟨⟨a₀⟩⟩
  · simp [absDen, stepDen]
  have hμ0 : 0 ≤ μ := (norm_nonneg _).trans (hμ a₀ a₀)
  have h1 : absDen (halfAbs h) s ≤ μ * (∑ a, ‖s a‖) ^ 2 := by
    rw [sq, Finset.mul_sum, Finset.mul_sum]
    refine Finset.sum_le_sum fun b _ => ?_
    rw [← Finset.sum_mul, ← mul_assoc, Finset.mul_sum]
    refine mul_le_mul_of_nonneg_right (Finset.sum_le_sum fun a _ => ?_) (norm_nonneg _)
    rw [mul_comm μ]
    refine mul_le_mul_of_nonneg_left ?_ (norm_nonneg _)
    have := hμ a b
    have := hμ b a
    rw [halfAbs]
    linarith
  have h2 : (∑ a, ‖s a‖) ^ 2 ≤ N * ∑ a, ‖s a‖ ^ 2 := by
    have := sq_sum_le_card_mul_sum_sq (s := Finset.univ) (f := fun a => ‖s a‖)
    simpa using this
  have h3 := hlo (star s)
  rw [qf_one] at h3
  rw [← stepDen_qf] at h3
  have e : ∑ a, ‖star s a‖ ^ 2 = ∑ a, ‖s a‖ ^ 2 := by simp
  rw [e] at h3
  calc _ ≤ μ * (N * ∑ a, ‖s a‖ ^ 2) := h1.trans (mul_le_mul_of_nonneg_left h2 hμ0)
    _ = N * μ / m * (m * ∑ a, ‖s a‖ ^ 2) := by field_simp
    _ ≤ _ := mul_le_mul_of_nonneg_left h3 (by positivity)

section Inverse

attribute [local instance] Matrix.linftyOpNormedRing

private theorem norm_le_rows {X : Matrix (Fin N) (Fin N) ℂ} {L : ℝ} (h0 : 0 ≤ L) (h : ∀ a, ∑ b, ‖X a b‖ ≤ L) : ‖X‖ ≤ L := by
  rw [Matrix.linfty_opNorm_def]
  lift L to NNReal using h0
  rw [NNReal.coe_le_coe]
  refine Finset.sup_le fun a _ => ?_
  rw [← NNReal.coe_le_coe]
  push_cast
  exact h a

private theorem entry_le_norm (X : Matrix (Fin N) (Fin N) ℂ) (a b : Fin N) : ‖X a b‖ ≤ ‖X‖ := by
  rw [Matrix.linfty_opNorm_def]
  have h1 : ∑ j, ‖X a j‖₊ ≤ Finset.univ.sup fun i => ∑ j, ‖X i j‖₊ := Finset.le_sup (f := fun i => ∑ j, ‖X i j‖₊) (Finset.mem_univ a)
  have h2 : ‖X a b‖₊ ≤ ∑ j, ‖X a j‖₊ := Finset.single_le_sum (f := fun j => ‖X a j‖₊) (fun _ _ => bot_le) (Finset.mem_univ b)
  exact_mod_cast h2.trans h1

/-- A computed inverse of a matrix with errors. -/
theorem inv_entries {T T' X : Matrix (Fin N) (Fin N) ℂ} (hT : IsUnit T) {L φ η : ℝ} (hL : 0 ≤ L) (hφ : 0 ≤ φ) (hη : 0 ≤ η)
    (hinv : ∀ a, ∑ b, ‖T⁻¹ a b‖ ≤ L) (hF : ∀ a, ∑ b, ‖T' a b - T a b‖ ≤ φ) (hX : ∀ a, ∑ b, ‖(T' * X - 1) a b‖ ≤ η) (hLφ : L * φ < 1)
    (a b : Fin N) : ‖X a b - T⁻¹ a b‖ ≤ L * (η + φ * (L * (1 + η) / (1 - L * φ))) := by
  rcases isEmpty_or_nonempty (Fin N) with hN | hN
  · exact (hN.false a).elim
  have n1 : ‖T⁻¹‖ ≤ L := norm_le_rows hL hinv
  have n2 : ‖T' - T‖ ≤ φ := norm_le_rows hφ hF
  have n3 : ‖T' * X - 1‖ ≤ η := norm_le_rows hη hX
  have hTi : T⁻¹ * T = 1 := Matrix.nonsing_inv_mul T ((Matrix.isUnit_iff_isUnit_det T).1 hT)
  have e1 : X - T⁻¹ = T⁻¹ * ((T' * X - 1) - (T' - T) * X) := by
    have : (T' * X - 1) - (T' - T) * X = T * X - 1 := by noncomm_ring
    rw [this, mul_sub, ← mul_assoc, hTi, one_mul, mul_one]
  have b1 : ‖X - T⁻¹‖ ≤ L * (η + φ * ‖X‖) := by
    rw [e1]
    refine (norm_mul_le _ _).trans (mul_le_mul n1 ?_ (norm_nonneg _) hL)
    exact (norm_sub_le _ _).trans (add_le_add n3 ((norm_mul_le _ _).trans (mul_le_mul_of_nonneg_right n2 (norm_nonneg _))))
  have b2 : ‖X‖ ≤ L * (1 + η) / (1 - L * φ) := by
    rw [le_div_iff₀ (by linarith)]
    have : ‖X‖ ≤ ‖X - T⁻¹‖ + ‖T⁻¹‖ := by
      have := norm_add_le (X - T⁻¹) T⁻¹
      rwa [sub_add_cancel] at this
    nlinarith
  refine (entry_le_norm (X - T⁻¹) a b).trans (b1.trans ?_)
  gcongr

end Inverse

end Cyjax.Donaldson
