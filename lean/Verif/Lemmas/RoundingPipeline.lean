import Verif.Spec.RoundingPipeline
import Verif.Props.RoundingUniform
import Verif.Props.RoundingIteration

/-! # Lemmas for numerical runs (C170) -/

namespace Cyjax.Donaldson

open Cyjax.Variety Cyjax.Projective Cyjax.Fl Cyjax.Spec
open Cyjax.Polynomial (Val)
open scoped ComplexOrder Topology

variable {N n B M : ℕ}

/-- The weight at a point where the gradient does not vanish. -/
theorem weight_linear (V : HomKind) (params : Val) (patch : Option PatchArg) {z g : Fin (n + 1) → ℂ} (hz : ∀ k, ‖z k‖ ≤ 1)
    (hV : gradDefining V z params patch = .ok g) (hg : g ≠ 0) (vol : Option ℝ) {w : ℝ} (hw : weight V z params patch none vol = .ok w) (d : ℕ) :
    0 < w ∧ ∃ C τ₀ : ℝ, 0 ≤ C ∧ 0 < τ₀ ∧ ∀ (τ : ℝ) (A : Arith) (D : DivAbs), τ ≤ τ₀ → A.Accurate τ → D.Accurate τ →
      ∀ (det : Matrix (Fin n) (Fin n) ℂ → ℂ) (t ta tb : RTree (Fin (n + 1))) (g' : Fin (n + 1) → ℂ), DetStable det τ → t.Covers → t.depth ≤ d →
        ta.Covers → tb.Covers → ta.depth + tb.depth + 2 ≤ d → (∀ i, ‖g' i - g i‖ ≤ τ) →
        |weightF A D det t ta tb g' z none vol - w| ≤ C * τ * w := by
  obtain ⟨i₀, -, hi₀⟩ := Finset.exists_max_image Finset.univ (fun i => ‖g i‖) ⟨0, Finset.mem_univ _⟩
  have ha0 : 0 < ‖g i₀‖ := by
    obtain ⟨i, hi⟩ := Function.ne_iff.1 hg
    exact (norm_pos_iff.2 hi).trans_le (hi₀ i (Finset.mem_univ _))
  obtain ⟨C, hC, hl⟩ := (gr_weight n d).linear
  obtain ⟨r, hr, hrτ⟩ := Metric.eventually_nhds_iff.1 (hl.and ((Gr.id_add.pow (2 * d + 5)).lt_two.and (gr_prod n d).lt_two))
  obtain ⟨q, hq⟩ : ∃ x : ℝ, x = 1 + 1 / ‖g i₀‖ := ⟨_, rfl⟩
  have hq0 : 0 < q := by rw [hq]; positivity
  have hq1 : 1 ≤ q := by rw [hq]; linarith [one_div_pos.2 ha0]
  have hqa : 1 ≤ q * ‖g i₀‖ := by
    rw [hq, add_mul, one_div, inv_mul_cancel₀ ha0.ne']
    linarith
  have key : ∀ (τ : ℝ) (A : Arith) (D : DivAbs), τ ≤ min (r / 2) (1 / 20) / q → A.Accurate τ → D.Accurate τ →
      ∀ (det : Matrix (Fin n) (Fin n) ℂ → ℂ) (t ta tb : RTree (Fin (n + 1))) (g' : Fin (n + 1) → ℂ), DetStable det τ → t.Covers → t.depth ≤ d →
        ta.Covers → tb.Covers → ta.depth + tb.depth + 2 ≤ d → (∀ i, ‖g' i - g i‖ ≤ τ) →
        0 < w ∧ |weightF A D det t ta tb g' z none vol - w| ≤ C * q * τ * w := by
    intro τ A D hτ hA hD det t ta tb g' hdet ht htd hta htb htab hg'
    have h0 := hA.nonneg
    obtain ⟨σ, hσ⟩ : ∃ x : ℝ, x = τ * q := ⟨_, rfl⟩
    have hτσ : τ ≤ σ := by rw [hσ]; nlinarith
    have hσ0 : 0 ≤ σ := h0.trans hτσ
    have hσm : σ ≤ min (r / 2) (1 / 20) := by
      rw [hσ]
      exact (le_div_iff₀ hq0).1 hτ
    have hσr : dist σ 0 < r := by
      rw [Real.dist_0_eq_abs, abs_of_nonneg hσ0]
      linarith [hσm.trans (min_le_left _ _)]
    obtain ⟨e1, e2, e3⟩ := hrτ hσr
    have herr : ∀ i, ‖g' i - g i‖ ≤ σ * ‖g i₀‖ := by
      intro i
      calc _ ≤ τ * 1 := by rw [mul_one]; exact hg' i
        _ ≤ τ * (q * ‖g i₀‖) := mul_le_mul_of_nonneg_left hqa h0
        _ = _ := by rw [hσ]; ring
    obtain ⟨w', h1, h2, h3⟩ := weightU_near (hA.mono hτσ) (hD.mono hτσ) (hσm.trans (min_le_right _ _)) ht htd ⟨hta, htb, htab⟩ e2 e3 hz ha0 herr
      (fun i => hi₀ i (Finset.mem_univ _)) ⟨i₀, rfl⟩ (hdet.mono hτσ) V params patch hV vol
    have hww : w' = w := Except.ok.inj (h1.symm.trans hw)
    rw [hww] at h2 h3
    refine ⟨h2, h3.trans (mul_le_mul_of_nonneg_right ((e1 hσ0).trans_eq ?_) h2.le)⟩
    rw [hσ]
    ring
  refine ⟨?_, C * q, min (r / 2) (1 / 20) / q, by positivity, by positivity, fun τ A D hτ hA hD det t ta tb g' h1 h2 h3 h4 h5 h6 h7 =>
    (key τ A D hτ hA hD det t ta tb g' h1 h2 h3 h4 h5 h6 h7).2⟩
  obtain ⟨i, hi⟩ := Function.ne_iff.1 hg
  obtain ⟨w', h1, h2⟩ := C30_positive V z params patch g hV i hi none (Or.inl rfl) vol
  rwa [← Except.ok.inj (h1.symm.trans hw)]

theorem RelErr.of_abs {σ y x : ℝ} (hx : 0 ≤ x) (h : |y - x| ≤ σ * x) : RelErr σ (y : ℂ) (x : ℂ) := by
  rw [RelErr, ← Complex.ofReal_sub, Complex.norm_real, Complex.norm_real, Real.norm_of_nonneg hx]
  exact h

end Cyjax.Donaldson

namespace Cyjax.Spec

open Cyjax.Fl Cyjax.Donaldson

theorem InvStable.mono {N : ℕ} {inv : Matrix (Fin N) (Fin N) ℂ → Matrix (Fin N) (Fin N) ℂ} {ρ σ : ℝ} (h : InvStable inv ρ) (hρ : ρ ≤ σ) :
    InvStable inv σ := by
  intro T b hT hb j
  obtain ⟨E, hE, hX⟩ := h T b hT hb j
  exact ⟨E, fun i k => (hE i k).trans (mul_le_mul_of_nonneg_right hρ ((norm_nonneg _).trans (hb i k))), hX⟩

/-- Lower accuracy, with another matrix. -/
theorem Evaluation.Accurate.mono {N n : ℕ} {c : Evaluation N n} {k : ℕ} {τ σ : ℝ} {g h : Matrix (Fin N) (Fin N) ℂ} {S : Jet N (n + 1)}
    {v : Fin (n + 1) → ℂ} (hc : c.Accurate k τ g S v) (hτ : τ ≤ σ) (hh : ∀ i j, ‖c.h i j - h i j‖ ≤ σ) : c.Accurate k σ h S v where
  h := hh
  s i := (hc.s i).mono hτ
  s1 i a := (hc.s1 i a).mono hτ
  grad i := (hc.grad i).trans hτ
  det := hc.det.mono hτ
  P := hc.P
  P1 := hc.P1
  P2 := hc.P2
  PJ := hc.PJ
  t := hc.t
  ta := hc.ta
  tb := hc.tb
  tab := hc.tab

end Cyjax.Spec

theorem Cyjax.exists_min_pos {ι : Type*} [Finite ι] (f : ι → ℝ) (hf : ∀ i, 0 < f i) : ∃ r : ℝ, 0 < r ∧ ∀ i, r ≤ f i := by
  rcases isEmpty_or_nonempty ι with he | hne
  · exact ⟨1, one_pos, fun i => he.elim i⟩
  · obtain ⟨i₀, h⟩ := _root_.Finite.exists_min f
    exact ⟨f i₀, hf i₀, h⟩

namespace Cyjax.Donaldson

open Cyjax.Spec
open scoped ComplexOrder

/-- The exact matrices of the algorithm are positive definite. -/
theorem iterates_posDef {N B M : ℕ} {mon : ℕ → Fin B → Fin M → Fin N → ℂ} {w : ℕ → Fin B → Fin M → ℝ} {vol : ℕ → ℝ}
    (hmon : ∀ j i k, mon j i k ≠ 0) (hw : ∀ j i k, 0 ≤ w j i k) (hvol : ∀ j, 0 < vol j)
    (hspan : ∀ j, ∀ c : Fin N → ℂ, (∀ i k, 0 < w j i k → ∑ a, c a * mon j i k a = 0) → c = 0)
    {h : ℕ → Matrix (Fin N) (Fin N) ℂ} (h0 : (h 0).PosDef)
    (hh : ∀ j, donaldsonStep .complex (h j) (vol j) (mon j) (w j) = .ok (h (j + 1))) (j : ℕ) : (h j).PosDef := by
  induction j with
  | zero => exact h0
  | succ j ih =>
    have hadd : (h j + (h j).conjTranspose).PosDef := by rw [ih.isHermitian.eq]; exact ih.add ih
    have e : donaldsonStep .complex (h j) (vol j) (mon j) (w j) = .ok (stepT (h j) (vol j) (mon j) (w j))⁻¹.transpose := rfl
    have := Except.ok.inj ((hh j).symm.trans e)
    rw [this]
    exact (C74_invertible (h j) hadd (vol j) (hvol j) (mon j) (hmon j) (w j) (hw j) (hspan j)).inv.transpose

end Cyjax.Donaldson
