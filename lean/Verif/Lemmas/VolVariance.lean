import Verif.Lemmas.Concentration

/-! # Moments of sums over the lines of independent batches -/

namespace Cyjax

open MeasureTheory ProbabilityTheory MvPolynomial Cyjax.Spec Cyjax.Polynomial Cyjax.Variety Set
open scoped ENNReal

theorem list_sum_sq {α : Type*} (g : α → ℝ) (l : List α) :
    (l.map g).sum ^ 2 ≤ l.length * (l.map fun a => g a ^ 2).sum := by
  induction l with
  | nil => simp
  | cons a l ih =>
    simp only [List.map_cons, List.sum_cons, List.length_cons, Nat.cast_succ]
    set s := (l.map g).sum
    set t := (l.map fun a => g a ^ 2).sum
    set k : ℝ := (l.length : ℝ)
    have hk : 0 ≤ k := by positivity
    have ht : 0 ≤ t := List.sum_nonneg (by simp only [List.mem_map]; rintro _ ⟨b, -, rfl⟩; positivity)
    rcases hk.eq_or_lt with h0 | h0
    · rw [← h0, zero_mul] at ih
      have : s = 0 := by nlinarith
      rw [this, ← h0]
      nlinarith
    · have h1 : 0 ≤ k * (k * g a ^ 2 + t - 2 * g a * s) := by nlinarith [sq_nonneg (k * g a - s)]
      have h2 := nonneg_of_mul_nonneg_right h1 h0
      nlinarith

theorem realSum_sq {n e : ℕ} {F : MvPolynomial (Fin (n + 2)) ℂ} {V : HomKind} {ps : List ℂ}
    (hS : Samplable V (n + 1) e ps) (hF : Hypersurface V (.vec ps) (n + 1) e F)
    (hsm : SmoothHypersurface F) (hirr : Irreducible F) (he : e ≠ 0) (g : (Fin (n + 2) → ℂ) → ℝ) :
    ∀ᵐ x ∂lineLaw (n + 2), realSum F g x ^ 2 ≤ e * realSum F (fun Z => g Z ^ 2) x := by
  obtain ⟨R, hR, -⟩ := sample_all hS hF someOrder_valid someRoots_complete
  filter_upwards [ae_admissible_line F (smooth_ne_zero hsm), ae_transversal hirr hF.homogeneous he] with x hx htr
  rw [realSum_roots hx.2 (hR x hx).2 htr, realSum_roots hx.2 (hR x hx).2 htr, ← (hR x hx).1]
  exact list_sum_sq (fun t => g (linePoint x t)) _

variable {m L b : ℕ} {Ω : Type*} [MeasurableSpace Ω] {P : Measure Ω} {X : Fin b → Ω → Fin 2 → Fin L → Fin (2 * m) → ℝ}
  (hX : ∀ i, HasLaw (X i) (normalsLaw m L) P)

include hX

theorem batches_integral {G : (Fin m → ℂ) × (Fin m → ℂ) → ℝ} (hG : Integrable G (lineLaw m)) :
    Integrable (fun ω => ∑ i, ∑ j, G (rawLines (X i ω) j)) P ∧
      ∫ ω, ∑ i, ∑ j, G (rawLines (X i ω) j) ∂P = (b * L : ℕ) * ∫ x, G x ∂lineLaw m := by
  refine ⟨integrable_finsetSum _ fun i _ => (lines_integral (hX i) hG).1, ?_⟩
  rw [integral_finsetSum _ fun i _ => (lines_integral (hX i) hG).1,
    Finset.sum_congr rfl fun i _ => (lines_integral (hX i) hG).2, Finset.sum_const, Finset.card_univ, Fintype.card_fin,
    nsmul_eq_mul]
  push_cast
  ring

theorem batches_variance (hind : iIndepFun X P) {G : (Fin m → ℂ) × (Fin m → ℂ) → ℝ} (hGm : Measurable G)
    (hG : MemLp G 2 (lineLaw m)) :
    MemLp (fun ω => ∑ i, ∑ j, G (rawLines (X i ω) j)) 2 P ∧
      Var[fun ω => ∑ i, ∑ j, G (rawLines (X i ω) j); P] = (b * L : ℕ) * Var[G; lineLaw m] := by
  have := hind.isProbabilityMeasure
  have hmeas : Measurable fun x : Fin 2 → Fin L → Fin (2 * m) → ℝ => ∑ j, G (rawLines x j) :=
    Finset.measurable_sum _ fun j _ => hGm.comp ((measurable_pi_apply j).comp (rawLines_preserving m L).measurable)
  have hmem : ∀ i, MemLp (fun ω => ∑ j, G (rawLines (X i ω) j)) 2 P := fun i =>
    memLp_finsetSum _ fun j _ => by
      have h1 := line_law (hX i) j
      exact MemLp.comp_of_map (g := G) (h1.map_eq ▸ hG) h1.aemeasurable
  have hv : ∀ i, Var[fun ω => ∑ j, G (rawLines (X i ω) j); P] = L * Var[G; lineLaw m] := fun i => by
    rw [← lines_variance (hX i) hG, variance_eq_integral (hmem i).aestronglyMeasurable.aemeasurable,
      (lines_integral (hX i) (hG.integrable one_le_two)).2]
  refine ⟨memLp_finsetSum _ fun i _ => hmem i, ?_⟩
  have h := IndepFun.variance_sum (μ := P) (X := fun i ω => ∑ j, G (rawLines (X i ω) j)) (s := Finset.univ)
    (fun i _ => hmem i) (fun i _ j _ hij => (hind.indepFun hij).comp hmeas hmeas)
  have e1 : (∑ i, fun ω => ∑ j, G (rawLines (X i ω) j)) = fun ω => ∑ i, ∑ j, G (rawLines (X i ω) j) := by
    funext ω
    simp
  rw [e1] at h
  rw [h, Finset.sum_congr rfl fun i _ => hv i, Finset.sum_const, Finset.card_univ, Fintype.card_fin, nsmul_eq_mul]
  push_cast
  ring

end Cyjax
