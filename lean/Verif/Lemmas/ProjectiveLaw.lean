import Verif.Lemmas.NormalDensity
import Verif.Lemmas.ComplexGaussian
import Verif.Lemmas.ConeCoordinates
import Verif.Lemmas.AlmostSure
import Verif.Props.Projective
import Mathlib.LinearAlgebra.Matrix.SchurComplement

/-! # The law of quotients of complex normal numbers -/

namespace Cyjax

open MeasureTheory Cyjax.Projective Set
open scoped ENNReal

/-- The volume of the Fubini–Study metric. -/
theorem fsMetricAt_det {n : ℕ} (z : Fin n → ℂ) :
    (fsMetricAt z).det = ((1 / (1 + ∑ k, ‖z k‖ ^ 2) ^ (n + 1) : ℝ) : ℂ) := by
  set ρ : ℂ := 1 + ∑ k, z k * (starRingEnd ℂ) (z k) with hρ
  have hρr : ρ = ((1 + ∑ k, ‖z k‖ ^ 2 : ℝ) : ℂ) := by
    rw [hρ]
    push_cast
    simp only [Complex.mul_conj']
  have h0 : ρ ≠ 0 := by
    rw [hρr]
    have : (0 : ℝ) < 1 + ∑ k, ‖z k‖ ^ 2 := by positivity
    exact_mod_cast this.ne'
  have e1 : fsMetricAt z = ρ⁻¹ • (1 + Matrix.replicateCol Unit (fun i => -(starRingEnd ℂ) (z i) / ρ) *
      Matrix.replicateRow Unit z) := by
    ext i j
    simp only [fsMetricAt, fsMetric, conjArr, ← hρ, Matrix.smul_apply, Matrix.add_apply, Matrix.one_apply, Matrix.mul_apply,
      Matrix.replicateCol_apply, Matrix.replicateRow_apply, Finset.univ_unique, Finset.sum_singleton, smul_eq_mul]
    split_ifs <;> field_simp <;> ring
  rw [e1, Matrix.det_smul, Matrix.det_one_add_replicateCol_mul_replicateRow, Fintype.card_fin]
  have e2 : z ⬝ᵥ (fun i => -(starRingEnd ℂ) (z i) / ρ) = -(ρ - 1) / ρ := by
    rw [hρ, add_sub_cancel_left, dotProduct, ← hρ, neg_div, Finset.sum_div, ← Finset.sum_neg_distrib]
    refine Finset.sum_congr rfl fun i _ => ?_
    ring
  rw [e2]
  push_cast
  rw [show (1 : ℂ) + ∑ k, (‖z k‖ : ℂ) ^ 2 = ρ by rw [hρr]; push_cast; rfl, pow_succ, inv_pow]
  field_simp
  ring

/-- Quotients of complex normal numbers. -/
theorem lintegral_quotients {n : ℕ} (p : Fin (n + 1)) {φ : (Fin n → ℂ) → ℝ≥0∞} (hφ : Measurable φ) :
    ∫⁻ Z, φ (fun k => Z (p.succAbove k) / Z p) ∂cnormal (n + 1) =
      ∫⁻ z, φ z * ENNReal.ofReal (n.factorial / Real.pi ^ n * (1 / (1 + ∑ k, ‖z k‖ ^ 2) ^ (n + 1))) := by
  have hπ := Real.pi_pos
  have hq : Measurable fun Z : Fin (n + 1) → ℂ => φ fun k => Z (p.succAbove k) / Z p :=
    hφ.comp (f := fun (Z : Fin (n + 1) → ℂ) k => Z (p.succAbove k) / Z p) (by fun_prop)
  rw [lintegral_cnormal hq, lintegral_insert p (f := fun z => cdensity z * φ fun k => z (p.succAbove k) / z p) (measurable_cdensity.mul hq)]
  have hae : ∀ᵐ x : ℂ, x ≠ 0 := by simp [ae_iff]
  have hm : Measurable fun z : ℂ × (Fin n → ℂ) => ENNReal.ofReal (‖z.1‖ ^ (2 * n) *
      Real.exp (-((1 + ∑ k, ‖z.2 k‖ ^ 2) / 2) * ‖z.1‖ ^ 2)) := by fun_prop
  have h1 : ∫⁻ x, ∫⁻ w, cdensity (p.insertNth (α := fun _ => ℂ) x w) * φ (fun k =>
        p.insertNth (α := fun _ => ℂ) x w (p.succAbove k) / p.insertNth (α := fun _ => ℂ) x w p) =
      ∫⁻ x : ℂ, ∫⁻ w : Fin n → ℂ, φ w * (ENNReal.ofReal (1 / (2 * Real.pi) ^ (n + 1)) *
        ENNReal.ofReal (‖x‖ ^ (2 * n) * Real.exp (-((1 + ∑ k, ‖w k‖ ^ 2) / 2) * ‖x‖ ^ 2))) := by
    refine lintegral_congr_ae ?_
    filter_upwards [hae] with x hx
    have hmw : Measurable fun w : Fin n → ℂ => cdensity (p.insertNth (α := fun _ => ℂ) x w) * φ (fun k =>
        p.insertNth (α := fun _ => ℂ) x w (p.succAbove k) / p.insertNth (α := fun _ => ℂ) x w p) := by
      have : Measurable fun w : Fin n → ℂ => p.insertNth (α := fun _ => ℂ) x w := by
        refine measurable_pi_iff.2 fun i => ?_
        rcases Fin.eq_self_or_eq_succAbove p i with rfl | ⟨j, rfl⟩
        · simp
        · simp only [Fin.insertNth_apply_succAbove]
          exact measurable_pi_apply j
      exact (measurable_cdensity.mul hq).comp this
    have hmw' : Measurable fun w : Fin n → ℂ => (fun w : Fin n → ℂ => cdensity (p.insertNth (α := fun _ => ℂ) x w) * φ (fun k =>
        p.insertNth (α := fun _ => ℂ) x w (p.succAbove k) / p.insertNth (α := fun _ => ℂ) x w p)) (x • w) :=
      hmw.comp (f := fun w : Fin n → ℂ => x • w) (by fun_prop)
    rw [lintegral_comp_smul hx hmw, ← lintegral_const_mul _ hmw']
    refine lintegral_congr fun w => ?_
    simp only [Fin.insertNth_apply_succAbove, Fin.insertNth_apply_same, Pi.smul_apply, smul_eq_mul, mul_div_cancel_left₀ _ hx]
    unfold cdensity
    have e3 : ∑ i, ‖p.insertNth (α := fun _ => ℂ) x (x • w) i‖ ^ 2 = (1 + ∑ k, ‖w k‖ ^ 2) * ‖x‖ ^ 2 := by
      rw [Fin.sum_univ_succAbove _ p]
      simp only [Fin.insertNth_apply_same, Fin.insertNth_apply_succAbove, Pi.smul_apply, smul_eq_mul, norm_mul, mul_pow]
      rw [← Finset.mul_sum]
      ring
    have e4 : ‖x‖ₑ ^ (2 * n) = ENNReal.ofReal (‖x‖ ^ (2 * n)) := by
      rw [← ofReal_norm_eq_enorm, ENNReal.ofReal_pow (norm_nonneg _)]
    rw [e3, e4, ENNReal.ofReal_mul (by positivity), ENNReal.ofReal_mul (by positivity),
      show -(1 / 2) * ((1 + ∑ k, ‖w k‖ ^ 2) * ‖x‖ ^ 2) = -((1 + ∑ k, ‖w k‖ ^ 2) / 2) * ‖x‖ ^ 2 by ring]
    ring
  refine h1.trans ?_
  rw [lintegral_lintegral_swap]
  · refine lintegral_congr fun w => ?_
    have hc : (0 : ℝ) < (1 + ∑ k, ‖w k‖ ^ 2) / 2 := by positivity
    rw [lintegral_const_mul, lintegral_const_mul, lintegral_norm_pow_gauss n hc, ← ENNReal.ofReal_mul (by positivity)]
    · congr 2
      rw [mul_pow, div_pow, pow_succ Real.pi]
      have : (1 + ∑ k, ‖w k‖ ^ 2 : ℝ) ≠ 0 := by positivity
      field_simp
    · fun_prop
    · fun_prop
  · have : Measurable fun z : ℂ × (Fin n → ℂ) => φ z.2 * (ENNReal.ofReal (1 / (2 * Real.pi) ^ (n + 1)) *
        ENNReal.ofReal (‖z.1‖ ^ (2 * n) * Real.exp (-((1 + ∑ k, ‖z.2 k‖ ^ 2) / 2) * ‖z.1‖ ^ 2))) :=
      (hφ.comp measurable_snd).mul (hm.const_mul _)
    exact this.aemeasurable

end Cyjax
