import Verif.Model.Differential
import Verif.Lemmas.Projective
import Mathlib.LinearAlgebra.Matrix.SchurComplement
import Mathlib.LinearAlgebra.Matrix.PosDef
import Mathlib.Analysis.SpecialFunctions.Complex.LogDeriv
import Mathlib.Analysis.Complex.Order
import Mathlib.Analysis.InnerProductSpace.PiL2

namespace Cyjax.Projective

open scoped BigOperators

variable {K : Type*} [Field K]

theorem sum_update_mul {n : ℕ} (z w : Fin n → K) (i : Fin n) (t : K) :
    ∑ k, Function.update z i t k * w k = ∑ k, z k * w k + (t - z i) * w i := by
  rw [← sub_eq_iff_eq_add', ← Finset.sum_sub_distrib, Finset.sum_eq_single i]
  · rw [Function.update_self]; ring
  · intro k _ hk; rw [Function.update_of_ne hk]; ring
  · intro h; exact absurd (Finset.mem_univ i) h

theorem sum_mul_update {n : ℕ} (z w : Fin n → K) (i : Fin n) (t : K) :
    ∑ k, z k * Function.update w i t k = ∑ k, z k * w k + (t - w i) * z i := by
  simp_rw [mul_comm (z _)]
  exact sum_update_mul w z i t

theorem sum_mul_conjArr {n : ℕ} (z : Fin n → ℂ) :
    ∑ k, z k * conjArr z k = ((∑ k, ‖z k‖ ^ 2 : ℝ) : ℂ) := by
  rw [Complex.ofReal_sum]
  apply Finset.sum_congr rfl
  intro k _
  simp only [conjArr, Complex.mul_conj, Complex.normSq_eq_norm_sq]

theorem norm2p1_eq {n : ℕ} (z : Fin n → ℂ) :
    1 + ∑ k, z k * conjArr z k = ((1 + ∑ k, ‖z k‖ ^ 2 : ℝ) : ℂ) := by
  rw [sum_mul_conjArr]; push_cast; ring

theorem norm2p1_pos {n : ℕ} (z : Fin n → ℂ) : 0 < 1 + ∑ k, ‖z k‖ ^ 2 := by positivity

theorem norm2p1_slit {n : ℕ} (z : Fin n → ℂ) :
    1 + ∑ k, z k * conjArr z k ∈ Complex.slitPlane := by
  rw [norm2p1_eq]; exact Complex.ofReal_mem_slitPlane.2 (norm2p1_pos z)

theorem fsMetric_det {n : ℕ} (z zc : Fin n → K) (hN : 1 + ∑ k, z k * zc k ≠ 0) :
    (fsMetric z zc).det = 1 / (1 + ∑ k, z k * zc k) ^ (n + 1) := by
  set N := 1 + ∑ k, z k * zc k with hNdef
  have e : fsMetric z zc = (1 / N) • (1 + Matrix.replicateCol Unit (fun i => -(zc i / N)) *
      Matrix.replicateRow Unit z) := by
    ext i j
    simp only [fsMetric, ← hNdef, Matrix.smul_apply, Matrix.add_apply, Matrix.one_apply,
      Matrix.mul_apply, Matrix.replicateCol_apply, Matrix.replicateRow_apply, smul_eq_mul,
      Finset.univ_unique, Finset.sum_singleton]
    field_simp
    ring
  rw [e, Matrix.det_smul, Matrix.det_one_add_replicateCol_mul_replicateRow, Fintype.card_fin]
  have h2 : z ⬝ᵥ (fun i => -(zc i / N)) = -((N - 1) / N) := by
    have : N - 1 = ∑ k, z k * zc k := by rw [hNdef]; ring
    rw [this, Finset.sum_div, ← Finset.sum_neg_distrib]
    apply Finset.sum_congr rfl; intro i _; ring
  rw [h2, one_div, inv_pow]
  field_simp
  ring

/-- The Fubini–Study form on homogeneous coordinates (`V`, `U` tangent vectors, conjugates
independent). -/
noncomputable def homForm {n : ℕ} (Z Zc V Uc : Fin n → K) : K :=
  ((∑ k, V k * Uc k) * (∑ k, Z k * Zc k) - (∑ k, V k * Zc k) * (∑ k, Z k * Uc k)) /
    (∑ k, Z k * Zc k) ^ 2

theorem homForm_invariant {n : ℕ} (Z Zc V Uc : Fin n → K) (a b c d : K) (ha : a ≠ 0) (hb : b ≠ 0) :
    homForm (fun k => a * Z k) (fun k => b * Zc k) (fun k => a * V k + c * Z k)
      (fun k => b * Uc k + d * Zc k) = homForm Z Zc V Uc := by
  have e1 : ∑ k, a * Z k * (b * Zc k) = a * b * ∑ k, Z k * Zc k := by
    rw [Finset.mul_sum]; apply Finset.sum_congr rfl; intro k _; ring
  have e2 : ∑ k, (a * V k + c * Z k) * (b * Uc k + d * Zc k) =
      a * b * ∑ k, V k * Uc k + a * d * ∑ k, V k * Zc k + c * b * ∑ k, Z k * Uc k
        + c * d * ∑ k, Z k * Zc k := by
    simp only [Finset.mul_sum, ← Finset.sum_add_distrib]
    apply Finset.sum_congr rfl; intro k _; ring
  have e3 : ∑ k, (a * V k + c * Z k) * (b * Zc k) =
      a * b * ∑ k, V k * Zc k + c * b * ∑ k, Z k * Zc k := by
    simp only [Finset.mul_sum, ← Finset.sum_add_distrib]
    apply Finset.sum_congr rfl; intro k _; ring
  have e4 : ∑ k, a * Z k * (b * Uc k + d * Zc k) =
      a * b * ∑ k, Z k * Uc k + a * d * ∑ k, Z k * Zc k := by
    simp only [Finset.mul_sum, ← Finset.sum_add_distrib]
    apply Finset.sum_congr rfl; intro k _; ring
  unfold homForm
  rw [e1, e2, e3, e4]
  by_cases hS : ∑ k, Z k * Zc k = 0
  · simp [hS]
  · field_simp
    ring

/-- The affine metric is the homogeneous form at `Z = (1, z)` on vectors `(0, v)`. -/
theorem homForm_affine {n : ℕ} (p : Fin (n + 1)) (z zc v uc : Fin n → K) :
    homForm (p.insertNth (α := fun _ => K) 1 z) (p.insertNth (α := fun _ => K) 1 zc)
      (p.insertNth (α := fun _ => K) 0 v) (p.insertNth (α := fun _ => K) 0 uc) =
      ∑ i, ∑ j, v i * fsMetric z zc i j * uc j := by
  unfold homForm
  simp only [Fin.sum_univ_succAbove _ p, Fin.insertNth_apply_same, Fin.insertNth_apply_succAbove,
    mul_zero, zero_add, mul_one]
  set N := 1 + ∑ k, z k * zc k with hN
  have : ∀ i j, v i * fsMetric z zc i j * uc j =
      ((if i = j then v i * uc j * N else 0) - (v i * zc i) * (z j * uc j)) / N ^ 2 := by
    intro i j
    simp only [fsMetric, ← hN]
    split_ifs <;> ring
  simp only [this, ← Finset.sum_div, Finset.sum_sub_distrib, Finset.sum_ite_eq, Finset.mem_univ,
    if_true, ← Finset.sum_mul_sum]
  rw [Finset.sum_mul]

end Cyjax.Projective
