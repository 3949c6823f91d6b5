import Verif.Model.UtilVector
import Mathlib.Algebra.BigOperators.Field
import Mathlib.Tactic.FinCases
import Mathlib.Tactic.FieldSimp
import Mathlib.Tactic.Linarith
import Mathlib.Tactic.NormNum
import Mathlib.Data.Real.Basic
import Mathlib.Data.Fin.VecNotation

/-! # C184: batched integration with several weights for every point -/

namespace Cyjax

open Util
open scoped BigOperators

variable {Key Z : Type*} {k : ℕ}

/-- **C184.** The result of batched integration with `k` weights for every point is, in every component, the average over the
weights of all batches; the batch `i` is drawn with the `i`-th key of the splitting chain. -/
theorem C184_value {K : Type*} [Field K] (split : Key → Key × Key) (key : Key) {b bs : ℕ}
    (_hb : 0 < b) (_hbs : 0 < bs) (fn : Z → Fin k → K) (sample : Key → (c : ℕ) → (Fin c → Z) × (Fin c → Fin k → K)) (c : Fin k) :
    (mcIntegrateBatchedVec split key b bs fn sample).1 c =
      (∑ i : Fin b, ∑ j, (sample ((fun s => (split s).2)^[i] key) bs).2 j c) / (b * bs) := by
  have hk : ∀ i, scanKey split key i = (fun s => (split s).2)^[i] key := by
    intro i
    induction i with
    | zero => rfl
    | succ i ih => rw [Function.iterate_succ_apply', ← ih]; rfl
  simp only [mcIntegrateBatchedVec, meanAxis0, mean, hk, ← Finset.sum_div]
  rw [div_div, mul_comm (bs : K)]

/-- **C184, partial.** The returned variances are right in total: their sum over the components is the sum of the variances of
the means, `(mean((fn w)^2) - mean^2) / N` with `N = batches * batch_size`. Missing: the variance of every single component (see
`C184_violated`). -/
theorem C184_variance_total_partial {K : Type*} [Field K] [CharZero K] (split : Key → Key × Key) (key : Key) {b bs : ℕ}
    (hb : 0 < b) (hbs : 0 < bs) (hk : 0 < k) (fn : Z → Fin k → K)
    (sample : Key → (c : ℕ) → (Fin c → Z) × (Fin c → Fin k → K)) :
    let w := fun (i : Fin b) j c => (sample (scanKey split key i) bs).2 j c
    let v := fun (i : Fin b) j c => fn ((sample (scanKey split key i) bs).1 j) c * w i j c
    let N : K := b * bs
    let m := fun c => (∑ i, ∑ j, w i j c) / N
    ∑ c, (mcIntegrateBatchedVec split key b bs fn sample).2 c = ∑ c, ((∑ i, ∑ j, v i j c ^ 2) / N - m c ^ 2) / N := by
  intro w v N m
  have hb' : (b : K) ≠ 0 := by exact_mod_cast hb.ne'
  have hbs' : (bs : K) ≠ 0 := by exact_mod_cast hbs.ne'
  have hk' : (k : K) ≠ 0 := by exact_mod_cast hk.ne'
  have hm : ∀ c, (∑ i : Fin b, (∑ j, (sample (scanKey split key i) bs).2 j c) / (bs : K)) / (b : K) = m c := fun c => by
    rw [← Finset.sum_div, div_div, mul_comm (bs : K)]
  simp only [mcIntegrateBatchedVec, meanAxis0, meanAll, mean, hm, sub_div, Finset.sum_sub_distrib, Finset.sum_const,
    Finset.card_univ, Fintype.card_fin, nsmul_eq_mul, Pi.pow_apply, Pi.mul_apply]
  congr 1
  simp only [← Finset.sum_div]
  rw [Finset.sum_comm (s := (Finset.univ : Finset (Fin k)))]
  have e : ∀ i : Fin b, ∑ c : Fin k, ∑ j, v i j c ^ 2 = ∑ c : Fin k, ∑ j,
      (fn ((sample (scanKey split key i) bs).1 j) c * (sample (scanKey split key i) bs).2 j c) ^ 2 := fun i => rfl
  simp only [e]
  simp only [N]
  push_cast
  field_simp

/-- **C184, partial.** With one weight for every point the variance is right. -/
theorem C184_single_partial {K : Type*} [Field K] [CharZero K] (split : Key → Key × Key) (key : Key) {b bs : ℕ}
    (hb : 0 < b) (hbs : 0 < bs) (fn : Z → Fin 1 → K) (sample : Key → (c : ℕ) → (Fin c → Z) × (Fin c → Fin 1 → K)) :
    let w := fun (i : Fin b) j => (sample (scanKey split key i) bs).2 j 0
    let v := fun (i : Fin b) j => fn ((sample (scanKey split key i) bs).1 j) 0 * w i j
    let N : K := b * bs
    let m := (∑ i, ∑ j, w i j) / N
    (mcIntegrateBatchedVec split key b bs fn sample).2 0 = ((∑ i, ∑ j, v i j ^ 2) / N - m ^ 2) / N := by
  have h := C184_variance_total_partial split key hb hbs one_pos fn sample
  simp only [Fin.sum_univ_one] at h
  exact h

/-- **C184 is violated.** One batch is not the same as plain integration: with the two constant weights `1` and `3` the plain
variances are `0`, as they should be, while the batched variances are `4 / count` and `-4 / count`. -/
theorem C184_violated (count : ℕ) (hc : 0 < count) :
    let sample : Unit → (c : ℕ) → (Fin c → Unit) × (Fin c → Fin 2 → ℝ) := fun _ _ => (fun _ => (), fun _ => ![1, 3])
    let fn : Unit → Fin 2 → ℝ := fun _ => 1
    (mcIntegrateVec () count fn sample).1 = (mcIntegrateBatchedVec (fun _ => ((), ())) () 1 count fn sample).1 ∧
    (mcIntegrateVec () count fn sample).2 = ![0, 0] ∧
    (mcIntegrateBatchedVec (fun _ => ((), ())) () 1 count fn sample).2 = ![4 / (count : ℝ), -4 / count] := by
  have hc' : (count : ℝ) ≠ 0 := by exact_mod_cast hc.ne'
  refine ⟨?_, ?_, ?_⟩
  · funext c
    simp [mcIntegrateVec, mcIntegrateBatchedVec, meanAxis0, mean]
  · funext c
    fin_cases c <;> simp [mcIntegrateVec, meanAxis0, mean, hc']
  · funext c
    fin_cases c <;> simp [mcIntegrateBatchedVec, meanAxis0, meanAll, mean, hc', Fin.sum_univ_two] <;> field_simp <;> norm_num

/-- A case for `C184_variance_total_partial`: two points with two weights each, in one batch. The values are `2` and `5`, and the
variances add up to `1`. -/
example : ∃ sample : Unit → (c : ℕ) → (Fin c → Unit) × (Fin c → Fin 2 → ℝ),
    (mcIntegrateBatchedVec (fun _ => ((), ())) () 1 2 (fun _ => 1) sample).1 = ![2, 5] ∧
    ∑ c, (mcIntegrateBatchedVec (fun _ => ((), ())) () 1 2 (fun _ => 1) sample).2 c = 1 := by
  refine ⟨fun _ _ => (fun _ => (), fun i => if (i : ℕ) = 0 then ![1, 4] else ![3, 6]), ?_, ?_⟩
  · funext c
    fin_cases c <;> simp [mcIntegrateBatchedVec, meanAxis0, mean, Fin.sum_univ_two] <;> norm_num
  · simp [mcIntegrateBatchedVec, meanAxis0, meanAll, mean, Fin.sum_univ_two]
    norm_num

end Cyjax
