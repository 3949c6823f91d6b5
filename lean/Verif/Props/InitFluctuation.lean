import Verif.Props.Cholesky
import Verif.Lemmas.Coverage
import Mathlib.Probability.HasLaw
import Mathlib.Probability.ProductMeasure
import Mathlib.Probability.Independence.InfinitePi

/-! # C185: fluctuations of the initial Hermitian matrix -/

namespace Cyjax

open Cyjax.Ml MeasureTheory ProbabilityTheory Set Filter Topology Matrix
open scoped ComplexOrder ENNReal

variable {Ω : Type*} [MeasurableSpace Ω] {P : Measure Ω} {noise : Ω → ℕ → ℝ}
  (hlaw : ∀ i, HasLaw (fun ω => noise ω i) (gaussianReal 0 1) P)

private theorem param_getElem (n : ℕ) (f : ℝ) (x : ℕ → ℝ) (i : ℕ) (hi : i < n) :
    (hermitianParamInit n (some f) x)[i]? = some (1 + x i * f) := by
  simp [hermitianParamInit, List.getElem?_append, hi]

include hlaw

/-- **C185.** With independent normal draws (as the code makes them) and any fluctuation, the parameters almost surely give a
positive definite Hermitian matrix. -/
theorem C185_posDef (n : ℕ) (f : ℝ) :
    ∀ᵐ ω ∂P, ∃ A, choleskyFromParam (hermitianParamInit n (some f) (noise ω)) = .ok ⟨n, A⟩ ∧ A.PosDef := by
  have h : ∀ i, ∀ᵐ ω ∂P, 1 + noise ω i * f ≠ 0 := fun i => by
    by_cases hf : f = 0
    · simp [hf]
    have hm : MeasurableSet {x : ℝ | 1 + x * f ≠ 0} := (measurableSet_eq_fun (by fun_prop) (by fun_prop)).compl
    have := ((hlaw i).ae_iff (p := fun x => 1 + x * f ≠ 0) (measurableSet_setOfPred.1 hm)).2
    refine this ?_
    have : NullSingletonClass (gaussianReal 0 1) := nullSingletonClass_gaussianReal one_ne_zero
    filter_upwards [compl_mem_ae_iff.2 (measure_singleton (μ := gaussianReal 0 1) (-1 / f))] with x hx h0
    exact hx (by rw [mem_singleton_iff]; field_simp; linarith)
  filter_upwards [ae_all_iff.2 h] with ω hω
  exact C79_posDef n f (noise ω) fun i _ => hω i

/-- **C185, partial.** Every diagonal parameter has mean one and variance `fluctuate ^ 2`. Missing: the documented law, uniform
between `1 - fluctuate` and `1 + fluctuate` (see `C185_violated`). -/
theorem C185_moments_partial [IsProbabilityMeasure P] (n : ℕ) (f : ℝ) (i : ℕ) (hi : i < n) :
    ∃ D : Ω → ℝ, (∀ ω, (hermitianParamInit n (some f) (noise ω))[i]? = some (D ω)) ∧ P[D] = 1 ∧ Var[D; P] = f ^ 2 := by
  refine ⟨fun ω => 1 + noise ω i * f, fun ω => param_getElem n f _ i hi, ?_, ?_⟩
  · have := (hlaw i).integral_comp (f := fun x : ℝ => 1 + x * f) (by fun_prop)
    refine this.trans ?_
    have hint : Integrable (fun x : ℝ => x) (gaussianReal 0 1) := (memLp_id_gaussianReal 1).integrable le_rfl
    rw [integral_add (integrable_const _) (hint.mul_const _), integral_mul_const, integral_id_gaussianReal]
    simp
  · have h1 : Var[fun ω => 1 + noise ω i * f; P] = Var[fun ω => f * noise ω i; P] := by
      rw [variance_const_add ((hlaw i).aemeasurable.mul_const f).aestronglyMeasurable]
      simp only [mul_comm]
    rw [h1, variance_const_mul, (hlaw i).variance_eq, variance_id_gaussianReal]
    simp

/-- **C185 is violated.** The diagonal parameters are not between `1 - fluctuate` and `1 + fluctuate`. The probability that all
`n` of them are is the `n`-th power of the probability that a normal variable is within one standard deviation; it is less than
one, and it converges to zero as the size of the basis grows. -/
theorem C185_violated (hind : iIndepFun (fun i ω => noise ω i) P) (f : ℝ) (hf : 0 < f) :
    let inRange := fun n => {ω | ∀ i < n, ∃ d, (hermitianParamInit n (some f) (noise ω))[i]? = some d ∧ 1 - f ≤ d ∧ d ≤ 1 + f}
    (∀ n, P (inRange n) = gaussianReal 0 1 (Icc (-1) 1) ^ n) ∧ (∀ n ≠ 0, P (inRange n) < 1) ∧
      Tendsto (fun n => P (inRange n)) atTop (𝓝 0) := by
  intro inRange
  have h1 : ∀ n, P (inRange n) = gaussianReal 0 1 (Icc (-1) 1) ^ n := fun n => by
    have e : inRange n = ⋂ i ∈ Finset.range n, (fun ω => noise ω i) ⁻¹' Icc (-1) 1 := by
      ext ω
      simp only [inRange, mem_iInter, Finset.mem_range, mem_preimage, mem_Icc]
      refine forall₂_congr fun i hi => ?_
      rw [param_getElem n f _ i hi]
      constructor
      · rintro ⟨d, hd, h1, h2⟩
        obtain rfl : 1 + noise ω i * f = d := by simpa using hd
        constructor
        · exact le_of_mul_le_mul_right (by linarith) hf
        · exact le_of_mul_le_mul_right (by linarith) hf
      · rintro ⟨h1, h2⟩
        have := mul_le_mul_of_nonneg_right h1 hf.le
        have := mul_le_mul_of_nonneg_right h2 hf.le
        exact ⟨_, rfl, by linarith, by linarith⟩
    rw [e, hind.measure_inter_preimage_eq_mul (Finset.range n) (fun _ _ => measurableSet_Icc)]
    rw [Finset.prod_congr rfl fun i _ => ?_, Finset.prod_const, Finset.card_range]
    rw [← Measure.map_apply_of_aemeasurable (hlaw i).aemeasurable measurableSet_Icc, (hlaw i).map_eq]
  have h2 : gaussianReal 0 1 (Icc (-1) 1) < 1 :=
    (gaussian_interval_lt (v := 1) (t := 2) (s := 1) (by norm_num) (by norm_num)).trans_le prob_le_one
  refine ⟨h1, fun n hn => ?_, ?_⟩
  · rw [h1]
    exact pow_lt_one₀ zero_le h2 hn
  · simp only [h1]
    exact ENNReal.tendsto_pow_atTop_nhds_zero_of_lt_one h2

omit hlaw

/-- Independent standard normal draws. -/
example : (∀ i, HasLaw (fun ω : ℕ → ℝ => ω i) (gaussianReal 0 1) (Measure.infinitePi fun _ : ℕ => gaussianReal 0 1)) ∧
    iIndepFun (fun i (ω : ℕ → ℝ) => ω i) (Measure.infinitePi fun _ : ℕ => gaussianReal 0 1) := by
  refine ⟨fun i => ?_, iIndepFun_infinitePi (P := fun _ : ℕ => gaussianReal 0 1) (X := fun _ x => x) fun _ => measurable_id⟩
  have h := measurePreserving_eval_infinitePi (fun _ : ℕ => gaussianReal 0 1) i
  exact ⟨h.measurable.aemeasurable, h.map_eq⟩

end Cyjax
