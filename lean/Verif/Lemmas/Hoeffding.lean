import Verif.Lemmas.Concentration
import Mathlib.Probability.Moments.SubGaussian
import Mathlib.Probability.BorelCantelli

/-! # Exponential bounds for the means over a sample -/

namespace Cyjax

open MeasureTheory ProbabilityTheory MvPolynomial Cyjax.Spec Cyjax.Polynomial Cyjax.Variety Set Filter Topology
open scoped ENNReal NNReal

section General

variable {Ω : Type*} [MeasurableSpace Ω] {P : Measure Ω}

theorem subgaussian_abs {Y : Ω → ℝ} {c : ℝ≥0} (h : HasSubgaussianMGF Y c P) {t : ℝ} (ht : 0 ≤ t) (hfin : IsFiniteMeasure P) :
    P {ω | t ≤ |Y ω|} ≤ ENNReal.ofReal (2 * Real.exp (-t ^ 2 / (2 * c))) := by
  have h1 := h.measure_ge_le ht
  have h2 := h.neg.measure_ge_le ht
  have hsub : {ω | t ≤ |Y ω|} ⊆ {ω | t ≤ Y ω} ∪ {ω | t ≤ (-Y) ω} := fun ω hω => by
    rcases abs_cases (Y ω) with h | h
    · exact Or.inl (by
        change t ≤ Y ω
        rw [← h.1]
        exact hω)
    · exact Or.inr (by
        change t ≤ -Y ω
        rw [← h.1]
        exact hω)
  refine (measure_mono hsub).trans ((measure_union_le _ _).trans ?_)
  rw [← ofReal_measureReal, ← ofReal_measureReal, ← ENNReal.ofReal_add measureReal_nonneg measureReal_nonneg]
  exact ENNReal.ofReal_le_ofReal (by linarith)

theorem measure_le_of_law {E : Type*} [MeasurableSpace E] {X : Ω → E} {ν : Measure E} (hX : HasLaw X ν P) (S : Set E) {c : ℝ≥0∞}
    (h : ν S ≤ c) : P (X ⁻¹' S) ≤ c := by
  refine (Measure.le_map_apply hX.aemeasurable S).trans ?_
  rw [hX.map_eq]
  exact h

/-- Exponentially small probabilities of an error give almost sure convergence, whatever the dependence. -/
theorem ae_tendsto_of_exp {Z : ℕ → Ω → ℝ} {I K : ℝ} (h : ∀ ε > 0, ∃ c > 0, ∀ N : ℕ, N ≠ 0 →
    P {ω | ε ≤ |Z N ω - I|} ≤ ENNReal.ofReal (K * Real.exp (N * -c))) : ∀ᵐ ω ∂P, Tendsto (fun N => Z N ω) atTop (𝓝 I) := by
  have hev : ∀ ε > 0, ∀ᵐ ω ∂P, ∀ᶠ N : ℕ in atTop, |Z N ω - I| < ε := by
    intro ε hε
    obtain ⟨c, hc0, hb⟩ := h ε hε
    have hsum : ∑' N : ℕ, P {ω | ε ≤ |Z (N + 1) ω - I|} ≠ ∞ := by
      refine ne_top_of_le_ne_top ?_ (ENNReal.tsum_le_tsum fun N => hb (N + 1) N.succ_ne_zero)
      have hs : Summable fun N : ℕ => K * Real.exp (((N + 1 : ℕ) : ℝ) * (-c)) :=
        (((summable_nat_add_iff 1).2 (Real.summable_exp_nat_mul_iff.2 (neg_lt_zero.2 hc0)))).mul_left K
      exact hs.tsum_ofReal_ne_top
    filter_upwards [ae_eventually_notMem hsum] with ω hω
    refine (eventually_atTop.2 ?_)
    obtain ⟨N, hN⟩ := eventually_atTop.1 hω
    refine ⟨N + 1, fun M hM => ?_⟩
    obtain ⟨M', rfl⟩ : ∃ M', M = M' + 1 := ⟨M - 1, by omega⟩
    exact not_le.1 (hN M' (by omega))
  have hall := ae_all_iff.2 fun k : ℕ => hev (1 / (k + 1)) (by positivity)
  filter_upwards [hall] with ω hω
  rw [Metric.tendsto_nhds]
  intro ε hε
  obtain ⟨k, hk⟩ := exists_nat_one_div_lt hε
  filter_upwards [hω k] with N hN
  rw [Real.dist_eq]
  exact hN.trans hk

variable {m L : ℕ} {X : Ω → Fin 2 → Fin L → Fin (2 * m) → ℝ} (hX : HasLaw X (normalsLaw m L) P)
  {G : (Fin m → ℂ) × (Fin m → ℂ) → ℝ} (hG : Measurable G) {A : ℝ≥0} (hA : ∀ᵐ x ∂lineLaw m, |G x| ≤ A)

include hX hG hA

/-- The sum over the lines of one batch. -/
theorem subgaussian_lines :
    HasSubgaussianMGF (fun ω => ∑ j, G (rawLines (X ω) j) - L * ∫ x, G x ∂lineLaw m) (L * A ^ 2) P := by
  have h1 : HasSubgaussianMGF (fun x => G x - ∫ x, G x ∂lineLaw m) (A ^ 2) (lineLaw m) := by
    have h := hasSubgaussianMGF_of_mem_Icc (μ := lineLaw m) (X := G) (a := -A) (b := A) hG.aemeasurable (by
      filter_upwards [hA] with x hx
      exact abs_le.1 hx)
    have e : (‖(A : ℝ) - -(A : ℝ)‖₊ / 2) ^ 2 = A ^ 2 := by
      congr 1
      rw [← NNReal.coe_inj, NNReal.coe_div, coe_nnnorm, Real.norm_eq_abs, sub_neg_eq_add, abs_of_nonneg (by positivity)]
      push_cast
      ring
    rwa [e] at h
  have h2 : ∀ j : Fin L, HasSubgaussianMGF (fun y : Fin L → (Fin m → ℂ) × (Fin m → ℂ) => G (y j) - ∫ x, G x ∂lineLaw m)
      (A ^ 2) (Measure.pi fun _ : Fin L => lineLaw m) := fun j => by
    have hm := measurePreserving_eval (fun _ : Fin L => lineLaw m) j
    have h := h1
    generalize ∫ x, G x ∂lineLaw m = I at h ⊢
    rw [← hm.map_eq] at h
    exact h.of_map hm.measurable.aemeasurable
  have hind : iIndepFun (fun (j : Fin L) (y : Fin L → (Fin m → ℂ) × (Fin m → ℂ)) => G (y j) - ∫ x, G x ∂lineLaw m)
      (Measure.pi fun _ : Fin L => lineLaw m) :=
    iIndepFun_pi (X := fun _ x => G x - ∫ x, G x ∂lineLaw m) fun _ => (hG.sub_const _).aemeasurable
  have h3 := HasSubgaussianMGF.sum_of_iIndepFun hind (s := Finset.univ) (fun j _ => h2 j)
  simp only [Finset.sum_const, Finset.card_univ, Fintype.card_fin, nsmul_eq_mul, Finset.sum_sub_distrib] at h3
  have hlaw := lines_law hX
  generalize ∫ x, G x ∂lineLaw m = I at h3 ⊢
  rw [← hlaw.map_eq] at h3
  exact h3.of_map hlaw.aemeasurable

omit hX in
/-- Hoeffding's inequality for the lines of independent batches. -/
theorem hoeffding_lines {b : ℕ} {X : Fin b → Ω → Fin 2 → Fin L → Fin (2 * m) → ℝ}
    (hX : ∀ i, HasLaw (X i) (normalsLaw m L) P) (hind : iIndepFun X P) {t : ℝ} (ht : 0 ≤ t) :
    P {ω | t ≤ |∑ i, ∑ j, G (rawLines (X i ω) j) - (b * L : ℕ) * ∫ x, G x ∂lineLaw m|} ≤
      ENNReal.ofReal (2 * Real.exp (-t ^ 2 / (2 * ((b * L : ℕ) * A ^ 2)))) := by
  have := hind.isProbabilityMeasure
  have hmeas : Measurable fun x : Fin 2 → Fin L → Fin (2 * m) → ℝ =>
      ∑ j, G (rawLines x j) - L * ∫ x, G x ∂lineLaw m := by
    refine (Finset.measurable_sum _ fun j _ => hG.comp ?_).sub_const _
    exact (measurable_pi_apply j).comp (rawLines_preserving m L).measurable
  have h := HasSubgaussianMGF.sum_of_iIndepFun (hind.comp (fun _ => _) fun _ => hmeas) (s := Finset.univ)
    (fun i _ => subgaussian_lines (hX i) hG hA)
  have h2 := subgaussian_abs h ht inferInstance
  simp only [Function.comp_apply, Finset.sum_const, Finset.card_univ, Fintype.card_fin, nsmul_eq_mul,
    Finset.sum_sub_distrib] at h2
  push_cast at h2 ⊢
  simp only [mul_assoc] at h2 ⊢
  exact h2

omit hX in
/-- Calls with more and more batches: if the batches of each call are independent, whatever the dependence between the calls,
the averages converge almost surely. -/
theorem rows_law (hL : L ≠ 0) {X : (b : ℕ) → Fin b → Ω → Fin 2 → Fin L → Fin (2 * m) → ℝ}
    (hX : ∀ b i, HasLaw (X b i) (normalsLaw m L) P) (hind : ∀ b, iIndepFun (X b) P) :
    ∀ᵐ ω ∂P, Tendsto (fun b : ℕ => (∑ i, ∑ j, G (rawLines (X b i ω) j)) / (b * L : ℕ)) atTop (𝓝 (∫ x, G x ∂lineLaw m)) := by
  set I := ∫ x, G x ∂lineLaw m with hI
  have hA' : ∀ᵐ x ∂lineLaw m, |G x| ≤ (A + 1 : ℝ≥0) := by
    filter_upwards [hA] with x hx
    push_cast
    linarith
  refine ae_tendsto_of_exp (K := 2) fun ε hε => ?_
  set c : ℝ := ε ^ 2 * L / (2 * ((A + 1 : ℝ≥0) : ℝ) ^ 2) with hc
  have hL0 : (0 : ℝ) < L := by exact_mod_cast Nat.pos_of_ne_zero hL
  have hA0 : (0 : ℝ) < ((A + 1 : ℝ≥0) : ℝ) := by positivity
  have hc0 : 0 < c := by positivity
  refine ⟨c, hc0, fun b hb => ?_⟩
  have hN : (0 : ℝ) < (b * L : ℕ) := by exact_mod_cast Nat.mul_pos (Nat.pos_of_ne_zero hb) (Nat.pos_of_ne_zero hL)
  have h1 := hoeffding_lines hG hA' (hX b) (hind b) (t := ε * (b * L : ℕ)) (by positivity)
  refine (measure_mono fun ω hω => ?_).trans (h1.trans (le_of_eq ?_))
  · change ε * (b * L : ℕ) ≤ |_|
    change ε ≤ |_| at hω
    have h2 : ∑ i, ∑ j, G (rawLines (X b i ω) j) - (b * L : ℕ) * I =
        ((∑ i, ∑ j, G (rawLines (X b i ω) j)) / (b * L : ℕ) - I) * (b * L : ℕ) := by
      field_simp
    rw [← hI, h2, abs_mul, abs_of_pos hN]
    exact mul_le_mul_of_nonneg_right hω hN.le
  · congr 3
    rw [hc]
    push_cast
    push_cast at hA0
    field_simp

end General

variable {n : ℕ} {F : MvPolynomial (Fin (n + 2)) ℂ} {V : HomKind} {ps : List ℂ}

theorem exp_bound_split {A N L ε : ℝ} (hA : 0 < A) (hN : 1 ≤ N) (hL : 0 < L) (hLN : L ≤ N) :
    Real.exp (-(ε * N / 2) ^ 2 / (2 * (L * A ^ 2))) ≤ Real.exp (-(N * ε ^ 2) / (32 * A ^ 2)) := by
  refine Real.exp_le_exp.2 ?_
  rw [neg_div, neg_div, neg_le_neg_iff]
  calc N * ε ^ 2 / (32 * A ^ 2) ≤ N * ε ^ 2 / (8 * A ^ 2) := by
        refine div_le_div_of_nonneg_left (by positivity) (by positivity) (by nlinarith [sq_nonneg A])
    _ = (ε * N / 2) ^ 2 / (2 * (N * A ^ 2)) := by
      have : (0 : ℝ) < N := by linarith
      field_simp
      ring
    _ ≤ _ := by
      refine div_le_div_of_nonneg_left (by positivity) (by positivity) ?_
      have := mul_le_mul_of_nonneg_right hLN (sq_nonneg A)
      linarith

theorem exp_bound_trivial {A N ε : ℝ} (hA : 0 < A) (hN : 1 ≤ N) (hε : 0 < ε) (h : ε * N < 4 * A) :
    1 ≤ 2 * Real.exp (-(N * ε ^ 2) / (32 * A ^ 2)) := by
  have h1 : N * ε ^ 2 / (32 * A ^ 2) ≤ 1 / 2 := by
    rw [div_le_iff₀ (by positivity)]
    have h2 : (ε * N) ^ 2 ≤ (4 * A) ^ 2 := pow_le_pow_left₀ (by positivity) h.le 2
    have h3 : N * ε ^ 2 ≤ N * (N * ε ^ 2) := le_mul_of_one_le_left (by positivity) hN
    nlinarith
  have h2 := Real.add_one_le_exp (-(N * ε ^ 2) / (32 * A ^ 2))
  rw [neg_div] at h2 ⊢
  linarith

/-- The mean of a bounded function over the first `count` points: the probability of an error decays exponentially. -/
theorem mean_hoeffding (hS : Samplable V (n + 1) (n + 2) ps) (hF : Hypersurface V (.vec ps) (n + 1) (n + 2) F)
    (hsm : SmoothHypersurface F) (hn : n ≠ 0) (p : Fin (n + 2)) (d : Fin (n + 1))
    {g : (Fin (n + 2) → ℂ) → ℝ} (hg : Measurable g) (hinv : ∀ c : ℂ, c ≠ 0 → ∀ Z, g (c • Z) = g Z) {K : ℝ}
    (hK : ∀ Z, Z ≠ 0 → eval Z F = 0 → |g Z| ≤ K) (count L : ℕ) (hc : count ≠ 0)
    (hL1 : L ≤ count) (hL2 : count ≤ L * (n + 2)) (hL3 : L * (n + 2) < count + (n + 2))
    (pts : (Fin 2 → Fin L → Fin (2 * (n + 2)) → ℝ) → List (Fin (n + 2) → ℂ))
    (hpts : ∀ᵐ x ∂normalsLaw (n + 2) L, (pts x).length = L * (n + 2) ∧
      (∀ Z ∈ pts x, Z ≠ 0 ∧ eval Z F = 0) ∧ ((pts x).map g).sum = ∑ j, realSum F g (rawLines x j)) (ε : ℝ) (hε : 0 < ε) :
    normalsLaw (n + 2) L
      {x | ε ≤ |(((pts x).take count).map g).sum / count - (∫ Z, g Z ∂fsMeasure p d F) / (n + 2)|} ≤
      ENNReal.ofReal (2 * Real.exp (-(count * ε ^ 2) / (32 * ((n + 2) * K + 1) ^ 2))) := by
  obtain ⟨hK0, hbd, hμ, hdev⟩ := mean_deviation hS hF hsm hn p d hg hinv hK count L hc hL2 hL3 pts hpts
  set A := ((n : ℝ) + 2) * K with hAd
  set μ := ∫ Z, g Z ∂fsMeasure p d F with hμd
  have hN1 : (1 : ℝ) ≤ count := by exact_mod_cast Nat.one_le_iff_ne_zero.2 hc
  have hA1 : 0 < A + 1 := by linarith
  rcases lt_or_ge (ε * count) (4 * (A + 1)) with hsmall | hlarge
  · refine prob_le_one.trans ?_
    rw [← ENNReal.ofReal_one]
    exact ENNReal.ofReal_le_ofReal (exp_bound_trivial hA1 hN1 hε hsmall)
  · have hL0 : (0 : ℝ) < L := by
      rcases Nat.eq_zero_or_pos L with h0 | h0
      · rw [h0, zero_mul] at hL2
        omega
      · exact_mod_cast h0
    have hX : HasLaw (fun x : Fin 2 → Fin L → Fin (2 * (n + 2)) → ℝ => x) (normalsLaw (n + 2) L) (normalsLaw (n + 2) L) :=
      HasLaw.id
    have hsub := subgaussian_lines hX (measurable_realSum (F := F) hg) (A := ⟨A + 1, hA1.le⟩) (by
      filter_upwards [hbd] with x hx
      change _ ≤ A + 1
      linarith)
    rw [hμ] at hsub
    have h1 := subgaussian_abs hsub (t := ε * count / 2) (by positivity) inferInstance
    refine (measure_mono_ae ?_).trans (h1.trans (ENNReal.ofReal_le_ofReal ?_))
    · filter_upwards [hdev] with x hx hbad
      change ε * count / 2 ≤ |_|
      change ε ≤ |_| at hbad
      have := (mul_le_mul_of_nonneg_right hbad (by linarith : (0 : ℝ) ≤ count)).trans hx
      linarith
    · refine mul_le_mul_of_nonneg_left ?_ zero_le_two
      have h2 := exp_bound_split (ε := ε) hA1 hN1 hL0 (by exact_mod_cast hL1)
      push_cast
      exact h2

end Cyjax
