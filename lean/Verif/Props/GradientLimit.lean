import Verif.Spec.GradientLimit
import Verif.Lemmas.GradientGap
import Verif.Props.LossLimit

/-! # C192: the gradient that training uses approaches the gradient of the loss -/

namespace Cyjax

open MeasureTheory ProbabilityTheory MvPolynomial Cyjax.Spec Cyjax.Polynomial Cyjax.Variety Cyjax.Donaldson Cyjax.Projective Cyjax.Ml Set
  Filter Topology
open scoped ENNReal ComplexOrder

section Main

variable {n : ℕ} {F : MvPolynomial (Fin (n + 2)) ℂ} {A : AlgebraicMetric (n + 1)} {ps : List ℂ} {o : SymOrder}
  (ho : o.Valid) {roots : List ℂ → List ℂ} (hr : CompleteRoots roots) (hsm : SmoothHypersurface F) (hn : n ≠ 0)
  (p : Fin (n + 2)) (d : Fin (n + 1)) (hS : Samplable A.variety (n + 1) (n + 2) ps)
  (hF : Hypersurface A.variety (.vec ps) (n + 1) (n + 2) F) (hB : SpansModulo F A.sections.degree A.sections.rows)
  (hk : A.sections.degree ≠ 0)
  {h : ℝ → A.H} (hd : ∀ a b, ContDiffAt ℝ 1 (fun t => h t a b) 0) (hh : ∀ᶠ t in 𝓝 (0 : ℝ), (h t).PosDef)

/-- The derivative for a constant average as a function of means. -/
private theorem slope_close (a b e g α β δ m t : ℝ) (hm : 0 < m) (ha : 0 < a) (hb : 0 < b) (hα : 0 < α) (hβ : 0 < β)
    (hab : m * a ≤ b) (hαβ : m * α ≤ β) (h1 : |a - α| ≤ t) (h2 : |b - β| ≤ t) (h3 : |e - δ| ≤ t) (h4 : |g| ≤ t) :
    |((a / b) ^ 2 * (2 * e) - 2 * (a / b) * g) - (α / β) ^ 2 * (2 * δ)| ≤
      (2 * m⁻¹ ^ 2 + (m⁻¹ + 1) / β * (2 * m⁻¹) * (2 * |δ|) + 2 * m⁻¹) * t := by
  have ht : 0 ≤ t := (abs_nonneg _).trans h1
  obtain ⟨r, hr⟩ : ∃ r, r = a / b := ⟨_, rfl⟩
  obtain ⟨ρ, hρ⟩ : ∃ ρ, ρ = α / β := ⟨_, rfl⟩
  have hm' : 0 < m⁻¹ := inv_pos.2 hm
  have hr0 : 0 < r := by rw [hr]; positivity
  have hρ0 : 0 < ρ := by rw [hρ]; positivity
  have hr1 : r ≤ m⁻¹ := by
    rw [hr, div_le_iff₀ hb, inv_mul_eq_div, le_div_iff₀ hm]
    linarith
  have hρ1 : ρ ≤ m⁻¹ := by
    rw [hρ, div_le_iff₀ hβ, inv_mul_eq_div, le_div_iff₀ hm]
    linarith
  have hd : |r - ρ| ≤ t * (m⁻¹ + 1) / β := by
    have e : r - ρ = (r * (β - b) + (a - α)) / β := by
      rw [hr, hρ]
      field_simp
      ring
    rw [e, abs_div, abs_of_pos hβ]
    refine div_le_div_of_nonneg_right ?_ hβ.le
    refine (abs_add_le _ _).trans ?_
    rw [abs_mul, abs_of_pos hr0, abs_sub_comm]
    have : r * |b - β| ≤ m⁻¹ * t := mul_le_mul hr1 h2 (abs_nonneg _) hm'.le
    linarith
  rw [← hr, ← hρ]
  have e1 : (r ^ 2 * (2 * e) - 2 * r * g) - ρ ^ 2 * (2 * δ) = 2 * r ^ 2 * (e - δ) + (r - ρ) * (r + ρ) * (2 * δ) - 2 * r * g := by ring
  rw [e1]
  have b1 : |2 * r ^ 2 * (e - δ)| ≤ 2 * m⁻¹ ^ 2 * t := by
    rw [abs_mul, abs_of_nonneg (by positivity : 0 ≤ 2 * r ^ 2)]
    exact mul_le_mul (mul_le_mul_of_nonneg_left (pow_le_pow_left₀ hr0.le hr1 2) zero_le_two) h3 (abs_nonneg _) (by positivity)
  have b2 : |(r - ρ) * (r + ρ) * (2 * δ)| ≤ t * (m⁻¹ + 1) / β * (2 * m⁻¹) * (2 * |δ|) := by
    rw [abs_mul, abs_mul, abs_of_pos (by positivity : 0 < r + ρ), abs_mul 2 δ, abs_two]
    exact mul_le_mul_of_nonneg_right (mul_le_mul hd (by linarith) (by positivity) (by positivity)) (by positivity)
  have b3 : |2 * r * g| ≤ 2 * m⁻¹ * t := by
    rw [abs_mul, abs_of_pos (by positivity : 0 < 2 * r)]
    exact mul_le_mul (by linarith) h4 (abs_nonneg _) (by positivity)
  have b4 := abs_sub (2 * r ^ 2 * (e - δ) + (r - ρ) * (r + ρ) * (2 * δ)) (2 * r * g)
  have b5 := abs_add_le (2 * r ^ 2 * (e - δ)) ((r - ρ) * (r + ρ) * (2 * δ))
  have e2 : t * (m⁻¹ + 1) / β * (2 * m⁻¹) * (2 * |δ|) = (m⁻¹ + 1) / β * (2 * m⁻¹) * (2 * |δ|) * t := by ring
  rw [e2] at b2
  linarith

include hsm hn hS hF hB hk hd hh

/-- The derivative of the limit of the loss. -/
private theorem limit_slope (D : (Fin (n + 2) → ℂ) → ℝ)
    (hD : ∀ Z, Z ≠ 0 → eval Z F = 0 → HasDerivAt (fun t => etaAt A (h t) ps Z) (D Z) 0) :
    HasDerivAt (fun t => limitLoss p d F A ps (h t))
      (((cyMeasure p d F univ).toReal / ∫ Z, etaAt A (h 0) ps Z ∂cyMeasure p d F) ^ 2 *
        (2 * ((∫ Z, etaAt A (h 0) ps Z * D Z ∂cyMeasure p d F) / (n + 2)))) 0 := by
  have hh0 : (h 0).PosDef := hh.self_of_nhds
  have h2 := integral_eta_sq_derivative hsm hn p d hS hF hB hd hh D hD
  obtain ⟨V, hV⟩ : ∃ V, V = (cyMeasure p d F univ).toReal := ⟨_, rfl⟩
  obtain ⟨K, hK⟩ : ∃ K, K = ∫ Z, etaAt A (h 0) ps Z ∂cyMeasure p d F := ⟨_, rfl⟩
  have e1 : (fun t => limitLoss p d F A ps (h t)) =ᶠ[𝓝 0] fun t =>
      (V ^ 2 * (∫ Z, etaAt A (h t) ps Z ^ 2 ∂cyMeasure p d F) / K ^ 2 - V) / (n + 2) := by
    filter_upwards [hh] with t ht
    obtain ⟨V', K', S, -, -, -, eV, eK, eS, eΛ, -, -⟩ := eta_integrals hsm hn p d hS hF hB hk (h t) ht
    unfold limitLoss
    rw [eΛ, eV, eK, eS, ← hV, hK, (C153_volume hsm hn p d hS hF hB hk (h t) ht).2, (C153_volume hsm hn p d hS hF hB hk (h 0) hh0).2]
  rw [← hV, ← hK]
  refine (((((h2.const_mul (V ^ 2)).div_const (K ^ 2)).sub_const V).div_const ((n : ℝ) + 2)).congr_of_eventuallyEq e1).congr_deriv ?_
  ring

include ho hr

private theorem slope_cover : ∃ κ > 0, ∃ f : Fin 4 → (Fin (n + 2) → ℂ) → ℝ, ∃ M : Fin 4 → ℝ,
    (∀ k, Measurable (f k) ∧ (∀ c : ℂ, c ≠ 0 → ∀ Z, f k (c • Z) = f k Z) ∧ ∀ Z, Z ≠ 0 → eval Z F = 0 → |f k Z| ≤ M k) ∧
    ∀ count : ℕ, count ≠ 0 → ∀ᵐ x ∂normalsLaw (n + 2) (sampleCount count (n + 2)),
      DifferentiableAt ℝ (sampledStopped A o roots ps count x h) 0 ∧
      DifferentiableAt ℝ (fun t => sampledLoss A o roots ps count x (h t)) 0 ∧
      ∀ ε > 0, (∀ k, |weightedMean (f k) (sampleIntersectOpt n A.variety o roots ps count (asLists (lineDraws x)) false true) -
          (∫ Z, f k Z ∂cyMeasure p d F) / (n + 2)| < κ * ε) →
        |trainingSlope A o roots ps count x h - lossSlope A o roots ps count x h| < ε ∧
        |trainingSlope A o roots ps count x h - deriv (fun t => limitLoss p d F A ps (h t)) 0| < ε ∧
        |lossSlope A o roots ps count x h - deriv (fun t => limitLoss p d F A ps (h t)) 0| < ε := by
  have hom := hF.homogeneous
  have he0 : n + 2 ≠ 0 := by omega
  have hirr := smooth_irreducible (by omega) hom he0 hsm
  have hh0 : (h 0).PosDef := hh.self_of_nhds
  obtain ⟨D, M', hDm, hDi, hD'⟩ := etaAt_curve_derivative hsm hF hB hd hh
  have hD := fun Z hZ h0 => (hD' Z hZ h0).1
  have hDb := fun Z hZ h0 => (hD' Z hZ h0).2
  have hD0 := integral_eta_derivative hsm hn p d hS hF hB hk hd hh D hD
  have hL := limit_slope hsm hn p d hS hF hB hk hd hh D hD
  obtain ⟨V, K, S, hV, hK, hS0, eV, eK, eS, -, -, -⟩ := eta_integrals hsm hn p d hS hF hB hk (h 0) hh0
  obtain ⟨hfin0, hne0, -⟩ := C130_measure hsm hn p d hS hF
  have hfin : IsFiniteMeasure (cyMeasure p d F) := ⟨hfin0.lt_top⟩
  obtain ⟨M, hM⟩ := etaAt_bounded hF (h 0) hB hh0 hsm
  obtain ⟨m, hm, hlow⟩ := etaAt_lower hsm hF hB hk (h 0) hh0
  have hn2 : (0 : ℝ) < n + 2 := by positivity
  have hηpos : ∀ Z, Z ≠ 0 → eval Z F = 0 → 0 < etaAt A (h 0) ps Z := fun Z hZ h0 => (etaAt_pos hF (h 0) hB hh0 hsm hk Z hZ h0).1
  have hwpos : ∀ Z, Z ≠ 0 → eval Z F = 0 → 0 < pointWeight (n + 2) F Z := fun Z hZ h0 =>
    pointWeight_pos (e := n + 2) Z hZ (hsm Z hZ h0)
  have hηm : Measurable (etaAt A (h 0) ps) := measurable_etaAt hF (h 0) hB
  have hηi : ∀ c : ℂ, c ≠ 0 → ∀ Z, etaAt A (h 0) ps (c • Z) = etaAt A (h 0) ps Z := etaAt_smul hF (h 0)
  have hmVK : m * V ≤ K := by
    have hcyae : ∀ᵐ Z ∂cyMeasure p d F, Z ≠ 0 ∧ Z ∈ regularSet p d F := by
      rw [cyMeasure_withDensity p d hF.homogeneous]
      exact (withDensity_absolutelyContinuous _ _).ae_le (ae_fsMeasure hF.homogeneous p d)
    have := integral_mono_ae (integrable_const (μ := cyMeasure p d F) m) (C133_accuracy hsm hn p d hS hF hB hk (h 0) hh0).1
      (hcyae.mono fun Z hZ => hlow Z hZ.1 hZ.2.1)
    rwa [integral_const, smul_eq_mul, Measure.real, ← eV, ← eK, mul_comm] at this
  obtain ⟨T, hT⟩ : ∃ T, T = ∫ Z, etaAt A (h 0) ps Z * D Z ∂cyMeasure p d F := ⟨_, rfl⟩
  rw [← eV, ← eK, ← hT] at hL
  obtain ⟨Q₁, hQ₁⟩ : ∃ Q, Q = 2 * m⁻¹ ^ 2 + (m⁻¹ + 1) / (K / (n + 2)) * (2 * m⁻¹) * (2 * |T / (n + 2)|) + 2 * m⁻¹ := ⟨_, rfl⟩
  obtain ⟨Q₂, hQ₂⟩ : ∃ Q, Q = 2 / m * (|M| / m + 1) := ⟨_, rfl⟩
  have hQ₁0 : 0 < Q₁ := by rw [hQ₁]; positivity
  have hQ₂0 : 0 < Q₂ := by rw [hQ₂]; positivity
  refine ⟨1 / (2 * (Q₁ + Q₂)), by positivity, ![fun _ => 1, etaAt A (h 0) ps, fun Z => etaAt A (h 0) ps Z * D Z, D], ![1, M, |M| * |M'|, M'],
    fun k => ?_, fun count hc => ?_⟩
  · fin_cases k
    · exact ⟨measurable_const, fun _ _ _ => rfl, fun _ _ _ => by simp⟩
    · exact ⟨hηm, hηi, hM⟩
    · refine ⟨hηm.mul hDm, fun c hc Z => ?_, fun Z hZ h0 => ?_⟩
      · change etaAt A (h 0) ps (c • Z) * D (c • Z) = etaAt A (h 0) ps Z * D Z
        rw [hηi c hc, hDi c hc]
      · change |etaAt A (h 0) ps Z * D Z| ≤ |M| * |M'|
        rw [abs_mul]
        exact mul_le_mul ((hM Z hZ h0).trans (le_abs_self _)) ((hDb Z hZ h0).trans (le_abs_self _)) (abs_nonneg _) (abs_nonneg _)
    · exact ⟨hDm, hDi, hDb⟩
  · obtain ⟨pts, hpts⟩ := sample_sums hS hF hsm hirr ho hr he0 (sampleCount count (n + 2))
    have hc2 := (sampleCount_mul count (n + 2) (by omega)).1
    have hct : (0 : ℝ) < count := by exact_mod_cast Nat.pos_of_ne_zero hc
    filter_upwards [hpts] with x hx
    obtain ⟨Zs, hZs⟩ : ∃ Zs, Zs = (pts x).take count := ⟨_, rfl⟩
    obtain ⟨-, hw, -, haff⟩ := hx.2.2.1 count
    rw [← hZs] at hw haff
    have hlen : Zs.length = count := by rw [hZs, List.length_take, hx.1, min_eq_left hc2]
    have hmem : ∀ Z ∈ Zs, Z ≠ 0 ∧ eval Z F = 0 := fun Z hZ => hx.2.1 Z (List.mem_of_mem_take (by rw [← hZs]; exact hZ))
    have hne : Zs ≠ [] := fun h0 => hc (by rw [← hlen, h0]; rfl)
    have hrow : sampleRow n A.variety o roots (fun _ : Unit => asLists (lineDraws x)) count () ps =
        .ok ⟨ps, Zs.map homToAffineAuto, Zs.map (pointWeight (n + 2) F)⟩ := by
      unfold sampleRow
      rw [haff]
      rfl
    have hsumpos : ∀ g : (Fin (n + 2) → ℂ) → ℝ, (∀ Z ∈ Zs, 0 < g Z) → 0 < (Zs.map g).sum := fun g hg =>
      List.sum_pos _ (by
        intro y hy
        obtain ⟨Z, hZ, rfl⟩ := List.mem_map.1 hy
        exact hg Z hZ) (by simpa using hne)
    obtain ⟨a, ha⟩ : ∃ a, a = (Zs.map (pointWeight (n + 2) F)).sum / Zs.length := ⟨_, rfl⟩
    obtain ⟨b, hb⟩ : ∃ b, b = (Zs.map fun Z => etaAt A (h 0) ps Z * pointWeight (n + 2) F Z).sum / Zs.length := ⟨_, rfl⟩
    obtain ⟨c, hcd⟩ : ∃ c, c = (Zs.map fun Z => etaAt A (h 0) ps Z ^ 2 * pointWeight (n + 2) F Z).sum / Zs.length := ⟨_, rfl⟩
    obtain ⟨e, he⟩ : ∃ e, e = (Zs.map fun Z => etaAt A (h 0) ps Z * D Z * pointWeight (n + 2) F Z).sum / Zs.length := ⟨_, rfl⟩
    obtain ⟨g, hg⟩ : ∃ g, g = (Zs.map fun Z => D Z * pointWeight (n + 2) F Z).sum / Zs.length := ⟨_, rfl⟩
    have hlen0 : (0 : ℝ) < Zs.length := by rw [hlen]; exact hct
    have ha0 : 0 < a := by
      rw [ha]
      exact div_pos (hsumpos _ fun Z hZ => hwpos Z (hmem Z hZ).1 (hmem Z hZ).2) hlen0
    have hb0 : 0 < b := by
      rw [hb]
      exact div_pos (hsumpos _ fun Z hZ => mul_pos (hηpos Z (hmem Z hZ).1 (hmem Z hZ).2) (hwpos Z (hmem Z hZ).1 (hmem Z hZ).2)) hlen0
    have hc0 : 0 < c := by
      rw [hcd]
      exact div_pos (hsumpos _ fun Z hZ =>
        mul_pos (pow_pos (hηpos Z (hmem Z hZ).1 (hmem Z hZ).2) 2) (hwpos Z (hmem Z hZ).1 (hmem Z hZ).2)) hlen0
    have hab : m * a ≤ b := by
      rw [ha, hb, ← mul_div_assoc, ← List.sum_map_mul_left]
      exact div_le_div_of_nonneg_right (List.sum_le_sum fun Z hZ => mul_le_mul_of_nonneg_right (hlow Z (hmem Z hZ).1 (hmem Z hZ).2)
        (hwpos Z (hmem Z hZ).1 (hmem Z hZ).2).le) hlen0.le
    have hcb : c ≤ |M| * b := by
      rw [hcd, hb, ← mul_div_assoc, ← List.sum_map_mul_left]
      refine div_le_div_of_nonneg_right (List.sum_le_sum fun Z hZ => ?_) hlen0.le
      rw [← mul_assoc, sq]
      refine mul_le_mul_of_nonneg_right (mul_le_mul_of_nonneg_right ?_ (hηpos Z (hmem Z hZ).1 (hmem Z hZ).2).le)
        (hwpos Z (hmem Z hZ).1 (hmem Z hZ).2).le
      exact (le_abs_self _).trans ((hM Z (hmem Z hZ).1 (hmem Z hZ).2).trans (le_abs_self M))
    obtain ⟨g1, g2⟩ := row_gradients hsm hF hB hk hh hD Zs hne hmem (pointWeight (n + 2) F)
      (fun Z hZ => hwpos Z (hmem Z hZ).1 (hmem Z hZ).2) ha hb hcd he hg hb0.ne'
    have f1 : sampledStopped A o roots ps count x h = fun t => resultOrZero (lossRowStopped A (h t) (h 0)
        ⟨ps, Zs.map homToAffineAuto, Zs.map (pointWeight (n + 2) F)⟩) := by
      funext t
      unfold sampledStopped
      rw [hrow]
      rfl
    have f2 : (fun t => sampledLoss A o roots ps count x (h t)) = fun t => resultOrZero (varianceEtaLossRow A (h t)
        ⟨ps, Zs.map homToAffineAuto, Zs.map (pointWeight (n + 2) F)⟩) := by
      funext t
      unfold sampledLoss
      rw [hrow]
      rfl
    rw [← f1] at g1
    rw [← f2] at g2
    refine ⟨g1.differentiableAt, g2.differentiableAt, fun ε hε hclose => ?_⟩
    unfold trainingSlope lossSlope
    rw [g1.deriv, g2.deriv, hL.deriv]
    have c0 := hclose 0
    have c1 := hclose 1
    have c2 := hclose 2
    have c3 := hclose 3
    rw [hw] at c0 c1 c2 c3
    change |weightedMean (fun _ => 1) _ - (∫ _, (1 : ℝ) ∂cyMeasure p d F) / ((n : ℝ) + 2)| < _ at c0
    change |weightedMean (etaAt A (h 0) ps) _ - (∫ Z, etaAt A (h 0) ps Z ∂cyMeasure p d F) / ((n : ℝ) + 2)| < _ at c1
    change |weightedMean (fun Z => etaAt A (h 0) ps Z * D Z) _ - (∫ Z, etaAt A (h 0) ps Z * D Z ∂cyMeasure p d F) / ((n : ℝ) + 2)| < _ at c2
    change |weightedMean D _ - (∫ Z, D Z ∂cyMeasure p d F) / ((n : ℝ) + 2)| < _ at c3
    rw [weightedMean_eq] at c0 c1 c2 c3
    simp only [one_mul] at c0
    rw [integral_const, smul_eq_mul, mul_one, Measure.real, ← eV, ← ha] at c0
    rw [← eK, ← hb] at c1
    rw [← hT, ← he] at c2
    rw [hD0, zero_div, sub_zero, ← hg] at c3
    have k1 := slope_close a b e g (V / (n + 2)) (K / (n + 2)) (T / (n + 2)) m _ hm ha0 hb0 (div_pos hV hn2) (div_pos hK hn2) hab
      (by rw [← mul_div_assoc]; exact div_le_div_of_nonneg_right hmVK hn2.le) c0.le c1.le c2.le c3.le
    rw [← hQ₁, div_div_div_cancel_right₀ hn2.ne'] at k1
    have k2 := gradient_gap (g := g) hm ha0 hb0 hc0.le (abs_nonneg M) hab hcb
    rw [← hQ₂] at k2
    have k3 : Q₂ * |g| ≤ Q₂ * (1 / (2 * (Q₁ + Q₂)) * ε) := mul_le_mul_of_nonneg_left c3.le hQ₂0.le
    have k4 : Q₁ * (1 / (2 * (Q₁ + Q₂)) * ε) + Q₂ * (1 / (2 * (Q₁ + Q₂)) * ε) = ε / 2 := by field_simp
    have k5 : 0 < Q₁ * (1 / (2 * (Q₁ + Q₂)) * ε) := by positivity
    have k6 : 0 < Q₂ * (1 / (2 * (Q₁ + Q₂)) * ε) := by positivity
    have k7 : |((a / b) ^ 2 * (2 * e) - 2 * (a / b) * g) - ((a / b) ^ 2 * (2 * e) - 2 * (a / b) * (a * c / b ^ 2) * g)| ≤ Q₂ * |g| := by
      have : ((a / b) ^ 2 * (2 * e) - 2 * (a / b) * g) - ((a / b) ^ 2 * (2 * e) - 2 * (a / b) * (a * c / b ^ 2) * g) =
        2 * (a / b) * (a * c / b ^ 2) * g - 2 * (a / b) * g := by ring
      rw [this]
      exact k2
    refine ⟨by linarith, by linarith, ?_⟩
    rw [abs_sub_comm] at k7
    have k8 := abs_sub_le ((a / b) ^ 2 * (2 * e) - 2 * (a / b) * (a * c / b ^ 2) * g) ((a / b) ^ 2 * (2 * e) - 2 * (a / b) * g)
      ((V / K) ^ 2 * (2 * (T / (n + 2))))
    linarith

omit hB hk hd hh in
private theorem bad_bound {f : Fin 4 → (Fin (n + 2) → ℂ) → ℝ} {M : Fin 4 → ℝ} {κ : ℝ} (hκ : 0 < κ)
    (hf : ∀ k, Measurable (f k) ∧ (∀ c : ℂ, c ≠ 0 → ∀ Z, f k (c • Z) = f k Z) ∧ ∀ Z, Z ≠ 0 → eval Z F = 0 → |f k Z| ≤ M k) :
    ∃ C : ℝ, ∀ count : ℕ, count ≠ 0 → ∀ ε > 0,
      ∀ S : Set (Fin 2 → Fin (sampleCount count (n + 2)) → Fin (2 * (n + 2)) → ℝ),
      (∀ᵐ x ∂normalsLaw (n + 2) (sampleCount count (n + 2)), (∀ k, |weightedMean (f k)
          (sampleIntersectOpt n A.variety o roots ps count (asLists (lineDraws x)) false true) -
          (∫ Z, f k Z ∂cyMeasure p d F) / (n + 2)| < κ * ε) → x ∉ S) →
      normalsLaw (n + 2) (sampleCount count (n + 2)) S ≤ ENNReal.ofReal (C / (count * ε ^ 2)) := by
  have he := fun k => (C132_error ho hr hsm hn p d hS hF (hf k).1 (hf k).2.1 (hf k).2.2).1
  choose C hC using he
  refine ⟨(∑ k, max (C k) 0) / κ ^ 2, fun count hc ε hε S hS' => ?_⟩
  have hct : (0 : ℝ) < count := by exact_mod_cast Nat.pos_of_ne_zero hc
  have e1 : (∑ k, max (C k) 0) / κ ^ 2 / (count * ε ^ 2) = ∑ k, max (C k) 0 / (count * (κ * ε) ^ 2) := by
    rw [← Finset.sum_div]
    field_simp
  have hcov : normalsLaw (n + 2) (sampleCount count (n + 2)) S ≤ normalsLaw (n + 2) (sampleCount count (n + 2))
      (⋃ k, {x | κ * ε ≤ |weightedMean (f k) (sampleIntersectOpt n A.variety o roots ps count (asLists (lineDraws x)) false true) -
        (∫ Z, f k Z ∂cyMeasure p d F) / (n + 2)|}) := by
    refine measure_mono_ae ?_
    filter_upwards [hS'] with x hx hxS
    by_contra hcon
    refine hx (fun k => ?_) hxS
    by_contra hk
    exact hcon (mem_iUnion.2 ⟨k, not_lt.1 hk⟩)
  rw [e1, ENNReal.ofReal_sum_of_nonneg fun k _ => by positivity]
  refine hcov.trans ((measure_iUnion_fintype_le _ _).trans (Finset.sum_le_sum fun k _ =>
    (hC k count hc (κ * ε) (by positivity)).trans (ENNReal.ofReal_le_ofReal ?_)))
  exact div_le_div_of_nonneg_right (le_max_left _ _) (by positivity)

/-- **C192.** For `count` sampled points both derivatives exist with probability one. The derivative that training uses, for which the
average eta is a constant, differs from the derivative of the loss by at least `ε` with a probability of at most `C / (count ε²)`. -/
theorem C192_gradient : ∃ C : ℝ, ∀ count : ℕ, count ≠ 0 →
    (∀ᵐ x ∂normalsLaw (n + 2) (sampleCount count (n + 2)), DifferentiableAt ℝ (sampledStopped A o roots ps count x h) 0 ∧
      DifferentiableAt ℝ (fun t => sampledLoss A o roots ps count x (h t)) 0) ∧
    ∀ ε > 0, normalsLaw (n + 2) (sampleCount count (n + 2))
      {x | ε ≤ |trainingSlope A o roots ps count x h - lossSlope A o roots ps count x h|} ≤ ENNReal.ofReal (C / (count * ε ^ 2)) := by
  obtain ⟨κ, hκ, f, M, hf, hcov⟩ := slope_cover ho hr hsm hn 0 0 hS hF hB hk hd hh
  obtain ⟨C, hC⟩ := bad_bound ho hr hsm hn 0 0 hS hF hκ hf
  refine ⟨C, fun count hc => ⟨(hcov count hc).mono fun x hx => ⟨hx.1, hx.2.1⟩, fun ε hε => hC count hc ε hε _ ?_⟩⟩
  filter_upwards [hcov count hc] with x hx hk hbad
  have hbad' : ε ≤ _ := hbad
  exact (hx.2.2 ε hε hk).1.not_ge hbad'

/-- **C192.** The limit of the loss for infinitely many points is differentiable. The derivative that training uses and the derivative of the
loss on the sample both converge to its derivative: an error of at least `ε` has a probability of at most `C / (count ε²)`. -/
theorem C192_limit : DifferentiableAt ℝ (fun t => limitLoss p d F A ps (h t)) 0 ∧ ∃ C : ℝ, ∀ count : ℕ, count ≠ 0 → ∀ ε > 0,
    normalsLaw (n + 2) (sampleCount count (n + 2))
      {x | ε ≤ |trainingSlope A o roots ps count x h - deriv (fun t => limitLoss p d F A ps (h t)) 0|} ≤
        ENNReal.ofReal (C / (count * ε ^ 2)) ∧
    normalsLaw (n + 2) (sampleCount count (n + 2))
      {x | ε ≤ |lossSlope A o roots ps count x h - deriv (fun t => limitLoss p d F A ps (h t)) 0|} ≤
        ENNReal.ofReal (C / (count * ε ^ 2)) := by
  obtain ⟨D, _, -, -, hD⟩ := etaAt_curve_derivative hsm hF hB hd hh
  refine ⟨(limit_slope hsm hn p d hS hF hB hk hd hh D fun Z hZ h0 => (hD Z hZ h0).1).differentiableAt, ?_⟩
  obtain ⟨κ, hκ, f, M, hf, hcov⟩ := slope_cover ho hr hsm hn p d hS hF hB hk hd hh
  obtain ⟨C, hC⟩ := bad_bound ho hr hsm hn p d hS hF hκ hf
  refine ⟨C, fun count hc ε hε => ⟨hC count hc ε hε _ ?_, hC count hc ε hε _ ?_⟩⟩
  · filter_upwards [hcov count hc] with x hx hk hbad
    have hbad' : ε ≤ _ := hbad
    exact (hx.2.2 ε hε hk).2.1.not_ge hbad'
  · filter_upwards [hcov count hc] with x hx hk hbad
    have hbad' : ε ≤ _ := hbad
    exact (hx.2.2 ε hε hk).2.2.not_ge hbad'

end Main

/-- The hypotheses of C192 hold for the Dwork quintic with `psi = 2`, all sections of degree 2 and the diagonal matrices with the entries
`1 + i t`. -/
example : ∃ (A : AlgebraicMetric 4) (F : MvPolynomial (Fin 5) ℂ) (h : ℝ → A.H),
    A = ⟨.dwork 5 (.flag true), monomialBasisFull 4 2⟩ ∧
    h = (fun t : ℝ => Matrix.diagonal fun i : Fin A.sections.size => ((1 + t * (i : ℕ) : ℝ) : ℂ)) ∧
    (∃ C : ℝ, ∀ count : ℕ, count ≠ 0 → ∀ ε > 0, normalsLaw 5 (sampleCount count 5)
      {x | ε ≤ |trainingSlope (n := 3) A someOrder someRoots [2] count x h - lossSlope (n := 3) A someOrder someRoots [2] count x h|} ≤
        ENNReal.ofReal (C / (count * ε ^ 2))) ∧
    DifferentiableAt ℝ (fun t => limitLoss (n := 3) 0 0 F A [2] (h t)) 0 := by
  obtain ⟨F, hF, hsm⟩ := C114_quintic 2 []
  let A : AlgebraicMetric 4 := ⟨.dwork 5 (.flag true), monomialBasisFull 4 2⟩
  let h : ℝ → A.H := fun t : ℝ => Matrix.diagonal fun i : Fin A.sections.size => ((1 + t * (i : ℕ) : ℝ) : ℂ)
  have hd : ∀ a b, ContDiffAt ℝ 1 (fun t => h t a b) 0 := by
    intro a b
    by_cases hab : a = b
    · subst hab
      simp only [h, Matrix.diagonal_apply_eq]
      exact Complex.ofRealCLM.contDiff.contDiffAt.comp (0 : ℝ) (contDiffAt_const.add (contDiffAt_id.mul contDiffAt_const))
    · simp only [h, Matrix.diagonal_apply_ne _ hab]
      exact contDiffAt_const
  have hh : ∀ᶠ t in 𝓝 (0 : ℝ), (h t).PosDef := by
    have h1 : ∀ᶠ t : ℝ in 𝓝 (0 : ℝ), ∀ i : Fin A.sections.size, (0 : ℝ) < 1 + t * (i : ℕ) := by
      rw [eventually_all]
      intro i
      have : ContinuousAt (fun t : ℝ => 1 + t * (i : ℕ)) 0 := by fun_prop
      exact this.eventually (lt_mem_nhds (by norm_num))
    filter_upwards [h1] with t ht
    exact Matrix.PosDef.diagonal fun i => by exact_mod_cast ht i
  have hS : Samplable (.dwork 5 (.flag true)) 4 5 [2] := .dwork 4 (.flag true) (by simp [DworkFactor.value]) 2
  obtain ⟨C, hC⟩ := C192_gradient (n := 3) (A := A) someOrder_valid someRoots_complete (hsm.2 (by norm_num)) (by norm_num)
    hS hF (C105_sections F 2).1 two_ne_zero hd hh
  exact ⟨A, F, h, rfl, rfl, ⟨C, fun count hc => (hC count hc).2⟩,
    (C192_limit (n := 3) (A := A) someOrder_valid someRoots_complete (hsm.2 (by norm_num)) (by norm_num) 0 0
      hS hF (C105_sections F 2).1 two_ne_zero hd hh).1⟩

end Cyjax
