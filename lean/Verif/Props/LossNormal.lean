import Verif.Lemmas.LossNormal
import Verif.Props.LossLimit

/-! # C188: fluctuations of the training loss -/

namespace Cyjax

open MeasureTheory ProbabilityTheory MvPolynomial Cyjax.Spec Cyjax.Polynomial Cyjax.Variety Cyjax.Donaldson Cyjax.Projective Cyjax.Ml Set
  Filter Topology
open scoped ENNReal NNReal ComplexOrder

variable {n : ℕ} {F : MvPolynomial (Fin (n + 2)) ℂ} {A : AlgebraicMetric (n + 1)} {ps : List ℂ} {o : SymOrder}
  (ho : o.Valid) {roots : List ℂ → List ℂ} (hr : CompleteRoots roots) (hsm : SmoothHypersurface F) (hn : n ≠ 0)
  (p : Fin (n + 2)) (d : Fin (n + 1)) (hS : Samplable A.variety (n + 1) (n + 2) ps)
  (hF : Hypersurface A.variety (.vec ps) (n + 1) (n + 2) F) (hB : SpansModulo F A.sections.degree A.sections.rows)
  (hk : A.sections.degree ≠ 0) (h : A.H) (hh : h.PosDef)

/-- The loss on the points of `L` lines, as a function of three sums over the lines. -/
private noncomputable def lineLoss (F : MvPolynomial (Fin (n + 2)) ℂ) (A : AlgebraicMetric (n + 1)) (ps : List ℂ) (h : A.H) (L : ℕ)
    (y : Fin L → (Fin (n + 2) → ℂ) × (Fin (n + 2) → ℂ)) : ℝ :=
  ((∑ j, realSum F (pointWeight (n + 2) F) (y j)) / (L * (n + 2) : ℕ)) ^ 2 *
    ((∑ j, realSum F (fun Z => etaAt A h ps Z ^ 2 * pointWeight (n + 2) F Z) (y j)) / (L * (n + 2) : ℕ)) /
    ((∑ j, realSum F (fun Z => etaAt A h ps Z * pointWeight (n + 2) F Z) (y j)) / (L * (n + 2) : ℕ)) ^ 2 -
    (∑ j, realSum F (pointWeight (n + 2) F) (y j)) / (L * (n + 2) : ℕ)

include ho hr hsm hn hS hF hB hk hh

private theorem loss_lines (L count : ℕ) (hL : L * (n + 2) = count) (hc : count ≠ 0) :
    ∀ᵐ x ∂normalsLaw (n + 2) L, resultOrZero (sampleRow n A.variety o roots (fun _ : Unit => asLists (lineDraws x)) count () ps >>=
      varianceEtaLossRow A h) = lineLoss F A ps h L (rawLines x) := by
  have hom := hF.homogeneous
  have he0 : n + 2 ≠ 0 := by omega
  have hirr := smooth_irreducible (by omega) hom he0 hsm
  obtain ⟨pts, hpts⟩ := sample_sums hS hF hsm hirr ho hr he0 L
  have hηi : ∀ c : ℂ, c ≠ 0 → ∀ Z, etaAt A h ps (c • Z) = etaAt A h ps Z := etaAt_smul hF h
  have hwi := pointWeight_smul (F := F) hom
  filter_upwards [hpts] with x hx
  obtain ⟨-, -, -, haff⟩ := hx.2.2.1 count
  have htake : (pts x).take count = pts x := List.take_of_length_le (by rw [hx.1, hL])
  rw [htake] at haff
  have hlen : (pts x).length = L * (n + 2) := hx.1
  have hne : pts x ≠ [] := fun h0 => hc (by rw [← hL, ← hlen, h0]; rfl)
  have hrow : sampleRow n A.variety o roots (fun _ : Unit => asLists (lineDraws x)) count () ps =
      .ok ⟨ps, (pts x).map homToAffineAuto, (pts x).map (pointWeight (n + 2) F)⟩ := by
    unfold sampleRow
    rw [haff]
    rfl
  rw [hrow]
  change resultOrZero (varianceEtaLossRow A h _) = _
  rw [row_loss hsm hF hB hk h hh (pts x) hne hx.2.1 (pointWeight (n + 2) F) fun Z hZ =>
    pointWeight_pos (e := n + 2) Z (hx.2.1 Z hZ).1 (hsm Z (hx.2.1 Z hZ).1 (hx.2.1 Z hZ).2), hlen]
  simp only [resultOrZero]
  rw [hx.2.2.2 _ hwi, hx.2.2.2 (fun Z => etaAt A h ps Z ^ 2 * pointWeight (n + 2) F Z) fun c hc Z => by rw [hηi c hc, hwi c hc],
    hx.2.2.2 (fun Z => etaAt A h ps Z * pointWeight (n + 2) F Z) fun c hc Z => by rw [hηi c hc, hwi c hc]]
  rfl

/-- **C188.** On `count` sampled points, where `count` is a multiple of the number `n + 2` of points on each line, the loss of
`variance_eta_loss` is asymptotically normal around its limit `∫ (1 - η V/K)² |Ω|² / (n + 2)`: its error times the square root
of `count` converges in distribution. The variance of the limit is `n + 2` times the variance of the weighted mean of
`2 ρ σ (1 - ρ η) + (ρ η)² - 1` over the points of one line, with `ρ = V/K` and `σ = S/K` from the integrals of `1`, `η`, `η²`. -/
theorem C188_normal :
    let V := (cyMeasure p d F univ).toReal
    let K := ∫ Z, etaAt A h ps Z ∂cyMeasure p d F
    let S := ∫ Z, etaAt A h ps Z ^ 2 ∂cyMeasure p d F
    TendstoInDistribution (fun (b : ℕ) x => √((b + 1) * (n + 2) : ℕ) *
        (resultOrZero (sampleRow n A.variety o roots (fun _ : Unit => asLists (lineDraws x)) ((b + 1) * (n + 2)) () ps >>=
          varianceEtaLossRow A h) - etaVariance (cyMeasure p d F) (etaAt A h ps) / (n + 2))) atTop id
      (fun b => normalsLaw (n + 2) (sampleCount ((b + 1) * (n + 2)) (n + 2)))
      (gaussianReal 0 ((n + 2) * Var[fun x => weightedMean
          (fun Z => 2 * (V / K) * (S / K) * (1 - V / K * etaAt A h ps Z) + (V / K * etaAt A h ps Z) ^ 2 - 1)
          (sampleIntersectOpt n A.variety o roots ps (n + 2) (asLists (lineDraws x)) false true);
        normalsLaw (n + 2) (sampleCount (n + 2) (n + 2))]).toNNReal) := by
  intro V K S
  have hom := hF.homogeneous
  have he0 : n + 2 ≠ 0 := by omega
  have hirr := smooth_irreducible (by omega) hom he0 hsm
  have hd := smooth_pderiv_ne_zero hom (by omega) hsm (p.succAbove d)
  obtain ⟨V', K', S', hV, hK, -, eV, eK, eS, eΛ, -, -⟩ := eta_integrals hsm hn p d hS hF hB hk h hh
  have hVV : V = V' := eV.symm
  have hKK : K = K' := eK.symm
  have hSS : S = S' := eS.symm
  clear_value V K S
  subst hVV hKK hSS
  have hfin : IsFiniteMeasure (cyMeasure p d F) := ⟨(C130_measure hsm hn p d hS hF).1.lt_top⟩
  obtain ⟨M, hM⟩ := etaAt_bounded hF h hB hh hsm
  obtain ⟨B, hB0, hle⟩ := pointWeight_bounded hom hsm
  have hn2 : (0 : ℝ) < n + 2 := by positivity
  have hηpos : ∀ Z, Z ≠ 0 → eval Z F = 0 → 0 < etaAt A h ps Z := fun Z hZ h0 => (etaAt_pos hF h hB hh hsm hk Z hZ h0).1
  have hwpos : ∀ Z, Z ≠ 0 → eval Z F = 0 → 0 < pointWeight (n + 2) F Z := fun Z hZ h0 =>
    pointWeight_pos (e := n + 2) Z hZ (hsm Z hZ h0)
  have hηm : Measurable (etaAt A h ps) := measurable_etaAt hF h hB
  have hηi : ∀ c : ℂ, c ≠ 0 → ∀ Z, etaAt A h ps (c • Z) = etaAt A h ps Z := etaAt_smul hF h
  have hwm := measurable_pointWeight (F := F) (n + 2)
  have hwi := pointWeight_smul (F := F) hom
  have hcyae : ∀ᵐ Z ∂cyMeasure p d F, Z ≠ 0 ∧ Z ∈ regularSet p d F := by
    rw [cyMeasure_withDensity p d hF.homogeneous]
    exact (withDensity_absolutelyContinuous _ _).ae_le (ae_fsMeasure hF.homogeneous p d)
  -- sums over a line of a bounded function times the weight
  have stat : ∀ (f : (Fin (n + 2) → ℂ) → ℝ) (C : ℝ), Measurable f → (∀ c : ℂ, c ≠ 0 → ∀ Z, f (c • Z) = f Z) →
      (∀ Z, Z ≠ 0 → eval Z F = 0 → |f Z| ≤ C) →
      Measurable (realSum F fun Z => f Z * pointWeight (n + 2) F Z) ∧
      MemLp (realSum F fun Z => f Z * pointWeight (n + 2) F Z) 2 (lineLaw (n + 2)) ∧
      ∫ x, realSum F (fun Z => f Z * pointWeight (n + 2) F Z) x ∂lineLaw (n + 2) = ∫ Z, f Z ∂cyMeasure p d F := by
    intro f C hfm hfi hfb
    have hm := measurable_realSum (F := F) (hfm.mul hwm)
    have hbd := realSum_bound hS hF hsm hirr he0 (g := fun Z => f Z * pointWeight (n + 2) F Z) (K := C * B) fun Z hZ h0 => by
      rw [abs_mul, abs_of_pos (hwpos Z hZ h0)]
      exact mul_le_mul (hfb Z hZ h0) (hle Z hZ h0) (hwpos Z hZ h0).le ((abs_nonneg _).trans (hfb Z hZ h0))
    have hint : Integrable f (cyMeasure p d F) := by
      refine (integrable_const C).mono' hfm.aestronglyMeasurable ?_
      filter_upwards [hcyae] with Z hZ
      exact hfb Z hZ.1 hZ.2.1
    obtain ⟨-, h2⟩ := realSum_integral p d hirr hom he0 hd (f := fun Z => f Z * pointWeight (n + 2) F Z) (hfm.mul hwm)
      (fun c hc Z => by rw [hfi c hc, hwi c hc]) ((cy_integral hom p d f).1.1 hint)
    exact ⟨hm, MemLp.of_bound hm.aestronglyMeasurable _ hbd, h2.trans (cy_integral hom p d f).2.symm⟩
  have e1 : (fun Z => 1 * pointWeight (n + 2) F Z) = pointWeight (n + 2) F := by
    funext Z
    rw [one_mul]
  obtain ⟨w1, w2, w3⟩ := stat (fun _ => 1) 1 measurable_const (fun _ _ _ => rfl) (fun _ _ _ => by simp)
  rw [e1] at w1 w2 w3
  obtain ⟨n1, n2, n3⟩ := stat _ M hηm hηi hM
  obtain ⟨q1, q2, q3⟩ := stat (fun Z => etaAt A h ps Z ^ 2) (M ^ 2) (hηm.pow_const 2) (fun c hc Z => by rw [hηi c hc])
    (fun Z hZ h0 => by rw [abs_pow]; exact pow_le_pow_left₀ (abs_nonneg _) (hM Z hZ h0) 2)
  rw [integral_const, smul_eq_mul, mul_one, Measure.real, ← eV] at w3
  rw [← eK] at n3
  rw [← eS] at q3
  have hpos : ∀ᵐ x ∂lineLaw (n + 2), 0 < realSum F (fun Z => etaAt A h ps Z * pointWeight (n + 2) F Z) x := by
    obtain ⟨R, hR, -⟩ := sample_all hS hF someOrder_valid someRoots_complete
    filter_upwards [ae_admissible_line F (smooth_ne_zero hsm), ae_transversal hirr hF.homogeneous he0] with x hx htr
    have h1 := sum_roots hx.2 (hR x hx).2 htr
    rw [realSum_roots hx.2 (hR x hx).2 htr]
    refine List.sum_pos _ ?_ ?_
    · intro y hy
      obtain ⟨t, ht, rfl⟩ := List.mem_map.1 hy
      have h0 := (h1.2 t).2 ht
      exact mul_pos (hηpos _ (hx.ne.2 t) h0) (hwpos _ (hx.ne.2 t) h0)
    · intro h0
      have := congrArg List.length h0
      rw [List.length_map, (hR x hx).1] at this
      simp at this
  have cN : ((n + 2 : ℕ) : ℝ) = n + 2 := by push_cast; ring
  have key := loss_normal (μ := lineLaw (n + 2)) he0 w1 n1 q1 w2 n2 q2 (α := V / (n + 2)) (β := K / (n + 2)) (δ := S / (n + 2))
    (by rw [w3, cN]; field_simp) (by rw [n3, cN]; field_simp) (by rw [q3, cN]; field_simp) (div_pos hK hn2) hpos
  have hΛ : (V / ((n : ℝ) + 2)) ^ 2 * (S / (n + 2)) / (K / (n + 2)) ^ 2 - V / (n + 2) =
      etaVariance (cyMeasure p d F) (etaAt A h ps) / (n + 2) := by
    rw [eΛ]
    field_simp
  rw [hΛ] at key
  -- the variance in terms of one line
  obtain ⟨f, hf⟩ : ∃ f : (Fin (n + 2) → ℂ) → ℝ, f = fun Z =>
    2 * (V / K) * (S / K) * (1 - V / K * etaAt A h ps Z) + (V / K * etaAt A h ps Z) ^ 2 - 1 := ⟨_, rfl⟩
  have hvar : Var[fun s => 2 * (V / (n + 2) / (K / (n + 2))) * (S / (n + 2) / (K / (n + 2))) *
        (realSum F (pointWeight (n + 2) F) s - V / (n + 2) / (K / (n + 2)) * realSum F (fun Z => etaAt A h ps Z * pointWeight (n + 2) F Z) s) +
        (V / (n + 2) / (K / (n + 2))) ^ 2 * realSum F (fun Z => etaAt A h ps Z ^ 2 * pointWeight (n + 2) F Z) s -
        realSum F (pointWeight (n + 2) F) s; lineLaw (n + 2)] / (n + 2 : ℕ) =
      (n + 2) * Var[fun x => weightedMean f (sampleIntersectOpt n A.variety o roots ps (n + 2) (asLists (lineDraws x)) false true);
        normalsLaw (n + 2) (sampleCount (n + 2) (n + 2))] := by
    have r1 : V / ((n : ℝ) + 2) / (K / (n + 2)) = V / K := div_div_div_cancel_right₀ hn2.ne' _ _
    have r2 : S / ((n : ℝ) + 2) / (K / (n + 2)) = S / K := div_div_div_cancel_right₀ hn2.ne' _ _
    rw [r1, r2, cN]
    obtain ⟨G, hG⟩ : ∃ G : (Fin (n + 2) → ℂ) × (Fin (n + 2) → ℂ) → ℝ, G = fun s => 2 * (V / K) * (S / K) *
        (realSum F (pointWeight (n + 2) F) s - V / K * realSum F (fun Z => etaAt A h ps Z * pointWeight (n + 2) F Z) s) +
        (V / K) ^ 2 * realSum F (fun Z => etaAt A h ps Z ^ 2 * pointWeight (n + 2) F Z) s -
        realSum F (pointWeight (n + 2) F) s := ⟨_, rfl⟩
    have hGm : Measurable G := by
      rw [hG]
      exact (((w1.sub (n1.const_mul _)).const_mul _).add (q1.const_mul _)).sub w1
    have hone : ∀ L : ℕ, L = 1 → (fun x => weightedMean f (sampleIntersectOpt n A.variety o roots ps (n + 2)
        (asLists (lineDraws x)) false true)) =ᵐ[normalsLaw (n + 2) L] fun x => (n + 2 : ℝ)⁻¹ * ∑ j, G (rawLines x j) := by
      rintro L rfl
      obtain ⟨pts, hpts⟩ := sample_sums hS hF hsm hirr ho hr he0 1
      filter_upwards [hpts] with x hx
      obtain ⟨-, hw, -, -⟩ := hx.2.2.1 (n + 2)
      have htake : (pts x).take (n + 2) = pts x := List.take_of_length_le (by rw [hx.1, one_mul])
      rw [htake] at hw
      rw [hw, weightedMean_eq, hx.1, one_mul, cN, div_eq_inv_mul]
      congr 1
      have s1 := hx.2.2.2 _ hwi
      have s2 := hx.2.2.2 (fun Z => etaAt A h ps Z * pointWeight (n + 2) F Z) fun c hc Z => by rw [hηi c hc, hwi c hc]
      have s3 := hx.2.2.2 (fun Z => etaAt A h ps Z ^ 2 * pointWeight (n + 2) F Z) fun c hc Z => by rw [hηi c hc, hwi c hc]
      rw [Fin.sum_univ_one] at s1 s2 s3 ⊢
      rw [hG]
      simp only
      rw [← s1, ← s2, ← s3]
      generalize pts x = Zs
      rw [hf]
      induction Zs with
      | nil => simp
      | cons Z Zs ih =>
        simp only [List.map_cons, List.sum_cons]
        rw [ih]
        ring
    have hL1 : sampleCount (n + 2) (n + 2) = 1 := by
      have := sampleCount_dvd he0 (dvd_refl (n + 2))
      exact Nat.eq_of_mul_eq_mul_right (Nat.pos_of_ne_zero he0) (by rw [this, one_mul])
    have hsum : ∀ L : ℕ, L = 1 → Var[fun x => ∑ j, G (rawLines x j); normalsLaw (n + 2) L] = Var[G; lineLaw (n + 2)] := by
      rintro L rfl
      have hl := line_law (HasLaw.id (μ := normalsLaw (n + 2) 1)) 0
      simp only [Fin.sum_univ_one]
      rw [← hl.map_eq, variance_map hGm.aemeasurable hl.aemeasurable]
      rfl
    rw [variance_congr (hone _ hL1), variance_const_mul, hsum _ hL1, ← hG]
    field_simp
  rw [hvar] at key
  rw [← hf]
  -- transfer to the draws of the code
  have hlm : ∀ L, Measurable (lineLoss F A ps h L) := fun L => by
    have s : ∀ g : (Fin (n + 2) → ℂ) × (Fin (n + 2) → ℂ) → ℝ, Measurable g →
        Measurable fun y : Fin L → (Fin (n + 2) → ℂ) × (Fin (n + 2) → ℂ) => (∑ j, g (y j)) / (L * (n + 2) : ℕ) := fun g hg =>
      (Finset.measurable_sum _ fun j _ => hg.comp (measurable_pi_apply j)).div_const _
    exact ((((s _ w1).pow_const 2).mul (s _ q1)).div ((s _ n1).pow_const 2)).sub (s _ w1)
  have hLb : ∀ b : ℕ, sampleCount ((b + 1) * (n + 2)) (n + 2) = b + 1 := fun b => by
    have := sampleCount_dvd (count := (b + 1) * (n + 2)) he0 (Dvd.intro_left _ rfl)
    exact Nat.eq_of_mul_eq_mul_right (Nat.pos_of_ne_zero he0) this
  have hcong : ∀ (b L : ℕ), L = b + 1 → (fun x => √((b + 1) * (n + 2) : ℕ) *
      (resultOrZero (sampleRow n A.variety o roots (fun _ : Unit => asLists (lineDraws x)) ((b + 1) * (n + 2)) () ps >>=
        varianceEtaLossRow A h) - etaVariance (cyMeasure p d F) (etaAt A h ps) / (n + 2))) =ᵐ[normalsLaw (n + 2) L]
      fun x => √((b + 1) * (n + 2) : ℕ) * (lineLoss F A ps h L (rawLines x) -
        etaVariance (cyMeasure p d F) (etaAt A h ps) / (n + 2)) := by
    rintro b L rfl
    filter_upwards [loss_lines ho hr hsm hn hS hF hB hk h hh (b + 1) _ rfl
      (Nat.mul_ne_zero b.succ_ne_zero he0)] with x hx
    rw [hx]
  have hlaw : ∀ (b L : ℕ), L = b + 1 → (normalsLaw (n + 2) L).map (fun x => √((b + 1) * (n + 2) : ℕ) *
      (resultOrZero (sampleRow n A.variety o roots (fun _ : Unit => asLists (lineDraws x)) ((b + 1) * (n + 2)) () ps >>=
        varianceEtaLossRow A h) - etaVariance (cyMeasure p d F) (etaAt A h ps) / (n + 2))) =
      (Measure.infinitePi fun _ : ℕ => lineLaw (n + 2)).map (fun x => √((b + 1) * (n + 2) : ℕ) *
        ((drawMean (n + 2) (realSum F (pointWeight (n + 2) F)) b x ^ 2 *
          drawMean (n + 2) (realSum F fun Z => etaAt A h ps Z ^ 2 * pointWeight (n + 2) F Z) b x /
          drawMean (n + 2) (realSum F fun Z => etaAt A h ps Z * pointWeight (n + 2) F Z) b x ^ 2 -
          drawMean (n + 2) (realSum F (pointWeight (n + 2) F)) b x) -
          etaVariance (cyMeasure p d F) (etaAt A h ps) / (n + 2))) := by
    intro b L hL
    rw [Measure.map_congr (hcong b L hL)]
    subst hL
    have hm : Measurable fun y => √((b + 1) * (n + 2) : ℕ) * (lineLoss F A ps h (b + 1) y -
        etaVariance (cyMeasure p d F) (etaAt A h ps) / (n + 2)) := ((hlm _).sub_const _).const_mul _
    have h1 := Measure.map_map hm (rawLines_preserving (n + 2) (b + 1)).measurable (μ := normalsLaw (n + 2) (b + 1))
    rw [(rawLines_preserving (n + 2) (b + 1)).map_eq, ← (draws_prefix (μ := lineLaw (n + 2)) (b + 1)).map_eq,
      Measure.map_map hm (by fun_prop)] at h1
    refine h1.symm.trans ?_
    congr 1
    funext x
    simp only [Function.comp_apply, lineLoss, drawMean, Finset.sum_range]
  refine ⟨fun b => ?_, aemeasurable_id, ?_⟩
  · have hm : Measurable fun x => √((b + 1) * (n + 2) : ℕ) * (lineLoss F A ps h (sampleCount ((b + 1) * (n + 2)) (n + 2)) (rawLines x) -
        etaVariance (cyMeasure p d F) (etaAt A h ps) / (n + 2)) :=
      (((hlm _).comp (rawLines_preserving (n + 2) _).measurable).sub_const _).const_mul _
    exact ⟨_, hm, hcong b _ (hLb b)⟩
  · refine key.tendsto.congr fun b => ?_
    apply Subtype.ext
    exact (hlaw b _ (hLb b)).symm

/-- **C188.** The probability that the loss on `count` points is within `t / √count` of its limit converges to the probability
that a normal variable with the variance of `C188_normal` is at most `t` in absolute value. -/
theorem C188_interval {t : ℝ} (ht : 0 < t) :
    let V := (cyMeasure p d F univ).toReal
    let K := ∫ Z, etaAt A h ps Z ∂cyMeasure p d F
    let S := ∫ Z, etaAt A h ps Z ^ 2 ∂cyMeasure p d F
    Tendsto (fun b : ℕ => normalsLaw (n + 2) (sampleCount ((b + 1) * (n + 2)) (n + 2)) {x |
        |resultOrZero (sampleRow n A.variety o roots (fun _ : Unit => asLists (lineDraws x)) ((b + 1) * (n + 2)) () ps >>=
          varianceEtaLossRow A h) - etaVariance (cyMeasure p d F) (etaAt A h ps) / (n + 2)| ≤ t / √((b + 1) * (n + 2) : ℕ)}) atTop
      (𝓝 (gaussianReal 0 ((n + 2) * Var[fun x => weightedMean
          (fun Z => 2 * (V / K) * (S / K) * (1 - V / K * etaAt A h ps Z) + (V / K * etaAt A h ps Z) ^ 2 - 1)
          (sampleIntersectOpt n A.variety o roots ps (n + 2) (asLists (lineDraws x)) false true);
        normalsLaw (n + 2) (sampleCount (n + 2) (n + 2))]).toNNReal (Icc (-t) t))) := by
  intro V K S
  refine (normal_interval (C188_normal ho hr hsm hn p d hS hF hB hk h hh) ht).congr fun b => ?_
  congr 1
  ext x
  have hN : 0 < √((b + 1) * (n + 2) : ℕ) := Real.sqrt_pos.2 (by exact_mod_cast Nat.mul_pos b.succ_pos (Nat.succ_pos _))
  rw [mem_ofPred_eq, mem_ofPred_eq, abs_mul, abs_of_pos hN, le_div_iff₀ hN, mul_comm]

omit hsm hn hS hF hB hk hh ho hr in
/-- The hypotheses of C188 hold for the Dwork quintic with `psi = 2`, all sections of degree 2 and `h = 1`. -/
example : ∃ (A : AlgebraicMetric 4) (F : MvPolynomial (Fin 5) ℂ) (h : A.H) (v : ℝ≥0),
    A = ⟨.dwork 5 (.flag true), monomialBasisFull 4 2⟩ ∧
      TendstoInDistribution (fun (b : ℕ) x => √((b + 1) * 5 : ℕ) *
        (resultOrZero (sampleRow 3 A.variety someOrder someRoots (fun _ : Unit => asLists (lineDraws x)) ((b + 1) * 5) () [2] >>=
          varianceEtaLossRow A h) - etaVariance (cyMeasure (n := 3) 0 0 F) (etaAt (n := 3) A h [2]) / ((3 : ℕ) + 2))) atTop id
        (fun b => normalsLaw 5 (sampleCount ((b + 1) * 5) 5)) (gaussianReal 0 v) := by
  obtain ⟨F, hF, hsm⟩ := C114_quintic 2 []
  exact ⟨⟨.dwork 5 (.flag true), monomialBasisFull 4 2⟩, F, 1, _, rfl,
    C188_normal (n := 3) (A := ⟨.dwork 5 (.flag true), monomialBasisFull 4 2⟩) someOrder_valid someRoots_complete
      (hsm.2 (by norm_num)) (by norm_num) 0 0 (.dwork 4 (.flag true) (by simp [DworkFactor.value]) 2) hF
      (C105_sections F 2).1 two_ne_zero 1 Matrix.PosDef.one⟩

end Cyjax
