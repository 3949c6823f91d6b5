import Verif.Props.LossLimit
import Verif.Props.ExpBounds
import Verif.Spec.UniformLoss

/-! # The training loss on a sample, for all matrices near a matrix at once -/

namespace Cyjax

open MeasureTheory ProbabilityTheory MvPolynomial Cyjax.Spec Cyjax.Polynomial Cyjax.Variety Cyjax.Donaldson Cyjax.Projective Cyjax.Ml Set
  Filter Topology Cyjax.Differential
open scoped ENNReal ComplexOrder ComplexConjugate

/-! ## `eta` as a function of the matrix and of the point -/

section Joint

variable {N n : ℕ} (k : ℕ) (P : Fin N → MvPolynomial (Fin (n + 1)) ℂ) (f : MvPolynomial (Fin (n + 1)) ℂ) (d : Fin (n + 1))

theorem continuousAt_polyEta_joint {H : Matrix (Fin N) (Fin N) ℂ} {z : Fin (n + 1) → ℂ} (hψ0 : Graph.psi (.full H) (polyJet P z) ≠ 0)
    (hd : eval z (pderiv d f) ≠ 0) :
    ContinuousAt (fun y : Matrix (Fin N) (Fin N) ℂ × (Fin (n + 1) → ℂ) => polyEta y.1 k P f d y.2) (H, z) := by
  have hev : ∀ q : MvPolynomial (Fin (n + 1)) ℂ,
      ContinuousAt (fun y : Matrix (Fin N) (Fin N) ℂ × (Fin (n + 1) → ℂ) => eval y.2 q) (H, z) := fun q =>
    ((MvPolynomial.continuous_eval q).comp continuous_snd).continuousAt
  have hH : ∀ i j, ContinuousAt (fun y : Matrix (Fin N) (Fin N) ℂ × (Fin (n + 1) → ℂ) => y.1 i j) (H, z) := fun i j =>
    (continuous_fst.matrix_elem i j).continuousAt
  have hc : ∀ g : Matrix (Fin N) (Fin N) ℂ × (Fin (n + 1) → ℂ) → ℂ, ContinuousAt g (H, z) →
      ContinuousAt (fun y => conj (g y)) (H, z) := fun g hg => Complex.continuous_conj.continuousAt.comp hg
  have hJ : ∀ r i, ContinuousAt (fun y : Matrix (Fin N) (Fin N) ℂ × (Fin (n + 1) → ℂ) =>
      jacobianEmbed (fun i => eval y.2 (pderiv i f)) ((d : ℕ) : ℤ) r i) (H, z) := by
    intro r i
    rcases eq_or_ne i d with rfl | hi
    · simp only [jacobianEmbed_dep]
      exact (hev _).neg.div₀ (hev _) hd
    · obtain ⟨l, rfl⟩ := Fin.exists_succAbove_eq hi
      simp only [jacobianEmbed_indep]
      exact continuousAt_const
  have hψ : ContinuousAt (fun y : Matrix (Fin N) (Fin N) ℂ × (Fin (n + 1) → ℂ) => Graph.psi (.full y.1) (polyJet P y.2)) (H, z) := by
    change ContinuousAt (fun y : Matrix (Fin N) (Fin N) ℂ × (Fin (n + 1) → ℂ) =>
      ∑ i, ∑ j, eval y.2 (P i) * y.1 i j * conj (eval y.2 (P j))) (H, z)
    refine tendsto_finsetSum _ fun i _ => tendsto_finsetSum _ fun j _ => ?_
    exact ((hev _).mul (hH i j)).mul (hc _ (hev _))
  have hψH : ∀ a, ContinuousAt (fun y : Matrix (Fin N) (Fin N) ℂ × (Fin (n + 1) → ℂ) =>
      Graph.psiH (.full y.1) (polyJet P y.2) a) (H, z) := by
    intro a
    change ContinuousAt (fun y : Matrix (Fin N) (Fin N) ℂ × (Fin (n + 1) → ℂ) =>
      ∑ i, ∑ j, eval y.2 (pderiv a (P i)) * y.1 i j * conj (eval y.2 (P j))) (H, z)
    refine tendsto_finsetSum _ fun i _ => tendsto_finsetSum _ fun j _ => ?_
    exact ((hev _).mul (hH i j)).mul (hc _ (hev _))
  have hψHA : ∀ a b, ContinuousAt (fun y : Matrix (Fin N) (Fin N) ℂ × (Fin (n + 1) → ℂ) =>
      Graph.psiHA (.full y.1) (polyJet P y.2) a b) (H, z) := by
    intro a b
    change ContinuousAt (fun y : Matrix (Fin N) (Fin N) ℂ × (Fin (n + 1) → ℂ) =>
      ∑ i, ∑ j, eval y.2 (pderiv a (P i)) * y.1 i j * conj (eval y.2 (pderiv b (P j)))) (H, z)
    refine tendsto_finsetSum _ fun i _ => tendsto_finsetSum _ fun j _ => ?_
    exact ((hev _).mul (hH i j)).mul (hc _ (hev _))
  have hg : ∀ i j, ContinuousAt (fun y : Matrix (Fin N) (Fin N) ℂ × (Fin (n + 1) → ℂ) =>
      Graph.gProj (.full y.1) (polyJet P y.2) k i j) (H, z) := by
    intro i j
    have h1 := (hψHA i j).div₀ hψ hψ0
    have h2 := ((hψH i).mul (hc _ (hψH j))).div₀ (hψ.pow 2) (pow_ne_zero 2 hψ0)
    exact (h1.sub h2).div_const _
  unfold polyEta Graph.eta Donaldson.eta
  simp only [jget_nat, Matrix.det_apply]
  refine ContinuousAt.mul (tendsto_finsetSum _ fun σ _ => ContinuousAt.const_smul ?_ _) ?_
  · refine tendsto_finsetProd _ fun i _ => ?_
    change ContinuousAt (fun y : Matrix (Fin N) (Fin N) ℂ × (Fin (n + 1) → ℂ) =>
      ∑ a, ∑ b, (jacobianEmbed (fun i => eval y.2 (pderiv i f)) ((d : ℕ) : ℤ) (σ i) a * Graph.gProj (.full y.1) (polyJet P y.2) k a b *
      conj (jacobianEmbed (fun i => eval y.2 (pderiv i f)) ((d : ℕ) : ℤ) i b))) (H, z)
    refine tendsto_finsetSum _ fun a _ => tendsto_finsetSum _ fun b _ => ?_
    exact ((hJ _ _).mul (hg _ _)).mul (hc _ (hJ _ _))
  · exact (Complex.continuous_ofReal.continuousAt.comp (hev _).norm).pow 2

end Joint

section Near

variable {n : ℕ} {F : MvPolynomial (Fin (n + 2)) ℂ} {A : AlgebraicMetric (n + 1)} {ps : List ℂ} (hsm : SmoothHypersurface F)
  {e : ℕ} (hF : Hypersurface A.variety (.vec ps) (n + 1) e F) (hB : SpansModulo F A.sections.degree A.sections.rows)
  (h₀ : A.H) (hh₀ : h₀.PosDef)

include hsm hF hB hh₀

/-- Near a positive definite matrix `eta` depends uniformly continuously on the matrix, for all points at once. -/
theorem etaAt_near_h (ε : ℝ) (hε : 0 < ε) :
    ∀ᶠ h : A.H in 𝓝 h₀, ∀ Z : Fin (n + 2) → ℂ, Z ≠ 0 → eval Z F = 0 → |etaAt A h ps Z - etaAt A h₀ ps Z| ≤ ε := by
  have hpatch : ∀ p : Fin (n + 2), ∀ᶠ h : A.H in 𝓝 h₀, ∀ z ∈ Metric.closedBall (0 : Fin (n + 1) → ℂ) 1 ∩ {z | eval z (dehom p F) = 0},
      ‖polyEta h A.degree (affineSection A.sections p) (dehom p F) (argmax fun k => ‖eval z (pderiv k (dehom p F))‖) z -
        polyEta h₀ A.degree (affineSection A.sections p) (dehom p F) (argmax fun k => ‖eval z (pderiv k (dehom p F))‖) z‖ ≤ ε := by
    intro p
    have hK : IsCompact (Metric.closedBall (0 : Fin (n + 1) → ℂ) 1 ∩ {z | eval z (dehom p F) = 0}) :=
      (isCompact_closedBall _ _).inter_right (isClosed_singleton.preimage (MvPolynomial.continuous_eval _))
    refine hK.eventually_forall_of_forall_eventually ?_
    rintro z ⟨-, hz⟩
    have h0 : eval (affineToHom z (p : ℕ)) F = 0 := by
      rw [← eval_dehom]
      exact hz
    have hne : affineToHom z (p : ℕ) ≠ 0 := fun h => by simpa using congrFun h p
    have hpz : affineToHom z (p : ℕ) p ≠ 0 := by simp
    obtain ⟨d, hd⟩ := smooth_affine hF.homogeneous _ h0 (hsm _ hne h0) p hpz
    have hψ : Graph.psi (.full h₀) (polyJet (affineSection A.sections p) z) ≠ 0 := by
      have := psi_pos h₀ hh₀ hB p z h0
      rw [sectionsJet_eq _ (spans_le hB)] at this
      exact this.ne'
    have hd' : eval z (pderiv d (dehom p F)) ≠ 0 := by
      rwa [C15_roundtrip] at hd
    have hc := continuousAt_polyEta_joint (H := h₀) A.degree (affineSection A.sections p) (dehom p F) d hψ hd'
    have hc₀ : ContinuousAt (fun y : A.H × (Fin (n + 1) → ℂ) => polyEta h₀ A.degree (affineSection A.sections p) (dehom p F) d y.2)
        (h₀, z) :=
      ContinuousAt.comp (g := polyEta h₀ A.degree (affineSection A.sections p) (dehom p F) d) (f := Prod.snd) (x := (h₀, z))
        (continuousAt_polyEta h₀ A.degree _ _ d hψ hd') continuous_snd.continuousAt
    have hdiff := (hc.sub hc₀).norm
    have hlt : ∀ᶠ y : A.H × (Fin (n + 1) → ℂ) in 𝓝 (h₀, z),
        ‖polyEta y.1 A.degree (affineSection A.sections p) (dehom p F) d y.2 -
          polyEta h₀ A.degree (affineSection A.sections p) (dehom p F) d y.2‖ < ε := by
      refine hdiff.eventually_lt_const ?_
      simpa using hε
    have hop : ∀ᶠ y : A.H × (Fin (n + 1) → ℂ) in 𝓝 (h₀, z), eval y.2 (pderiv d (dehom p F)) ≠ 0 :=
      ((MvPolynomial.continuous_eval _).comp continuous_snd).continuousAt.eventually_ne hd'
    filter_upwards [hlt, hop] with y hy1 hy2
    have ha := argmax_ne (G := fun k => eval y.2 (pderiv k (dehom p F))) hy2
    have e1 : ∀ H : A.H, polyEta H A.degree (affineSection A.sections p) (dehom p F)
        (argmax fun k => ‖eval y.2 (pderiv k (dehom p F))‖) y.2 =
        polyEta H A.degree (affineSection A.sections p) (dehom p F) d y.2 := fun H =>
      (C70_dependent (.full H) A.degree _ _ d _ hy2 ha _ _).symm
    rw [e1, e1]
    exact hy1.le
  filter_upwards [eventually_all.2 hpatch] with h hh Z hZ h0
  obtain ⟨-, -, h3⟩ := C17_patch Z
  have hp0 : Z (homToAffineAuto Z).2 ≠ 0 := (C17_bounded Z hZ 0).1
  rw [etaAt_eq hF h hB Z, etaAt_eq hF h₀ hB Z, ← Complex.sub_re]
  refine (Complex.abs_re_le_norm _).trans (hh _ _ ⟨?_, ?_⟩)
  · rw [mem_closedBall_zero_iff, ← h3]
    exact (pi_norm_le_iff_of_nonneg zero_le_one).2 fun i => (C17_bounded Z hZ i).2
  · change eval _ _ = 0
    rw [eval_dehom, C16_roundtrip Z _ hp0, show (fun i => Z i / Z (homToAffineAuto Z).2) =
      fun i => (Z (homToAffineAuto Z).2)⁻¹ * Z i from funext fun i => by ring, eval_smul_homogeneous hF.homogeneous, h0,
      mul_zero]

end Near

theorem list_sum_close {α : Type*} (l : List α) (f g w : α → ℝ) (c : ℝ) (h : ∀ a ∈ l, |f a - g a| ≤ c * w a) :
    |(l.map f).sum - (l.map g).sum| ≤ c * (l.map w).sum := by
  induction l with
  | nil => simp
  | cons a l ih =>
    simp only [List.map_cons, List.sum_cons]
    have h1 := h a (by simp)
    have h2 := ih fun b hb => h b (by simp [hb])
    have h3 := abs_add_le (f a - g a) ((l.map f).sum - (l.map g).sum)
    rw [show f a + (l.map f).sum - (g a + (l.map g).sum) = f a - g a + ((l.map f).sum - (l.map g).sum) by ring]
    linarith

section Cover

variable {n : ℕ} {F : MvPolynomial (Fin (n + 2)) ℂ} {A : AlgebraicMetric (n + 1)} {ps : List ℂ} {o : SymOrder}
  (ho : o.Valid) {roots : List ℂ → List ℂ} (hr : CompleteRoots roots) (hsm : SmoothHypersurface F) (hn : n ≠ 0)
  (p : Fin (n + 2)) (d : Fin (n + 1)) (hS : Samplable A.variety (n + 1) (n + 2) ps)
  (hF : Hypersurface A.variety (.vec ps) (n + 1) (n + 2) F) (hB : SpansModulo F A.sections.degree A.sections.rows)
  (hk : A.sections.degree ≠ 0) (h₀ : A.H) (hh₀ : h₀.PosDef)

include ho hr hsm hn hS hF hB hk hh₀

/-- An error of the loss for some matrix near `h₀` comes from an error of one of three means of bounded functions. -/
theorem loss_cover_uniform (ε : ℝ) (hε : 0 < ε) : ∃ t > 0, ∃ U ∈ 𝓝 h₀, ∃ f : Fin 3 → (Fin (n + 2) → ℂ) → ℝ, ∃ M : Fin 3 → ℝ,
    (∀ k, Measurable (f k) ∧ (∀ c : ℂ, c ≠ 0 → ∀ Z, f k (c • Z) = f k Z) ∧ ∀ Z, Z ≠ 0 → eval Z F = 0 → |f k Z| ≤ M k) ∧
    ∀ count : ℕ, count ≠ 0 → normalsLaw (n + 2) (sampleCount count (n + 2))
      {x | ∃ h ∈ U, h.PosDef ∧
        ε ≤ |resultOrZero (sampleRow n A.variety o roots (fun _ : Unit => asLists (lineDraws x)) count () ps >>=
          varianceEtaLossRow A h) - etaVariance (cyMeasure p d F) (etaAt A h ps) / (n + 2)|} ≤
      ∑ k, normalsLaw (n + 2) (sampleCount count (n + 2))
        {x | t ≤ |weightedMean (f k) (sampleIntersectOpt n A.variety o roots ps count (asLists (lineDraws x)) false true) -
          (∫ Z, f k Z ∂cyMeasure p d F) / (n + 2)|} := by
  have hom := hF.homogeneous
  have he0 : n + 2 ≠ 0 := by omega
  have hirr := smooth_irreducible (by omega) hom he0 hsm
  obtain ⟨V, K, S, hV, hK, hS0, eV, eK, eS, -, -, -⟩ := eta_integrals hsm hn p d hS hF hB hk h₀ hh₀
  obtain ⟨hfin0, hne0, -⟩ := C130_measure hsm hn p d hS hF
  have hfin : IsFiniteMeasure (cyMeasure p d F) := ⟨hfin0.lt_top⟩
  obtain ⟨M, hM⟩ := etaAt_bounded hF h₀ hB hh₀ hsm
  obtain ⟨m, hm, hlow⟩ := etaAt_lower hsm hF hB hk h₀ hh₀
  have hn2 : (0 : ℝ) < n + 2 := by positivity
  have hwpos : ∀ Z, Z ≠ 0 → eval Z F = 0 → 0 < pointWeight (n + 2) F Z := fun Z hZ h0 =>
    pointWeight_pos (e := n + 2) Z hZ (hsm Z hZ h0)
  have hηm : Measurable (etaAt A h₀ ps) := measurable_etaAt hF h₀ hB
  have hηi : ∀ c : ℂ, c ≠ 0 → ∀ Z, etaAt A h₀ ps (c • Z) = etaAt A h₀ ps Z := etaAt_smul hF h₀
  have hcyae : ∀ᵐ Z ∂cyMeasure p d F, Z ≠ 0 ∧ Z ∈ regularSet p d F := by
    rw [cyMeasure_withDensity p d hF.homogeneous]
    exact (withDensity_absolutelyContinuous _ _).ae_le (ae_fsMeasure hF.homogeneous p d)
  obtain ⟨M', hM'⟩ : ∃ M', M' = |M| + m := ⟨_, rfl⟩
  obtain ⟨m', hm'⟩ : ∃ m', m' = m / 2 := ⟨_, rfl⟩
  obtain ⟨v, hv⟩ : ∃ v, v = V / ((n : ℝ) + 2) := ⟨_, rfl⟩
  have hM'0 : 0 < M' := by rw [hM']; positivity
  have hm'0 : 0 < m' := by rw [hm']; positivity
  have hv0 : 0 < v := by rw [hv]; positivity
  obtain ⟨Q, hQ⟩ : ∃ Q, Q = 1 + m'⁻¹ ^ 2 + (m'⁻¹ + 1) * (2 * m'⁻¹) * M' := ⟨_, rfl⟩
  have hQ0 : 0 < Q := by rw [hQ]; positivity
  obtain ⟨t, ht⟩ : ∃ t, t = min 1 (ε / (4 * Q)) := ⟨_, rfl⟩
  have ht0 : 0 < t := by rw [ht]; positivity
  have ht1 : t ≤ 1 := by rw [ht]; exact min_le_left _ _
  have htQ : t * Q ≤ ε / 4 := by
    have : t ≤ ε / (4 * Q) := by rw [ht]; exact min_le_right _ _
    calc t * Q ≤ ε / (4 * Q) * Q := mul_le_mul_of_nonneg_right this hQ0.le
      _ = ε / 4 := by field_simp
  obtain ⟨δ, hδ⟩ : ∃ δ, δ = min (m / 2) (ε / (4 * Q * ((2 * v + 1) * (1 + 2 * M')))) := ⟨_, rfl⟩
  have hδ0 : 0 < δ := by rw [hδ]; positivity
  have hδm : δ ≤ m / 2 := by rw [hδ]; exact min_le_left _ _
  have hδQ : δ * ((2 * v + 1) * (1 + 2 * M')) * Q ≤ ε / 4 := by
    have : δ ≤ ε / (4 * Q * ((2 * v + 1) * (1 + 2 * M'))) := by rw [hδ]; exact min_le_right _ _
    calc δ * ((2 * v + 1) * (1 + 2 * M')) * Q ≤ ε / (4 * Q * ((2 * v + 1) * (1 + 2 * M'))) * ((2 * v + 1) * (1 + 2 * M')) * Q := by gcongr
      _ = ε / 4 := by field_simp
  refine ⟨t, ht0, _, etaAt_near_h hsm hF hB h₀ hh₀ δ hδ0, ![fun _ => 1, etaAt A h₀ ps, fun Z => etaAt A h₀ ps Z ^ 2], ![1, M, M ^ 2],
    fun k => ?_, fun count hc => ?_⟩
  · fin_cases k
    · exact ⟨measurable_const, fun _ _ _ => rfl, fun _ _ _ => by simp⟩
    · exact ⟨hηm, hηi, hM⟩
    · refine ⟨hηm.pow_const 2, fun c hc Z => ?_, fun Z hZ h0 => ?_⟩
      · change etaAt A h₀ ps (c • Z) ^ 2 = etaAt A h₀ ps Z ^ 2
        rw [hηi c hc]
      · change |etaAt A h₀ ps Z ^ 2| ≤ M ^ 2
        rw [abs_pow]
        exact pow_le_pow_left₀ (abs_nonneg _) (hM Z hZ h0) 2
  · obtain ⟨pts, hpts⟩ := sample_sums hS hF hsm hirr ho hr he0 (sampleCount count (n + 2))
    have hc2 := (sampleCount_mul count (n + 2) (by omega)).1
    have hct : (0 : ℝ) < count := by exact_mod_cast Nat.pos_of_ne_zero hc
    have e1 : (∫ _, (1 : ℝ) ∂cyMeasure p d F) / ((n : ℝ) + 2) = v := by
      rw [integral_const, smul_eq_mul, mul_one, Measure.real, hv, eV]
    rw [Fin.sum_univ_three]
    change _ ≤ normalsLaw (n + 2) (sampleCount count (n + 2)) {x | _ ≤ |weightedMean (fun _ => 1) _ - (∫ _, (1 : ℝ) ∂cyMeasure p d F) / ((n : ℝ) + 2)|} +
      normalsLaw (n + 2) (sampleCount count (n + 2)) {x | _ ≤ |weightedMean (etaAt A h₀ ps) _ - (∫ Z, etaAt A h₀ ps Z ∂cyMeasure p d F) / ((n : ℝ) + 2)|} +
      normalsLaw (n + 2) (sampleCount count (n + 2)) {x | _ ≤ |weightedMean (fun Z => etaAt A h₀ ps Z ^ 2) _ -
        (∫ Z, etaAt A h₀ ps Z ^ 2 ∂cyMeasure p d F) / ((n : ℝ) + 2)|}
    rw [e1, ← eK, ← eS]
    refine le_trans (measure_mono_ae ?_) ((measure_union_le _ _).trans (add_le_add (measure_union_le _ _) le_rfl))
    filter_upwards [hpts] with x hx hbad
    obtain ⟨h, hnear, hh, hbad⟩ := hbad
    change ∀ Z : Fin (n + 2) → ℂ, Z ≠ 0 → eval Z F = 0 → |etaAt A h ps Z - etaAt A h₀ ps Z| ≤ δ at hnear
    obtain ⟨V₁, K₁, S₁, -, hK₁, hS₁, eV₁, eK₁, eS₁, eΛ₁, -, -⟩ := eta_integrals hsm hn p d hS hF hB hk h hh
    obtain rfl : V₁ = V := eV₁.trans eV.symm
    -- `eta` for this matrix
    have hlow₁ : ∀ Z, Z ≠ 0 → eval Z F = 0 → m' ≤ etaAt A h ps Z := fun Z hZ h0 => by
      have h1 := (abs_le.1 (hnear Z hZ h0)).1
      have h2 := hlow Z hZ h0
      rw [hm']
      linarith
    have hup₁ : ∀ Z, Z ≠ 0 → eval Z F = 0 → |etaAt A h ps Z| ≤ M' := fun Z hZ h0 => by
      have h1 := hnear Z hZ h0
      have h2 := (hM Z hZ h0).trans (le_abs_self M)
      have h3 := abs_add_le (etaAt A h ps Z - etaAt A h₀ ps Z) (etaAt A h₀ ps Z)
      rw [sub_add_cancel] at h3
      rw [hM']
      linarith
    have hsq : ∀ Z, Z ≠ 0 → eval Z F = 0 → |etaAt A h ps Z ^ 2 - etaAt A h₀ ps Z ^ 2| ≤ 2 * M' * δ := fun Z hZ h0 => by
      have h1 := hnear Z hZ h0
      have h2 := hup₁ Z hZ h0
      have h3 : |etaAt A h₀ ps Z| ≤ M' := by
        rw [hM']
        exact ((hM Z hZ h0).trans (le_abs_self M)).trans (by linarith)
      have h4 : |etaAt A h ps Z + etaAt A h₀ ps Z| ≤ 2 * M' := (abs_add_le _ _).trans (by linarith)
      rw [sq_sub_sq, abs_mul]
      exact mul_le_mul h4 h1 (abs_nonneg _) (by positivity)
    -- the integrals
    have hη₀ := (C133_accuracy hsm hn p d hS hF hB hk h₀ hh₀).1
    have hη₁ := (C133_accuracy hsm hn p d hS hF hB hk h hh).1
    have hsqi : ∀ (g : A.H) (hg : g.PosDef), Integrable (fun Z => etaAt A g ps Z ^ 2) (cyMeasure p d F) := by
      intro g hg
      obtain ⟨B, hBd⟩ := etaAt_bounded hF g hB hg hsm
      refine (integrable_const (B ^ 2)).mono' ((measurable_etaAt hF g hB).pow_const 2).aestronglyMeasurable ?_
      filter_upwards [hcyae] with Z hZ
      rw [Real.norm_eq_abs, abs_pow]
      exact pow_le_pow_left₀ (abs_nonneg _) (hBd Z hZ.1 hZ.2.1) 2
    have hKd : |K₁ - K| ≤ δ * V₁ := by
      rw [eK₁, eK, ← integral_sub hη₁ hη₀, ← Real.norm_eq_abs, eV]
      exact norm_integral_le_of_norm_le_const (hcyae.mono fun Z hZ => hnear Z hZ.1 hZ.2.1)
    have hSd : |S₁ - S| ≤ 2 * M' * δ * V₁ := by
      rw [eS₁, eS, ← integral_sub (hsqi h hh) (hsqi h₀ hh₀), ← Real.norm_eq_abs, eV]
      exact norm_integral_le_of_norm_le_const (hcyae.mono fun Z hZ => hsq Z hZ.1 hZ.2.1)
    have hmVK : m' * V₁ ≤ K₁ := by
      have := integral_mono_ae (integrable_const (μ := cyMeasure p d F) m') hη₁ (hcyae.mono fun Z hZ => hlow₁ Z hZ.1 hZ.2.1)
      rwa [integral_const, smul_eq_mul, Measure.real, ← eV, ← eK₁, mul_comm] at this
    have hSK : S₁ ≤ M' * K₁ := by
      rw [eS₁, eK₁, ← integral_const_mul]
      refine integral_mono_ae (hsqi h hh) (hη₁.const_mul M') (hcyae.mono fun Z hZ => ?_)
      change etaAt A h ps Z ^ 2 ≤ M' * etaAt A h ps Z
      have h1 := (le_abs_self _).trans (hup₁ Z hZ.1 hZ.2.1)
      have h2 := hlow₁ Z hZ.1 hZ.2.1
      rw [sq]
      exact mul_le_mul_of_nonneg_right h1 (by linarith)
    -- the sample
    obtain ⟨Zs, hZs⟩ : ∃ Zs, Zs = (pts x).take count := ⟨_, rfl⟩
    obtain ⟨-, hw, -, haff⟩ := hx.2.2.1 count
    rw [← hZs] at hw haff
    have hlen : Zs.length = count := by rw [hZs, List.length_take, hx.1, min_eq_left hc2]
    have hmem : ∀ Z ∈ Zs, Z ≠ 0 ∧ eval Z F = 0 := fun Z hZ => hx.2.1 Z (List.mem_of_mem_take (by rw [← hZs]; exact hZ))
    have hne : Zs ≠ [] := fun h0 => hc (by rw [← hlen, h0]; rfl)
    have hrow : sampleRow n A.variety o roots (fun _ : Unit => asLists (lineDraws x)) count () ps =
        .ok ⟨ps, Zs.map homToAffineAuto, Zs.map (pointWeight (n + 2) F)⟩ := by
      unfold sampleRow
      rw [haff]
      rfl
    rw [hrow] at hbad
    change ε ≤ |resultOrZero (varianceEtaLossRow A h _) - _| at hbad
    rw [row_loss hsm hF hB hk h hh Zs hne hmem (pointWeight (n + 2) F) fun Z hZ => hwpos Z (hmem Z hZ).1 (hmem Z hZ).2, hlen] at hbad
    simp only [resultOrZero] at hbad
    by_contra hcon
    change ¬ (_ ∨ _) at hcon
    rw [not_or] at hcon
    obtain ⟨hcon, c3⟩ := hcon
    change ¬ (_ ∨ _) at hcon
    rw [not_or] at hcon
    obtain ⟨c1, c2⟩ := hcon
    change ¬ (t ≤ _) at c1 c2 c3
    rw [not_le, hw, weightedMean_eq, hlen] at c1 c2 c3
    simp only [one_mul] at c1
    have hsumpos : ∀ g : (Fin (n + 2) → ℂ) → ℝ, (∀ Z ∈ Zs, 0 < g Z) → 0 < (Zs.map g).sum := fun g hg =>
      List.sum_pos _ (by
        intro y hy
        obtain ⟨Z, hZ, rfl⟩ := List.mem_map.1 hy
        exact hg Z hZ) (by simpa using hne)
    have hWpos := hsumpos (pointWeight (n + 2) F) fun Z hZ => hwpos Z (hmem Z hZ).1 (hmem Z hZ).2
    have hEpos := hsumpos (fun Z => etaAt A h ps Z * pointWeight (n + 2) F Z) fun Z hZ =>
      mul_pos (hm'0.trans_le (hlow₁ Z (hmem Z hZ).1 (hmem Z hZ).2)) (hwpos Z (hmem Z hZ).1 (hmem Z hZ).2)
    have hWE : m' * (Zs.map (pointWeight (n + 2) F)).sum ≤ (Zs.map fun Z => etaAt A h ps Z * pointWeight (n + 2) F Z).sum := by
      rw [← List.sum_map_mul_left]
      exact List.sum_le_sum fun Z hZ => mul_le_mul_of_nonneg_right (hlow₁ Z (hmem Z hZ).1 (hmem Z hZ).2)
        (hwpos Z (hmem Z hZ).1 (hmem Z hZ).2).le
    have hs1 := list_sum_close Zs (fun Z => etaAt A h ps Z * pointWeight (n + 2) F Z)
      (fun Z => etaAt A h₀ ps Z * pointWeight (n + 2) F Z) (pointWeight (n + 2) F) δ fun Z hZ => by
        rw [← sub_mul, abs_mul, abs_of_pos (hwpos Z (hmem Z hZ).1 (hmem Z hZ).2)]
        exact mul_le_mul_of_nonneg_right (hnear Z (hmem Z hZ).1 (hmem Z hZ).2) (hwpos Z (hmem Z hZ).1 (hmem Z hZ).2).le
    have hs2 := list_sum_close Zs (fun Z => etaAt A h ps Z ^ 2 * pointWeight (n + 2) F Z)
      (fun Z => etaAt A h₀ ps Z ^ 2 * pointWeight (n + 2) F Z) (pointWeight (n + 2) F) (2 * M' * δ) fun Z hZ => by
        rw [← sub_mul, abs_mul, abs_of_pos (hwpos Z (hmem Z hZ).1 (hmem Z hZ).2)]
        exact mul_le_mul_of_nonneg_right (hsq Z (hmem Z hZ).1 (hmem Z hZ).2) (hwpos Z (hmem Z hZ).1 (hmem Z hZ).2).le
    generalize (Zs.map (pointWeight (n + 2) F)).sum = W at *
    generalize (Zs.map fun Z => etaAt A h ps Z * pointWeight (n + 2) F Z).sum = E₁ at *
    generalize (Zs.map fun Z => etaAt A h₀ ps Z * pointWeight (n + 2) F Z).sum = E₀ at *
    generalize (Zs.map fun Z => etaAt A h ps Z ^ 2 * pointWeight (n + 2) F Z).sum = T₁ at *
    generalize (Zs.map fun Z => etaAt A h₀ ps Z ^ 2 * pointWeight (n + 2) F Z).sum = T₀ at *
    have hWv : W / count ≤ v + 1 := by
      have := (abs_lt.1 c1).2
      linarith
    have b2 : |E₁ / count - K₁ / (n + 2)| ≤ t + δ * (2 * v + 1) := by
      have h1 : |E₁ / count - E₀ / count| ≤ δ * (v + 1) := by
        rw [← sub_div, abs_div, abs_of_pos hct]
        calc |E₁ - E₀| / count ≤ δ * W / count := div_le_div_of_nonneg_right hs1 hct.le
          _ = δ * (W / count) := by ring
          _ ≤ _ := mul_le_mul_of_nonneg_left hWv hδ0.le
      have h2 : |K / ((n : ℝ) + 2) - K₁ / (n + 2)| ≤ δ * v := by
        rw [← sub_div, abs_div, abs_of_pos hn2, abs_sub_comm, hv, ← mul_div_assoc]
        exact div_le_div_of_nonneg_right hKd hn2.le
      have h3 := abs_add_le (E₁ / count - E₀ / count) (E₀ / count - K / ((n : ℝ) + 2))
      have h4 := abs_add_le (E₁ / count - E₀ / count + (E₀ / count - K / ((n : ℝ) + 2))) (K / ((n : ℝ) + 2) - K₁ / (n + 2))
      rw [show E₁ / count - E₀ / count + (E₀ / count - K / ((n : ℝ) + 2)) + (K / ((n : ℝ) + 2) - K₁ / (n + 2)) =
        E₁ / count - K₁ / (n + 2) by ring] at h4
      linarith
    have b3 : |T₁ / count - S₁ / (n + 2)| ≤ t + δ * (2 * v + 1) * (2 * M') := by
      have h1 : |T₁ / count - T₀ / count| ≤ 2 * M' * δ * (v + 1) := by
        rw [← sub_div, abs_div, abs_of_pos hct]
        calc |T₁ - T₀| / count ≤ 2 * M' * δ * W / count := div_le_div_of_nonneg_right hs2 hct.le
          _ = 2 * M' * δ * (W / count) := by ring
          _ ≤ _ := mul_le_mul_of_nonneg_left hWv (by positivity)
      have h2 : |S / ((n : ℝ) + 2) - S₁ / (n + 2)| ≤ 2 * M' * δ * v := by
        rw [← sub_div, abs_div, abs_of_pos hn2, abs_sub_comm, hv, ← mul_div_assoc]
        exact div_le_div_of_nonneg_right hSd hn2.le
      have h3 := abs_add_le (T₁ / count - T₀ / count) (T₀ / count - S / ((n : ℝ) + 2))
      have h4 := abs_add_le (T₁ / count - T₀ / count + (T₀ / count - S / ((n : ℝ) + 2))) (S / ((n : ℝ) + 2) - S₁ / (n + 2))
      rw [show T₁ / count - T₀ / count + (T₀ / count - S / ((n : ℝ) + 2)) + (S / ((n : ℝ) + 2) - S₁ / (n + 2)) =
        T₁ / count - S₁ / (n + 2) by ring] at h4
      linarith
    obtain ⟨s, hs⟩ : ∃ s, s = t + δ * ((2 * v + 1) * (1 + 2 * M')) := ⟨_, rfl⟩
    have hp1 : 0 < δ * (2 * v + 1) := by positivity
    have hp2 : 0 < δ * (2 * v + 1) * (2 * M') := by positivity
    have hse : s = t + δ * (2 * v + 1) + δ * (2 * v + 1) * (2 * M') := by rw [hs]; ring
    have hfinal := loss_close _ _ _ v (K₁ / (n + 2)) (S₁ / (n + 2)) m' s hm'0 (div_pos hEpos hct)
      hv0 (div_pos hK₁ hn2) (div_nonneg hS₁ hn2.le) (div_pos hWpos hct)
      (by rw [← mul_div_assoc]; exact div_le_div_of_nonneg_right hWE hct.le)
      (by rw [hv, ← mul_div_assoc]; exact div_le_div_of_nonneg_right hmVK hn2.le) (c1.le.trans (by linarith)) (b2.trans (by linarith))
      (b3.trans (by linarith))
    have hratio : S₁ / ((n : ℝ) + 2) / (K₁ / (n + 2)) ≤ M' := by
      rw [div_div_div_cancel_right₀ hn2.ne', div_le_iff₀ hK₁]
      exact hSK
    have e2 : v ^ 2 * (S₁ / (n + 2)) / (K₁ / (n + 2)) ^ 2 - v = etaVariance (cyMeasure p d F) (etaAt A h ps) / (n + 2) := by
      rw [eΛ₁, hv]
      field_simp
    rw [e2] at hfinal
    have hle : s * (1 + m'⁻¹ ^ 2 + (m'⁻¹ + 1) * (2 * m'⁻¹) * (S₁ / ((n : ℝ) + 2) / (K₁ / (n + 2)))) ≤ s * Q := by
      rw [hQ]
      have : 0 ≤ s := by linarith
      gcongr
    have hsQ : s * Q ≤ ε / 2 := by
      rw [hs, add_mul]
      linarith
    linarith

end Cover

end Cyjax
