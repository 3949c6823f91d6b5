import Verif.Lemmas.SigmaLimit
import Verif.Props.Convergence

/-! # C133: convergence of `sigma_accuracy` -/

namespace Cyjax

open MeasureTheory ProbabilityTheory MvPolynomial Cyjax.Spec Cyjax.Polynomial Cyjax.Variety Cyjax.Donaldson Set Filter
  Topology
open scoped ENNReal ComplexOrder

theorem inverse_square_tendsto (C ε : ℝ) (hε : 0 < ε) :
    Tendsto (fun count : ℕ => ENNReal.ofReal (C / (count * ε ^ 2))) atTop (𝓝 0) := by
  rw [← ENNReal.ofReal_zero]
  refine ENNReal.tendsto_ofReal ?_
  have h1 : Tendsto (fun count : ℕ => (count : ℝ) * ε ^ 2) atTop atTop :=
    tendsto_natCast_atTop_atTop.atTop_mul_const (by positivity)
  exact tendsto_const_nhds.div_atTop h1

variable {n : ℕ} {F : MvPolynomial (Fin (n + 2)) ℂ} {A : AlgebraicMetric (n + 1)} {ps : List ℂ} {o : SymOrder}
  (ho : o.Valid) {roots : List ℂ → List ℂ} (hr : CompleteRoots roots) (hsm : SmoothHypersurface F) (hn : n ≠ 0)
  (p : Fin (n + 2)) (d : Fin (n + 1)) (hS : Samplable A.variety (n + 1) (n + 2) ps)
  (hF : Hypersurface A.variety (.vec ps) (n + 1) (n + 2) F) (hB : SpansModulo F A.sections.degree A.sections.rows)
  (hk : A.sections.degree ≠ 0) (h : A.H) (hh : h.PosDef)

include hsm hn hS hF hB hk hh

/-- **C133.** The value of `eta` is a positive, bounded function on the hypersurface, so that the integrals below exist. The
accuracy they define lies between 0 and 2, and it is zero exactly if `eta` is constant (almost everywhere). -/
theorem C133_accuracy :
    Integrable (etaAt A h ps) (cyMeasure p d F) ∧ 0 < ∫ Z, etaAt A h ps Z ∂cyMeasure p d F ∧
    0 ≤ accuracy (cyMeasure p d F) (etaAt A h ps) ∧ accuracy (cyMeasure p d F) (etaAt A h ps) ≤ 2 ∧
    (accuracy (cyMeasure p d F) (etaAt A h ps) = 0 ↔ ∃ c, ∀ᵐ Z ∂cyMeasure p d F, etaAt A h ps Z = c) := by
  have hom := hF.homogeneous
  obtain ⟨hfin0, hne0, -⟩ := C130_measure hsm hn p d hS hF
  have hfin : IsFiniteMeasure (cyMeasure p d F) := ⟨hfin0.lt_top⟩
  have hcyae : ∀ᵐ Z ∂cyMeasure p d F, Z ≠ 0 ∧ Z ∈ regularSet p d F := by
    rw [cyMeasure_withDensity p d hom]
    exact (withDensity_absolutelyContinuous _ _).ae_le (ae_fsMeasure hom p d)
  obtain ⟨M, hM⟩ := etaAt_bounded hF h hB hh hsm
  have hη : Integrable (etaAt A h ps) (cyMeasure p d F) := by
    refine (integrable_const M).mono' (measurable_etaAt hF h hB).aestronglyMeasurable ?_
    filter_upwards [hcyae] with Z hZ
    exact hM Z hZ.1 hZ.2.1
  have hηpos : ∀ᵐ Z ∂cyMeasure p d F, 0 < etaAt A h ps Z := by
    filter_upwards [hcyae] with Z hZ
    exact (etaAt_pos hF h hB hh hsm hk Z hZ.1 hZ.2.1).1
  have hK : 0 < ∫ Z, etaAt A h ps Z ∂cyMeasure p d F := by
    rw [integral_pos_iff_support_of_nonneg_ae (hηpos.mono fun _ h => h.le) hη]
    have : cyMeasure p d F (Function.support (etaAt A h ps)) = cyMeasure p d F univ :=
      measure_congr (by
        filter_upwards [hηpos] with Z hZ
        exact eq_true (show Z ∈ Function.support (etaAt A h ps) from hZ.ne') |>.trans (eq_true (mem_univ Z)).symm)
    rw [this]
    exact pos_iff_ne_zero.2 hne0
  set K := ∫ Z, etaAt A h ps Z ∂cyMeasure p d F with hKd
  set V := (cyMeasure p d F univ).toReal with hVd
  have hV : 0 < V := ENNReal.toReal_pos hne0 hfin0
  have hacc : accuracy (cyMeasure p d F) (etaAt A h ps) = (∫ Z, |1 - etaAt A h ps Z * V / K| ∂cyMeasure p d F) / V := rfl
  have hi : Integrable (fun Z => |1 - etaAt A h ps Z * V / K|) (cyMeasure p d F) :=
    ((integrable_const 1).sub ((hη.mul_const V).div_const K)).abs
  refine ⟨hη, hK, ?_, ?_, ?_⟩
  · rw [hacc]
    exact div_nonneg (integral_nonneg fun _ => abs_nonneg _) hV.le
  · rw [hacc, div_le_iff₀ hV]
    have hi2 : Integrable (fun Z => 1 + etaAt A h ps Z * V / K) (cyMeasure p d F) :=
      (integrable_const 1).add ((hη.mul_const V).div_const K)
    refine (integral_mono_ae hi hi2 ?_).trans (le_of_eq ?_)
    · filter_upwards [hηpos] with Z hZ
      refine (abs_sub _ _).trans (le_of_eq ?_)
      rw [abs_one, abs_of_pos (by positivity)]
    · rw [integral_add (integrable_const 1) ((hη.mul_const V).div_const K), integral_div, integral_mul_const, integral_const,
        smul_eq_mul, mul_one, ← hKd]
      change V + K * V / K = 2 * V
      field_simp
      ring
  · rw [hacc, div_eq_zero_iff, or_iff_left hV.ne', integral_eq_zero_iff_of_nonneg (fun _ => abs_nonneg _) hi]
    constructor
    · intro h0
      refine ⟨K / V, ?_⟩
      filter_upwards [h0] with Z hZ
      have h1 : 1 - etaAt A h ps Z * V / K = 0 := abs_eq_zero.1 hZ
      field_simp at h1 ⊢
      linarith
    · rintro ⟨c, hc⟩
      have hKc : K = V * c := by
        rw [hKd, integral_congr_ae hc, integral_const, smul_eq_mul]
        rfl
      filter_upwards [hc] with Z hZ
      rw [hZ, hKc]
      have hc0 : c ≠ 0 := fun h0 => by
        rw [h0, mul_zero] at hKc
        exact hK.ne' hKc
      have : (1 : ℝ) - c * V / (V * c) = 0 := by
        field_simp
        ring
      rw [this, abs_zero]
      rfl

include ho hr

/-- An error of `sigma_accuracy` comes from an error of one of three means of bounded functions. -/
theorem sigma_cover : ∃ κ > 0, ∃ f : Fin 3 → (Fin (n + 2) → ℂ) → ℝ, ∃ M : Fin 3 → ℝ,
    (∀ k, Measurable (f k) ∧ (∀ c : ℂ, c ≠ 0 → ∀ Z, f k (c • Z) = f k Z) ∧ ∀ Z, Z ≠ 0 → eval Z F = 0 → |f k Z| ≤ M k) ∧
    ∀ count : ℕ, count ≠ 0 → ∀ ε > 0, normalsLaw (n + 2) (sampleCount count (n + 2))
      {x | ε ≤ |resultOrZero (A.sigmaAccuracy h o roots ps count (asLists (lineDraws x))) -
        accuracy (cyMeasure p d F) (etaAt A h ps)|} ≤
      ∑ k, normalsLaw (n + 2) (sampleCount count (n + 2))
        {x | κ * ε ≤ |weightedMean (f k) (sampleIntersectOpt n A.variety o roots ps count (asLists (lineDraws x)) false true) -
          (∫ Z, f k Z ∂cyMeasure p d F) / (n + 2)|} := by
  have hom := hF.homogeneous
  have he0 : n + 2 ≠ 0 := by omega
  have hirr := smooth_irreducible (by omega) hom he0 hsm
  obtain ⟨hη, hK, hs0, hs2, -⟩ := C133_accuracy hsm hn p d hS hF hB hk h hh
  obtain ⟨hfin0, hne0, -⟩ := C130_measure hsm hn p d hS hF
  set σ := accuracy (cyMeasure p d F) (etaAt A h ps) with hσ
  obtain ⟨B, hB0, hle⟩ := pointWeight_bounded hom hsm
  obtain ⟨M, hM⟩ := etaAt_bounded hF h hB hh hsm
  set w := pointWeight (n + 2) F with hw
  set η := etaAt A h ps with hηd
  set V := (cyMeasure p d F univ).toReal with hV
  set K := ∫ Z, η Z ∂cyMeasure p d F with hKd
  have hV0 : 0 < V := ENNReal.toReal_pos hne0 hfin0
  have hn2 : (0 : ℝ) < n + 2 := by positivity
  have hwpos : ∀ Z, Z ≠ 0 → eval Z F = 0 → 0 < w Z := fun Z hZ h0 => pointWeight_pos (e := n + 2) Z hZ (hsm Z hZ h0)
  have hηpos : ∀ Z, Z ≠ 0 → eval Z F = 0 → 0 < η Z := fun Z hZ h0 => (etaAt_pos hF h hB hh hsm hk Z hZ h0).1
  have hwm : Measurable w := measurable_pointWeight (F := F) (n + 2)
  have hηm : Measurable η := measurable_etaAt hF h hB
  have hwi : ∀ c : ℂ, c ≠ 0 → ∀ Z, w (c • Z) = w Z := pointWeight_smul hom
  have hηi : ∀ c : ℂ, c ≠ 0 → ∀ Z, η (c • Z) = η Z := etaAt_smul hF h
  set α := V / (n + 2) with hα
  set β := K / (n + 2) with hβ
  set g := fun Z => |1 - η Z * α / β| with hg
  have hgm : Measurable g := by
    have : g = fun Z => |1 - η Z * α / β| := rfl
    rw [this]
    simp only [← Real.norm_eq_abs]
    exact (measurable_const.sub ((hηm.mul_const _).div_const _)).norm
  have hgi : ∀ c : ℂ, c ≠ 0 → ∀ Z, g (c • Z) = g Z := fun c hc Z => by simp only [hg, hηi c hc Z]
  have hα0 : 0 < α := div_pos hV0 hn2
  have hβ0 : 0 < β := div_pos hK hn2
  have hgb : ∀ Z, Z ≠ 0 → eval Z F = 0 → |g Z| ≤ 1 + M * α / β := by
    intro Z hZ h0
    rw [abs_abs]
    refine (abs_sub _ _).trans ?_
    rw [abs_one, abs_div, abs_mul, abs_of_pos hα0, abs_of_pos hβ0]
    have := hM Z hZ h0
    gcongr
  set γ := (∫ Z, g Z ∂cyMeasure p d F) / (n + 2) with hγ
  have hσγ : σ = γ / α := by
    have e1 : ∀ Z, η Z * α / β = η Z * V / K := fun Z => by
      rw [hα, hβ]
      field_simp
    rw [hσ, hγ, hα]
    simp only [hg, e1]
    change (∫ Z, |1 - η Z * V / K| ∂cyMeasure p d F) / V = _
    rw [div_div_div_cancel_right₀ hn2.ne']
  have hγ0 : 0 ≤ γ := div_nonneg (integral_nonneg fun _ => abs_nonneg _) hn2.le
  set Q := 2 / α * (2 + α / β + γ / α) with hQ
  have hQ0 : 0 < Q := by positivity
  set κ := min (1 / (2 * Q)) (α / 4) with hκ
  have hκ0 : 0 < κ := lt_min (by positivity) (by positivity)
  refine ⟨κ, hκ0, ![fun _ => 1, η, g], ![1, M, 1 + M * α / β], fun k => ?_, fun count hc ε hε => ?_⟩
  · fin_cases k
    · exact ⟨measurable_const, fun _ _ _ => rfl, fun _ _ _ => by simp⟩
    · exact ⟨hηm, hηi, hM⟩
    · exact ⟨hgm, hgi, hgb⟩
  · obtain ⟨pts, hpts⟩ := sample_sums hS hF hsm hirr ho hr he0 (sampleCount count (n + 2))
    have hc2 := (sampleCount_mul count (n + 2) (by omega)).1
    have hct : (0 : ℝ) < count := by exact_mod_cast Nat.pos_of_ne_zero hc
    set smp := fun x : Fin 2 → Fin (sampleCount count (n + 2)) → Fin (2 * (n + 2)) → ℝ =>
      sampleIntersectOpt n A.variety o roots ps count (asLists (lineDraws x)) false true with hsmp
    have hmeans : ∀ᵐ x ∂normalsLaw (n + 2) (sampleCount count (n + 2)), ∀ f : (Fin (n + 2) → ℂ) → ℝ,
        weightedMean f (smp x) = (((pts x).take count).map fun Z => f Z * w Z).sum / count := by
      filter_upwards [hpts] with x hx f
      rw [hsmp]
      simp only
      rw [(hx.2.2.1 count).2.1, weightedMean_eq, List.length_take, hx.1, min_eq_left hc2]
    have hcover : normalsLaw (n + 2) (sampleCount count (n + 2))
        {x | ε ≤ |resultOrZero (A.sigmaAccuracy h o roots ps count (asLists (lineDraws x))) - σ|} ≤
        normalsLaw (n + 2) (sampleCount count (n + 2))
          (({x | κ * ε ≤ |weightedMean (fun _ => 1) (smp x) - α|} ∪
            {x | κ * ε ≤ |weightedMean η (smp x) - β|}) ∪
            {x | κ * ε ≤ |weightedMean g (smp x) - γ|}) := by
      refine measure_mono_ae ?_
      filter_upwards [hpts, hmeans, ae_admissible (count := sampleCount count (n + 2)) F (smooth_ne_zero hsm) hom] with
        x hx hmx hadm hbad
      have hL0 : sampleCount count (n + 2) ≠ 0 := fun h0 => by
        rw [h0, zero_mul] at hc2
        omega
      have hdr : lineDraws x ≠ [] := by
        rw [← List.length_pos_iff, lineDraws, List.length_ofFn]
        exact Nat.pos_of_ne_zero hL0
      obtain ⟨Zs, η', w', σ', g1, -, g3, g4, g5, g6, g7, -⟩ :=
        C110_sigma hS hF hsm he0 hB hk h hh ho hr.exact count hc (lineDraws x) hdr hadm.2
      have hZs : Zs = (pts x).take count := by
        refine List.map_injective_iff.2 List.ofFn_injective (Except.ok.inj (g1.symm.trans ?_))
        exact hom_of_weights (hx.2.2.1 count).2.1
      have hη' : ∀ Z ∈ Zs, η' Z = η Z := by
        intro Z hZ
        have h1 := (g3 Z hZ).2.2.2.2.1
        have h2 := (etaAt_pos hF h hB hh hsm hk Z (g3 Z hZ).1 (g3 Z hZ).2.1).2
        exact_mod_cast Except.ok.inj (h1.symm.trans h2)
      have hw' : ∀ Z ∈ Zs, w' Z = w Z := by
        intro Z hZ
        have h1 := (g3 Z hZ).2.2.2.2.2
        have h2 := weight_auto hF Z (g3 Z hZ).1 (g3 Z hZ).2.1 (hsm Z (g3 Z hZ).1 (g3 Z hZ).2.1)
        exact Except.ok.inj (h1.symm.trans h2)
      have e1 : Zs.map w' = Zs.map w := List.map_congr_left hw'
      have e2 : (Zs.map fun Z => η' Z * w' Z) = Zs.map fun Z => η Z * w Z :=
        List.map_congr_left fun Z hZ => by rw [hη' Z hZ, hw' Z hZ]
      rw [e1, e2, List.map_congr_left (g := fun Z => |1 - η Z * (Zs.map w).sum / (Zs.map fun Z => η Z * w Z).sum| * w Z)
        fun Z hZ => by rw [hη' Z hZ, hw' Z hZ]] at g5
      change ε ≤ |resultOrZero (A.sigmaAccuracy h o roots ps count (asLists (lineDraws x))) - σ| at hbad
      rw [g4] at hbad
      change ε ≤ |σ' - σ| at hbad
      by_contra hcon
      change ¬ (_ ∨ _) at hcon
      rw [not_or] at hcon
      obtain ⟨hcon, c3⟩ := hcon
      change ¬ (_ ∨ _) at hcon
      rw [not_or] at hcon
      obtain ⟨c1, c2⟩ := hcon
      change ¬ (κ * ε ≤ _) at c1 c2 c3
      rw [not_le, hmx] at c1 c2 c3
      rw [← hZs] at c1 c2 c3
      simp only [one_mul] at c1
      have hε2 : ε ≤ 2 := hbad.trans (abs_sub_le_iff.2 ⟨by linarith, by linarith⟩)
      have hfinal := sigma_close Zs η w (fun Z hZ => ⟨hηpos Z (g3 Z hZ).1 (g3 Z hZ).2.1, hwpos Z (g3 Z hZ).1 (g3 Z hZ).2.1⟩)
        count hct α β γ (κ * ε) hα0 hβ0 hγ0 (by
          have : κ ≤ α / 4 := min_le_right _ _
          nlinarith) c1.le c2.le c3.le
      rw [← g5, ← hQ, ← hσγ] at hfinal
      have hκQ : κ * Q ≤ 1 / 2 := by
        calc κ * Q ≤ 1 / (2 * Q) * Q := mul_le_mul_of_nonneg_right (min_le_left _ _) hQ0.le
          _ = 1 / 2 := by field_simp
      nlinarith
    have eα : (∫ _, (1 : ℝ) ∂cyMeasure p d F) / ((n : ℝ) + 2) = α := by
      rw [integral_const, smul_eq_mul, mul_one]
      rfl
    rw [Fin.sum_univ_three]
    rw [← eα] at hcover
    exact hcover.trans ((measure_union_le _ _).trans (add_le_add (measure_union_le _ _) le_rfl))

/-- **C133.** The result of `sigma_accuracy` with `count` points is close to the accuracy `1/V ∫ |1 - η V/K| |Ω|²` over the
hypersurface with its holomorphic volume form: the probability of an error of at least `ε` is at most `C / (count ε²)`. So it
converges to this value in probability. -/
theorem C133_error :
    (∃ C : ℝ, ∀ count : ℕ, count ≠ 0 → ∀ ε > 0, normalsLaw (n + 2) (sampleCount count (n + 2))
      {x | ε ≤ |resultOrZero (A.sigmaAccuracy h o roots ps count (asLists (lineDraws x))) -
        accuracy (cyMeasure p d F) (etaAt A h ps)|} ≤ ENNReal.ofReal (C / (count * ε ^ 2))) ∧
    ∀ ε > 0, Tendsto (fun count : ℕ => normalsLaw (n + 2) (sampleCount count (n + 2))
      {x | ε ≤ |resultOrZero (A.sigmaAccuracy h o roots ps count (asLists (lineDraws x))) -
        accuracy (cyMeasure p d F) (etaAt A h ps)|}) atTop (𝓝 0) := by
  obtain ⟨κ, hκ, f, M, hf, hcov⟩ := sigma_cover ho hr hsm hn p d hS hF hB hk h hh
  have he := fun k => (C132_error ho hr hsm hn p d hS hF (hf k).1 (hf k).2.1 (hf k).2.2).1
  choose C hC using he
  have hC' : ∀ count : ℕ, count ≠ 0 → ∀ ε > 0, normalsLaw (n + 2) (sampleCount count (n + 2))
      {x | ε ≤ |resultOrZero (A.sigmaAccuracy h o roots ps count (asLists (lineDraws x))) -
        accuracy (cyMeasure p d F) (etaAt A h ps)|} ≤ ENNReal.ofReal ((∑ k, max (C k) 0) / κ ^ 2 / (count * ε ^ 2)) := by
    intro count hc ε hε
    refine (hcov count hc ε hε).trans ?_
    have hct : (0 : ℝ) < count := by exact_mod_cast Nat.pos_of_ne_zero hc
    have e1 : (∑ k, max (C k) 0) / κ ^ 2 / (count * ε ^ 2) = ∑ k, max (C k) 0 / (count * (κ * ε) ^ 2) := by
      rw [← Finset.sum_div]
      field_simp
    rw [e1, ENNReal.ofReal_sum_of_nonneg fun k _ => by positivity]
    refine Finset.sum_le_sum fun k _ => (hC k count hc (κ * ε) (by positivity)).trans (ENNReal.ofReal_le_ofReal ?_)
    exact div_le_div_of_nonneg_right (le_max_left _ _) (by positivity)
  refine ⟨⟨_, hC'⟩, fun ε hε => ?_⟩
  refine tendsto_of_tendsto_of_tendsto_of_le_of_le' tendsto_const_nhds (inverse_square_tendsto ((∑ k, max (C k) 0) / κ ^ 2) ε hε)
    (Eventually.of_forall fun _ => zero_le) ?_
  filter_upwards [eventually_ne_atTop 0] with count hc
  exact hC' count hc ε hε

omit hsm hn hS hF hB hk hh ho hr in
/-- The hypotheses of C133 hold for the Dwork quintic with `psi = 2`, all sections of degree 2 and `h = 1`. -/
example : ∃ (A : AlgebraicMetric 4) (F : MvPolynomial (Fin 5) ℂ) (h : A.H),
    A = ⟨.dwork 5 (.flag true), monomialBasisFull 4 2⟩ ∧ ∀ ε > 0,
      Tendsto (fun count : ℕ => normalsLaw 5 (sampleCount count 5)
        {x | ε ≤ |resultOrZero (A.sigmaAccuracy h someOrder someRoots [2] count (asLists (lineDraws x))) -
          accuracy (cyMeasure (n := 3) 0 0 F) (etaAt (n := 3) A h [2])|}) atTop (𝓝 0) := by
  obtain ⟨F, hF, hsm⟩ := C114_quintic 2 []
  exact ⟨⟨.dwork 5 (.flag true), monomialBasisFull 4 2⟩, F, 1, rfl,
    (C133_error (n := 3) (A := ⟨.dwork 5 (.flag true), monomialBasisFull 4 2⟩) someOrder_valid someRoots_complete
      (hsm.2 (by norm_num)) (by norm_num) 0 0 (.dwork 4 (.flag true) (by simp [DworkFactor.value]) 2) hF
      (C105_sections F 2).1 two_ne_zero 1 Matrix.PosDef.one).2⟩

end Cyjax
