import Verif.Lemmas.KahlerVolume
import Verif.Spec.KahlerVolume
import Verif.Props.FubiniStudyFlat

/-! # C153: the Kahler volume does not depend on the metric -/

namespace Cyjax

open MeasureTheory ProbabilityTheory MvPolynomial Cyjax.Spec Cyjax.Polynomial Cyjax.Variety Cyjax.Donaldson Set Filter
  Topology
open scoped ENNReal ComplexOrder

variable {n : ℕ} {F : MvPolynomial (Fin (n + 2)) ℂ} {A : AlgebraicMetric (n + 1)} {ps : List ℂ}
  (hsm : SmoothHypersurface F) (hn : n ≠ 0)
  (p : Fin (n + 2)) (d : Fin (n + 1)) (hS : Samplable A.variety (n + 1) (n + 2) ps)
  (hF : Hypersurface A.variety (.vec ps) (n + 1) (n + 2) F) (hB : SpansModulo F A.sections.degree A.sections.rows)
  (hk : A.sections.degree ≠ 0) (h : A.H) (hh : h.PosDef)

private theorem cy_ae (hom : F.IsHomogeneous (n + 2)) : ∀ᵐ Z ∂cyMeasure p d F, Z ≠ 0 ∧ Z ∈ regularSet p d F := by
  rw [cyMeasure_withDensity p d hom]
  exact (withDensity_absolutelyContinuous _ _).ae_le (ae_fsMeasure hom p d)

include hsm hn hS hF hB hk hh

omit hn hS in
private theorem eta_density : ∫ Z, etaAt A h ps Z ∂cyMeasure p d F = ∫ Z, volDensity F (potAt A h) Z ∂cyMeasure p d F := by
  refine integral_congr_ae ?_
  filter_upwards [cy_ae p d hF.homogeneous] with Z hZ
  exact (volDensity_pot hF hB hk h hh hsm Z hZ.1 hZ.2.1).symm

/-- **C153.** The integral of `eta` over the variety, the volume of the Kahler metric, is `(n + 2) / n!` on every smooth
Calabi–Yau hypersurface of dimension `n`, for every positive definite matrix `h`, every degree of the sections and every
basis of them. -/
theorem C153_volume : Integrable (etaAt A h ps) (cyMeasure p d F) ∧
    ∫ Z, etaAt A h ps Z ∂cyMeasure p d F = (n + 2) / n.factorial := by
  refine ⟨(C133_accuracy hsm hn p d hS hF hB hk h hh).1, ?_⟩
  have hom := hF.homogeneous
  have he0 : n + 2 ≠ 0 := by omega
  -- the metric with sections of degree one
  set A₀ : AlgebraicMetric (n + 1) := ⟨A.variety, monomialBasisFull (n + 1) 1⟩ with hA₀
  set h₀ : A₀.H := fubiniStudyH (n + 1) 1 with hh₀
  have hB₀ : SpansModulo F A₀.sections.degree A₀.sections.rows := (C105_sections F 1).1
  have hp₀ : h₀.PosDef := C115_posDef _ _
  have hF₀ : Hypersurface A₀.variety (.vec ps) (n + 1) (n + 2) F := hF
  have hvol := hasVolume hF hB hk h hh hsm
  have e1 := volDensity_integral hom hsm hvol (fun p d => (C130_measure hsm hn p d hS hF).1)
    (fun p d p' d' f hf hi => (C130_measure hsm hn p d hS hF).2.2 p' d' f hf hi)
    (potAt_smooth hF₀ hB₀ h₀ hp₀) (potAt_log hF₀ hB₀ one_ne_zero h₀ hp₀) (potAt_smooth hF hB h hh) (potAt_log hF hB hk h hh) p d
  rw [eta_density hsm p d hF hB hk h hh, e1, ← eta_density (A := A₀) hsm p d hF₀ hB₀ one_ne_zero h₀ hp₀,
    (cy_integral hom p d _).2]
  have hirr := smooth_irreducible (by omega) hom he0 hsm
  have hmass := fs_mass hS hF hsm hirr p d he0 (smooth_pderiv_ne_zero hom (by omega) hsm _)
  have hae : ∀ᵐ Z ∂fsMeasure p d F, etaAt A₀ h₀ ps Z * pointWeight (n + 2) F Z = 1 / n.factorial := by
    filter_upwards [ae_fsMeasure hom p d] with Z hZ
    have h1 : etaAt A₀ h₀ ps Z = (∑ i, ‖eval Z (pderiv i F)‖ ^ 2) / (Real.pi ^ n * (∑ i, ‖Z i‖ ^ 2) ^ (n + 1)) := by
      unfold etaAt
      rw [C152_eta hF 1 one_ne_zero Z hZ.1 hZ.2.1 ⟨_, hZ.2.2⟩]
      rfl
    rw [h1, (C111_calabi_yau hom Z hZ.1).1]
    have a1 : 0 < ∑ i, ‖Z i‖ ^ 2 := sum_norm_pos hZ.1
    have a2 : 0 < ∑ i, ‖eval Z (pderiv i F)‖ ^ 2 := Finset.sum_pos' (fun _ _ => by positivity)
      ⟨_, Finset.mem_univ _, by have := norm_pos_iff.2 hZ.2.2; positivity⟩
    have := Real.pi_pos
    have := Nat.cast_pos (α := ℝ).2 n.factorial_pos
    field_simp
  rw [integral_congr_ae hae, integral_const, smul_eq_mul, measureReal_def, hmass, ENNReal.toReal_natCast]
  push_cast
  ring

/-- **C153.** Hence the accuracy that `sigma_accuracy` converges to (C133) is the integral of `|1 - c η|` with a constant `c`
that is the same for all metrics on the variety. -/
theorem C153_accuracy : accuracy (cyMeasure p d F) (etaAt A h ps) =
    (∫ Z, |1 - etaAt A h ps Z * (cyMeasure p d F univ).toReal * n.factorial / (n + 2)| ∂cyMeasure p d F) /
      (cyMeasure p d F univ).toReal := by
  unfold accuracy
  rw [(C153_volume hsm hn p d hS hF hB hk h hh).2]
  congr 1
  refine integral_congr_ae (Eventually.of_forall fun Z => ?_)
  dsimp only
  congr 2
  have := Nat.cast_pos (α := ℝ).2 n.factorial_pos
  field_simp

/-- **C153.** The expected value of the Monte Carlo estimate of the Kahler volume, `1/N · ∑ η(z) w(z)`, is `1/n!`. The
points must not be cut to the requested number. -/
theorem C153_mean {o : SymOrder} (ho : o.Valid) {roots : List ℂ → List ℂ} (hr : CompleteRoots roots)
    {Ω : Type*} [MeasurableSpace Ω] {P : Measure Ω} (count : ℕ) (hc : count ≠ 0) (hdvd : (n + 2) ∣ count)
    {X : Ω → Fin 2 → Fin (sampleCount count (n + 2)) → Fin (2 * (n + 2)) → ℝ}
    (hX : HasLaw X (normalsLaw (n + 2) (sampleCount count (n + 2))) P) :
    Integrable (fun ω => weightedMean (etaAt A h ps)
      (sampleIntersectOpt n A.variety o roots ps count (asLists (lineDraws (X ω))) false true)) P ∧
    ∫ ω, weightedMean (etaAt A h ps)
      (sampleIntersectOpt n A.variety o roots ps count (asLists (lineDraws (X ω))) false true) ∂P = 1 / n.factorial := by
  obtain ⟨h1, h2⟩ := C153_volume hsm hn 0 0 hS hF hB hk h hh
  obtain ⟨h3, h4⟩ := C130_mean_partial ho hr hsm hn 0 0 hS hF count hc hdvd hX (measurable_etaAt hF h hB) (etaAt_smul hF h) h1
  refine ⟨h3, h4.trans ?_⟩
  rw [h2]
  have : (0 : ℝ) < n + 2 := by positivity
  have := Nat.cast_pos (α := ℝ).2 n.factorial_pos
  field_simp

/-- **C153.** The total scalar curvature vanishes: the integral of `ricci_scalar` with the volume form of the metric is zero,
for every positive definite `h`. (`ricci_scalar` returns a value at every point of the variety.) -/
theorem C153_scalar : (∀ Z, Z ≠ 0 → eval Z F = 0 → ∃ c, A.ricciScalar h (List.ofFn Z) (.vec ps) none none none = .ok c) ∧
    Integrable (fun Z => etaAt A h ps Z * scalarAt A h ps Z) (cyMeasure p d F) ∧
    ∫ Z, etaAt A h ps Z * scalarAt A h ps Z ∂cyMeasure p d F = 0 := by
  have hom := hF.homogeneous
  have hvol := hasVolume hF hB hk h hh hsm
  have hfin := fun p d => (C130_measure hsm hn p d hS hF).1
  obtain ⟨w, s, hw⟩ := linear_weights n
  have hkey := weights_density hF hB hk h hh hsm hw
  have hsmooth : ∀ {l : WithTop ℕ∞} (t : ℝ), ChartSmooth F l (fun Z => potAt A h Z + t * Real.log (etaAt A h ps Z)) := fun t =>
    (potAt_smooth hF hB h hh).add ((ChartSmooth.const t).mul (logEta_smooth hF hB hk h hh hsm))
  have hlog := shift_log hF hB hk h hh
  have hint : ∀ t : ℝ, Integrable (volDensity F (fun Z => potAt A h Z + t * Real.log (etaAt A h ps Z))) (cyMeasure p d F) :=
    fun t => volDensity_integrable hom hsm hvol hfin (hsmooth t) (hlog t) p d
  have hval : ∀ t : ℝ, ∫ Z, volDensity F (fun Z => potAt A h Z + t * Real.log (etaAt A h ps Z)) Z ∂cyMeasure p d F =
      ∫ Z, volDensity F (potAt A h) Z ∂cyMeasure p d F := fun t =>
    volDensity_integral hom hsm hvol hfin (fun p d p' d' f hf hi => (C130_measure hsm hn p d hS hF).2.2 p' d' f hf hi)
      (potAt_smooth hF hB h hh) (potAt_log hF hB hk h hh) (hsmooth t) (hlog t) p d
  have hae : (fun Z => etaAt A h ps Z * scalarAt A h ps Z) =ᵐ[cyMeasure p d F]
      fun Z => -∑ i, w i * volDensity F (fun Z => potAt A h Z + s i * Real.log (etaAt A h ps Z)) Z := by
    filter_upwards [cy_ae p d hom] with Z hZ
    obtain ⟨c, h1, h2⟩ := hkey Z hZ.1 hZ.2.1
    rw [h2, neg_neg]
    unfold scalarAt
    rw [h1]
    rfl
  have hsum : Integrable (fun Z => -∑ i, w i * volDensity F (fun Z => potAt A h Z + s i * Real.log (etaAt A h ps Z)) Z)
      (cyMeasure p d F) := (integrable_finsetSum _ fun i _ => (hint (s i)).const_mul (w i)).neg
  refine ⟨fun Z hZ h0 => ?_, hsum.congr hae.symm, ?_⟩
  · obtain ⟨c, h1, -⟩ := hkey Z hZ h0
    exact ⟨c, h1⟩
  · have hw0 : ∑ i, w i = 0 := by
      have h1 := hw 1 (by rw [Polynomial.natDegree_one]; exact Nat.zero_le n)
      simp only [Polynomial.eval_one, mul_one, Polynomial.coeff_one, one_ne_zero, if_false] at h1
      exact_mod_cast h1
    rw [integral_congr_ae hae, integral_neg, integral_finsetSum _ fun i _ => (hint (s i)).const_mul (w i)]
    simp only [integral_const_mul, hval]
    rw [← Finset.sum_mul, hw0, zero_mul, neg_zero]

omit hsm hn hS hF hB hk hh in
/-- The Fermat quintic threefold with sections of degree 2 and `h = 1`, which is not the Fubini–Study metric: the volume is
`5/6`. -/
example : ∫ Z, etaAt (n := 3) ⟨.fermat 5, monomialBasisFull 4 2⟩ (1 : Matrix _ _ ℂ) [] Z ∂cyMeasure 0 0 (∑ j, X j ^ 5) = 5 / 6 ∧
    ∫ Z, etaAt (n := 3) ⟨.fermat 5, monomialBasisFull 4 2⟩ (1 : Matrix _ _ ℂ) [] Z *
      scalarAt (n := 3) ⟨.fermat 5, monomialBasisFull 4 2⟩ (1 : Matrix _ _ ℂ) [] Z ∂cyMeasure 0 0 (∑ j, X j ^ 5) = 0 := by
  have hF := (C114_fermat (m := 4) (.vec [])).1
  have hsm := (C114_fermat (m := 4) (.vec [])).2
  refine ⟨?_, ?_⟩
  · rw [(C153_volume (n := 3) (A := ⟨.fermat 5, monomialBasisFull 4 2⟩) hsm (by norm_num) 0 0 (.fermat 4) hF (C105_sections _ 2).1
      two_ne_zero _ Matrix.PosDef.one).2]
    norm_num [Nat.factorial]
  · exact (C153_scalar (n := 3) (A := ⟨.fermat 5, monomialBasisFull 4 2⟩) hsm (by norm_num) 0 0 (.fermat 4) hF (C105_sections _ 2).1
      two_ne_zero _ Matrix.PosDef.one).2.2

end Cyjax
