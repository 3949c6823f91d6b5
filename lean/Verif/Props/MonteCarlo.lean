import Verif.Lemmas.MonteCarlo
import Verif.Spec.MonteCarlo
import Verif.Props.Smooth

/-! # C130, C131: what the Monte Carlo estimates estimate -/

namespace Cyjax

open MeasureTheory ProbabilityTheory MvPolynomial Cyjax.Spec Cyjax.Polynomial Cyjax.Variety Set
open scoped ENNReal

variable {n e : ℕ} {F : MvPolynomial (Fin (n + 2)) ℂ}

theorem getD_ofFn' {m : ℕ} (Z : Fin m → ℂ) : (fun i : Fin m => (List.ofFn Z).getD i 0) = Z := by
  funext i
  simp [List.getD_eq_getElem?_getD]

theorem weightedMean_eq (f w : (Fin (n + 2) → ℂ) → ℝ) (Zs : List (Fin (n + 2) → ℂ)) :
    weightedMean f (.ok (.homWeights (Zs.map List.ofFn) (Zs.map w))) = (Zs.map fun Z => f Z * w Z).sum / Zs.length := by
  simp only [weightedMean, List.length_map]
  congr 2
  rw [List.zip_map', List.map_map]
  refine List.map_congr_left fun Z _ => ?_
  simp only [Function.comp_apply, getD_ofFn']

theorem plainMean_eq (f : (Fin (n + 2) → ℂ) → ℝ) (Zs : List (Fin (n + 2) → ℂ)) :
    plainMean f (.ok (.hom (Zs.map List.ofFn))) = (Zs.map f).sum / Zs.length := by
  simp only [plainMean, List.length_map, List.map_map]
  congr 2
  refine List.map_congr_left fun Z _ => ?_
  simp only [Function.comp_apply, getD_ofFn']

theorem sampleCount_dvd {count m : ℕ} (hm : m ≠ 0) (h : m ∣ count) : sampleCount count m * m = count := by
  obtain ⟨k, rfl⟩ := h
  have h1 := sampleCount_mul (m * k) m (Nat.pos_of_ne_zero hm)
  refine le_antisymm ?_ h1.1
  by_contra hlt
  have hk : k < sampleCount (m * k) m := by
    by_contra hk
    exact hlt ((Nat.mul_le_mul_right m (not_lt.1 hk)).trans (mul_comm k m).le)
  have := h1.2 k hk
  rw [mul_comm] at this
  exact lt_irrefl _ this

theorem sum_list_range (b : ℕ) (g : ℕ → ℝ) : ((List.range b).map g).sum = ∑ i ∈ Finset.range b, g i := by
  rw [← Multiset.sum_coe]
  rfl

section Sample

variable {V : HomKind} {ps : List ℂ} {o : SymOrder} (ho : o.Valid) {roots : List ℂ → List ℂ} (hr : CompleteRoots roots)
  (hsm : SmoothHypersurface F) (hn : n ≠ 0) (p : Fin (n + 2)) (d : Fin (n + 1))
  {Ω : Type*} [MeasurableSpace Ω] {P : Measure Ω}

section FS

variable (hS : Samplable V (n + 1) e ps) (hF : Hypersurface V (.vec ps) (n + 1) e F) (he : 2 ≤ e)

include ho hr hsm hn hS hF he

/-- **C131.** The points returned by `sample_intersect` are distributed according to the metric induced by the Fubini–Study
metric: the expected mean of a function over the sample is its average for the measure `n!/π^n det g`, whose total mass is
the degree of the hypersurface. All points of the lines must be returned, that is the number of points is not cut. -/
theorem C131_points (count : ℕ) (hc : count ≠ 0) (hcut : sampleCount count (n + 2) * e ≤ count)
    {X : Ω → Fin 2 → Fin (sampleCount count (n + 2)) → Fin (2 * (n + 2)) → ℝ}
    (hX : HasLaw X (normalsLaw (n + 2) (sampleCount count (n + 2))) P)
    {f : (Fin (n + 2) → ℂ) → ℝ} (hf : Measurable f) (hinv : ∀ c : ℂ, c ≠ 0 → ∀ Z, f (c • Z) = f Z)
    (hint : Integrable f (fsMeasure p d F)) :
    fsMeasure p d F univ = e ∧
    Integrable (fun ω => plainMean f (sampleIntersectOpt n V o roots ps count (asLists (lineDraws (X ω))) false false)) P ∧
    ∫ ω, plainMean f (sampleIntersectOpt n V o roots ps count (asLists (lineDraws (X ω))) false false) ∂P =
      (∫ Z, f Z ∂fsMeasure p d F) / e := by
  have hom := hF.homogeneous
  have he0 : e ≠ 0 := by omega
  have hirr := smooth_irreducible (by omega) hom he0 hsm
  have hd := smooth_pderiv_ne_zero hom he hsm (p.succAbove d)
  have hL0 : sampleCount count (n + 2) ≠ 0 := fun h0 => by
    have := (sampleCount_mul count (n + 2) (by omega)).1
    rw [h0, zero_mul] at this
    omega
  obtain ⟨pts, hpts⟩ := sample_sums hS hF hsm hirr ho hr he0 (sampleCount count (n + 2))
  obtain ⟨h1, h2⟩ := realSum_integral p d hirr hom he0 hd hf hinv hint
  obtain ⟨h3, h4⟩ := lines_integral hX h1
  have hae : ∀ᵐ ω ∂P, plainMean f (sampleIntersectOpt n V o roots ps count (asLists (lineDraws (X ω))) false false) =
      (∑ j, realSum F f (rawLines (X ω) j)) / (sampleCount count (n + 2) * e : ℕ) := by
    rw [← hX.map_eq] at hpts
    filter_upwards [ae_of_ae_map hX.aemeasurable hpts] with ω hω
    obtain ⟨g1, -, g3, g4⟩ := hω
    rw [(g3 count).1, plainMean_eq, List.take_of_length_le (g1.trans_le hcut), g1, g4 f hinv]
  refine ⟨fs_mass hS hF hsm hirr p d he0 hd, (integrable_congr hae).2 (h3.div_const _), ?_⟩
  rw [integral_congr_ae hae, integral_div, h4, h2, Nat.cast_mul]
  have : (sampleCount count (n + 2) : ℝ) ≠ 0 := by exact_mod_cast hL0
  have : (e : ℝ) ≠ 0 := by exact_mod_cast he0
  field_simp

end FS

section CY

variable (hS : Samplable V (n + 1) (n + 2) ps) (hF : Hypersurface V (.vec ps) (n + 1) (n + 2) F)

include hsm hn hS hF

/-- **C130.** The measure of the holomorphic volume form does not depend on the patch and the dependent coordinate. Its
total mass is finite and positive. -/
theorem C130_measure :
    cyMeasure p d F univ ≠ ∞ ∧ cyMeasure p d F univ ≠ 0 ∧
    ∀ (p' : Fin (n + 2)) (d' : Fin (n + 1)) (φ : (Fin (n + 2) → ℂ) → ℝ≥0∞), Measurable φ →
      (∀ c : ℂ, c ≠ 0 → ∀ Z, φ (c • Z) = φ Z) → ∫⁻ Z, φ Z ∂cyMeasure p d F = ∫⁻ Z, φ Z ∂cyMeasure p' d' F := by
  have hom := hF.homogeneous
  have he0 : n + 2 ≠ 0 := by omega
  have hirr := smooth_irreducible (by omega) hom he0 hsm
  have hd := fun i => smooth_pderiv_ne_zero hom (by omega) hsm i
  have hmass := fs_mass hS hF hsm hirr p d he0 (hd _)
  obtain ⟨h1, h2⟩ := cy_finite hom hsm p d (by rw [hmass]; exact ENNReal.natCast_ne_top _)
    (by rw [hmass]; exact_mod_cast he0)
  refine ⟨h1, h2, fun p' d' φ hφ hinv => ?_⟩
  have hm : Measurable fun Z : Fin (n + 2) → ℂ => ENNReal.ofReal (pointWeight (n + 2) F Z) :=
    (measurable_pointWeight _).ennreal_ofReal
  rw [cyMeasure_withDensity p d hom, cyMeasure_withDensity p' d' hom, lintegral_withDensity_eq_lintegral_mul _ hm hφ,
    lintegral_withDensity_eq_lintegral_mul _ hm hφ]
  have hinv' : ∀ c : ℂ, c ≠ 0 → ∀ Z, ((fun Z : Fin (n + 2) → ℂ => ENNReal.ofReal (pointWeight (n + 2) F Z)) * φ) (c • Z) =
      ((fun Z : Fin (n + 2) → ℂ => ENNReal.ofReal (pointWeight (n + 2) F Z)) * φ) Z := by
    intro c hc Z
    simp only [Pi.mul_apply, pointWeight_smul hom c hc Z, hinv c hc Z]
  rw [← simpleSum_fs p d hirr hom he0 (hd _) (hm.mul hφ) hinv', ← simpleSum_fs p' d' hirr hom he0 (hd _) (hm.mul hφ) hinv']

include ho hr

/-- **C130 (partial).** The Monte Carlo estimate `1/N · ∑ f(z) w(z)` with the points and weights of `sample_intersect` has
the expectation `∫ f |Ω|² / (n + 2)`, for any number of points that is a multiple of `n + 2`. It is documented as an
estimate of `∫ f |Ω|²`, see `C130_violated`. (For other numbers the last line is cut, and the expectation depends on the
order in which the numerical solver returns the roots; the error is bounded in C132.) -/
theorem C130_mean_partial (count : ℕ) (hc : count ≠ 0) (hdvd : (n + 2) ∣ count)
    {X : Ω → Fin 2 → Fin (sampleCount count (n + 2)) → Fin (2 * (n + 2)) → ℝ}
    (hX : HasLaw X (normalsLaw (n + 2) (sampleCount count (n + 2))) P)
    {f : (Fin (n + 2) → ℂ) → ℝ} (hf : Measurable f) (hinv : ∀ c : ℂ, c ≠ 0 → ∀ Z, f (c • Z) = f Z)
    (hint : Integrable f (cyMeasure p d F)) :
    Integrable (fun ω => weightedMean f (sampleIntersectOpt n V o roots ps count (asLists (lineDraws (X ω))) false true)) P ∧
    ∫ ω, weightedMean f (sampleIntersectOpt n V o roots ps count (asLists (lineDraws (X ω))) false true) ∂P =
      (∫ Z, f Z ∂cyMeasure p d F) / (n + 2) := by
  have hom := hF.homogeneous
  have he0 : n + 2 ≠ 0 := by omega
  have hirr := smooth_irreducible (by omega) hom he0 hsm
  have hd := smooth_pderiv_ne_zero hom (by omega) hsm (p.succAbove d)
  have hcount := sampleCount_dvd he0 hdvd
  have hL0 : sampleCount count (n + 2) ≠ 0 := fun h0 => by
    rw [h0, zero_mul] at hcount
    exact hc hcount.symm
  obtain ⟨pts, hpts⟩ := sample_sums hS hF hsm hirr ho hr he0 (sampleCount count (n + 2))
  have hinv' : ∀ c : ℂ, c ≠ 0 → ∀ Z, f (c • Z) * pointWeight (n + 2) F (c • Z) = f Z * pointWeight (n + 2) F Z := by
    intro c hc Z
    rw [pointWeight_smul hom c hc Z, hinv c hc Z]
  obtain ⟨h1, h2⟩ := realSum_integral p d hirr hom he0 hd (hf.mul (measurable_pointWeight (F := F) (n + 2))) hinv'
    ((cy_integral hom p d f).1.1 hint)
  obtain ⟨h3, h4⟩ := lines_integral hX h1
  have hae : ∀ᵐ ω ∂P, weightedMean f (sampleIntersectOpt n V o roots ps count (asLists (lineDraws (X ω))) false true) =
      (∑ j, realSum F (f * pointWeight (n + 2) F) (rawLines (X ω) j)) / (sampleCount count (n + 2) * (n + 2) : ℕ) := by
    rw [← hX.map_eq] at hpts
    filter_upwards [ae_of_ae_map hX.aemeasurable hpts] with ω hω
    obtain ⟨g1, -, g3, g4⟩ := hω
    rw [(g3 count).2.1, weightedMean_eq, List.take_of_length_le (g1.trans_le hcount.le), g1, ← g4 _ hinv']
    rfl
  refine ⟨(integrable_congr hae).2 (h3.div_const _), ?_⟩
  rw [integral_congr_ae hae, integral_div, h4, h2, (cy_integral hom p d f).2, Nat.cast_mul]
  have : (sampleCount count (n + 2) : ℝ) ≠ 0 := by exact_mod_cast hL0
  push_cast
  field_simp
  rfl

/-- The result of `compute_vol` as sums over lines. -/
theorem vol_sums {Key : Type*} (split : Key → Key × Key) (key : Key) (b bs : ℕ) (hb : b ≠ 0) (hbs : bs ≠ 0)
    (hdvd : (n + 2) ∣ bs) (X : Key → Ω → Fin 2 → Fin (sampleCount bs (n + 2)) → Fin (2 * (n + 2)) → ℝ)
    (hX : ∀ i < b, HasLaw (X (batchKey split key i)) (normalsLaw (n + 2) (sampleCount bs (n + 2))) P) :
    ∀ᵐ ω ∂P,
      let T := fun (g : (Fin (n + 2) → ℂ) → ℝ) (i : ℕ) => ∑ j, realSum F g (rawLines (X (batchKey split key i) ω) j)
      let m := (∑ i ∈ Finset.range b, T (pointWeight (n + 2) F) i) / (b * bs : ℕ)
      computeVol n V o roots ps split (fun k => asLists (lineDraws (X k ω))) key b bs =
        .ok (m, ((∑ i ∈ Finset.range b, T (fun Z => pointWeight (n + 2) F Z ^ 2) i) / (b * bs : ℕ) - m ^ 2) / (b * bs : ℕ)) := by
  have hom := hF.homogeneous
  have he0 : n + 2 ≠ 0 := by omega
  have hirr := smooth_irreducible (by omega) hom he0 hsm
  have hcount := sampleCount_dvd he0 hdvd
  obtain ⟨pts, hpts⟩ := sample_sums hS hF hsm hirr ho hr he0 (sampleCount bs (n + 2))
  have had := ae_admissible (count := sampleCount bs (n + 2)) F (smooth_ne_zero hsm) hom
  have hall : ∀ᵐ ω ∂P, ∀ i : Fin b, (∀ y ∈ lineDraws (X (batchKey split key i) ω), Admissible F y) ∧
      (pts (X (batchKey split key i) ω)).length = bs ∧
      sampleIntersectOpt n V o roots ps bs (asLists (lineDraws (X (batchKey split key i) ω))) false true =
        .ok (.homWeights ((pts (X (batchKey split key i) ω)).map List.ofFn)
          ((pts (X (batchKey split key i) ω)).map (pointWeight (n + 2) F))) ∧
      ∀ g : (Fin (n + 2) → ℂ) → ℝ, (∀ c : ℂ, c ≠ 0 → ∀ Z, g (c • Z) = g Z) →
        ((pts (X (batchKey split key i) ω)).map g).sum = ∑ j, realSum F g (rawLines (X (batchKey split key i) ω) j) := by
    rw [ae_all_iff]
    intro i
    rw [← (hX i i.2).map_eq] at had hpts
    filter_upwards [ae_of_ae_map (hX i i.2).aemeasurable had, ae_of_ae_map (hX i i.2).aemeasurable hpts] with ω h1 h2
    obtain ⟨g1, -, g3, g4⟩ := h2
    rw [hcount] at g1
    have g5 := (g3 bs).2.1
    rw [List.take_of_length_le g1.le] at g5
    exact ⟨h1.2, g1, g5, g4⟩
  filter_upwards [hall] with ω hω
  obtain ⟨Zs, h1, -, h2, -⟩ := C111_vol hS hF hsm ho hr.exact split key b bs hb hbs (fun k => lineDraws (X k ω))
    (fun i hi => (hω ⟨i, hi⟩).1) (fun i hi => by rw [lineDraws, List.length_ofFn, hcount])
  have hZ : ∀ i < b, Zs (batchKey split key i) = pts (X (batchKey split key i) ω) := fun i hi => by
    have e1 := (h1 i hi).1.symm.trans (hω ⟨i, hi⟩).2.2.1
    injection e1 with e1
    injection e1 with e1 _
    exact List.map_injective_iff.2 List.ofFn_injective e1
  have hsum : ∀ g : (Fin (n + 2) → ℂ) → ℝ, (∀ c : ℂ, c ≠ 0 → ∀ Z, g (c • Z) = g Z) →
      (((List.range b).flatMap fun i => Zs (batchKey split key i)).map g).sum =
        ∑ i ∈ Finset.range b, ∑ j, realSum F g (rawLines (X (batchKey split key i) ω) j) := by
    intro g hg
    rw [List.map_flatMap, sum_flatMap', sum_list_range]
    refine Finset.sum_congr rfl fun i hi => ?_
    rw [hZ i (Finset.mem_range.1 hi), (hω ⟨i, Finset.mem_range.1 hi⟩).2.2.2 g hg]
  rw [h2]
  simp only [hsum _ (pointWeight_smul hom), hsum (fun Z => pointWeight (n + 2) F Z ^ 2) fun c hc Z => by
    rw [pointWeight_smul hom c hc]]

/-- **C130 (partial).** The volume returned by `compute_vol` has the expectation `∫ |Ω|² / (n + 2)`, for any number of
batches and any batch size that is a multiple of `n + 2`. -/
theorem C130_volume_partial {Key : Type*} (split : Key → Key × Key) (key : Key) (b bs : ℕ) (hb : b ≠ 0) (hbs : bs ≠ 0)
    (hdvd : (n + 2) ∣ bs) (X : Key → Ω → Fin 2 → Fin (sampleCount bs (n + 2)) → Fin (2 * (n + 2)) → ℝ)
    (hX : ∀ i < b, HasLaw (X (batchKey split key i)) (normalsLaw (n + 2) (sampleCount bs (n + 2))) P) :
    Integrable (fun ω => volMean (computeVol n V o roots ps split (fun k => asLists (lineDraws (X k ω))) key b bs)) P ∧
    ∫ ω, volMean (computeVol n V o roots ps split (fun k => asLists (lineDraws (X k ω))) key b bs) ∂P =
      (cyMeasure p d F univ).toReal / (n + 2) := by
  have hom := hF.homogeneous
  have he0 : n + 2 ≠ 0 := by omega
  have hirr := smooth_irreducible (by omega) hom he0 hsm
  have hd := smooth_pderiv_ne_zero hom (by omega) hsm (p.succAbove d)
  have hcount := sampleCount_dvd he0 hdvd
  have hfin : IsFiniteMeasure (cyMeasure p d F) := ⟨(C130_measure hsm hn p d hS hF).1.lt_top⟩
  have hw := (cy_integral hom p d fun _ => 1).1.1 (integrable_const 1)
  simp only [one_mul] at hw
  obtain ⟨h1, h2⟩ := realSum_integral p d hirr hom he0 hd (measurable_pointWeight (F := F) (n + 2)) (pointWeight_smul hom) hw
  have hae : ∀ᵐ ω ∂P, volMean (computeVol n V o roots ps split (fun k => asLists (lineDraws (X k ω))) key b bs) =
      (∑ i ∈ Finset.range b, ∑ j, realSum F (pointWeight (n + 2) F) (rawLines (X (batchKey split key i) ω) j)) /
        (b * bs : ℕ) := by
    filter_upwards [vol_sums ho hr hsm hn hS hF split key b bs hb hbs hdvd X hX] with ω hω
    rw [hω]
    rfl
  have hi : ∀ i ∈ Finset.range b, Integrable (fun ω => ∑ j, realSum F (pointWeight (n + 2) F)
      (rawLines (X (batchKey split key i) ω) j)) P := fun i hi => (lines_integral (hX i (Finset.mem_range.1 hi)) h1).1
  refine ⟨(integrable_congr hae).2 ((integrable_finsetSum _ hi).div_const _), ?_⟩
  rw [integral_congr_ae hae, integral_div, integral_finsetSum _ hi,
    Finset.sum_congr rfl fun i hi => (lines_integral (hX i (Finset.mem_range.1 hi)) h1).2, h2, Finset.sum_const,
    Finset.card_range, nsmul_eq_mul]
  have hvol := (cy_integral hom p d fun _ => 1).2
  simp only [one_mul, integral_const, smul_eq_mul, mul_one] at hvol
  have hbsR : (bs : ℝ) = sampleCount bs (n + 2) * (n + 2) := by exact_mod_cast hcount.symm
  rw [← hvol, Measure.real, Nat.cast_mul, hbsR]
  have : (b : ℝ) ≠ 0 := by exact_mod_cast hb
  have : (sampleCount bs (n + 2) : ℝ) ≠ 0 := by
    intro h0
    have h0 : sampleCount bs (n + 2) = 0 := by exact_mod_cast h0
    rw [h0, zero_mul] at hcount
    exact hbs hcount.symm
  field_simp

/-- **C130, violated.** The documentation calls the result of `compute_vol` the volume, and `1/N · ∑ w(z)` an estimate of
the volume. It never is: its expectation is too small by the factor `n + 2`. -/
theorem C130_violated {Key : Type*} (split : Key → Key × Key) (key : Key) (b bs : ℕ) (hb : b ≠ 0) (hbs : bs ≠ 0)
    (hdvd : (n + 2) ∣ bs) (X : Key → Ω → Fin 2 → Fin (sampleCount bs (n + 2)) → Fin (2 * (n + 2)) → ℝ)
    (hX : ∀ i < b, HasLaw (X (batchKey split key i)) (normalsLaw (n + 2) (sampleCount bs (n + 2))) P) :
    ∫ ω, volMean (computeVol n V o roots ps split (fun k => asLists (lineDraws (X k ω))) key b bs) ∂P <
      (cyMeasure p d F univ).toReal := by
  obtain ⟨h1, h2, -⟩ := C130_measure hsm hn p d hS hF
  rw [(C130_volume_partial ho hr hsm hn p d hS hF split key b bs hb hbs hdvd X hX).2]
  exact div_lt_self (ENNReal.toReal_pos h2 h1) (by
    have : (0 : ℝ) ≤ n := n.cast_nonneg
    linarith)

end CY

end Sample

/-- The hypotheses of C130 and C131 can be met: the Dwork quintic with `psi = 2`. The default of 200 batches of 2000 points
estimates a fifth of the volume. -/
example : ∃ F, Samplable (.dwork 5 (.flag true)) 4 5 [2] ∧ Hypersurface (.dwork 5 (.flag true)) (.vec [2]) 4 5 F ∧
    SmoothHypersurface F ∧ (3 + 2) ∣ 2000 ∧ sampleCount 2000 5 * 5 ≤ 2000 ∧
    ∫ x, volMean (computeVol 3 (.dwork 5 (.flag true)) someOrder someRoots [2] (fun k : Unit => (k, k))
      (fun _ => asLists (lineDraws x)) () 200 2000) ∂normalsLaw 5 (sampleCount 2000 5) =
      (cyMeasure (n := 3) 0 0 F univ).toReal / 5 := by
  obtain ⟨F, hF, hsm⟩ := C114_quintic 2 []
  have hs := hsm.2 (by norm_num)
  have hS : Samplable (.dwork 5 (.flag true)) 4 5 [2] := .dwork 4 (.flag true) (by simp [DworkFactor.value]) 2
  refine ⟨F, hS, hF, hs, by norm_num, by unfold sampleCount; norm_num, ?_⟩
  have := (C130_volume_partial someOrder_valid someRoots_complete hs (by norm_num) 0 0 hS hF (fun k : Unit => (k, k)) () 200 2000
    (by norm_num) (by norm_num) (by norm_num) (fun _ x => x) (P := normalsLaw 5 (sampleCount 2000 5))
    fun i _ => HasLaw.id).2
  rw [this]
  norm_num

end Cyjax
