import Verif.Lemmas.StepNormal
import Verif.Lemmas.VolVariance
import Verif.Props.DonaldsonLimit

/-! # C189: fluctuations of `donaldson_step` -/

namespace Cyjax

open MeasureTheory ProbabilityTheory MvPolynomial Cyjax.Spec Cyjax.Polynomial Cyjax.Variety Cyjax.Donaldson Set Filter
  Topology
open scoped ENNReal NNReal ComplexOrder ComplexConjugate

variable {n : ℕ} {F : MvPolynomial (Fin (n + 2)) ℂ} {A : AlgebraicMetric (n + 1)} {ps : List ℂ} {o : SymOrder}
  (ho : o.Valid) {roots : List ℂ → List ℂ} (hr : CompleteRoots roots) (hsm : SmoothHypersurface F) (hn : n ≠ 0)
  (p : Fin (n + 2)) (d : Fin (n + 1)) (hS : Samplable A.variety (n + 1) (n + 2) ps)
  (hF : Hypersurface A.variety (.vec ps) (n + 1) (n + 2) F) (hB : IsBasisModulo F A.sections.degree A.sections.rows)
  (h : A.H) (hh : h.PosDef)

section Parts

/-- The real and imaginary parts of the integrands of the T operator, times the weights. -/
private noncomputable def partFun (F : MvPolynomial (Fin (n + 2)) ℂ) (A : AlgebraicMetric (n + 1)) (h : A.H)
    (j : Fin A.sections.size × Fin A.sections.size × Bool) (Z : Fin (n + 2) → ℂ) : ℝ :=
  (if j.2.2 then (tFun (sec A) h j.1 j.2.1 Z).re else (tFun (sec A) h j.1 j.2.1 Z).im) * pointWeight (n + 2) F Z

private theorem partFun_true (a c : Fin A.sections.size) :
    partFun F A h (a, c, true) = fun Z => (tFun (sec A) h a c Z).re * pointWeight (n + 2) F Z := rfl

private theorem partFun_false (a c : Fin A.sections.size) :
    partFun F A h (a, c, false) = fun Z => (tFun (sec A) h a c Z).im * pointWeight (n + 2) F Z := rfl

private theorem parts_entry (Z : Fin (n + 2) → ℂ) (a c : Fin A.sections.size) :
    entryMatrix A.sections.size (fun j => partFun F A h j Z) a c = tFun (sec A) h a c Z * pointWeight (n + 2) F Z := by
  rw [entryMatrix_apply, partFun_true, partFun_false]
  conv_rhs => rw [← Complex.re_add_im (tFun (sec A) h a c Z)]
  push_cast
  ring

/-- A linear function of the sums of the parts, as a sum over the points. -/
private theorem parts_sum (r : ℝ) (Q : Matrix (Fin A.sections.size) (Fin A.sections.size) ℂ) (Zs : List (Fin (n + 2) → ℂ)) :
    (∑ a, ∑ c, Q a c * ((r : ℂ) • entryMatrix A.sections.size fun j => (Zs.map (partFun F A h j)).sum) a c).re =
      (Zs.map fun Z => r * ((∑ a, ∑ c, Q a c * (eval Z (sec A a) * conj (eval Z (sec A c)))) /
        ∑ c, ∑ d, eval Z (sec A c) * h c d * conj (eval Z (sec A d))).re * pointWeight (n + 2) F Z).sum := by
  induction Zs with
  | nil =>
    have e : (fun j => (([] : List (Fin (n + 2) → ℂ)).map (partFun F A h j)).sum) = 0 := rfl
    rw [e, map_zero, smul_zero]
    simp
  | cons Z Zs ih =>
    have e : (fun j => ((Z :: Zs).map (partFun F A h j)).sum) =
        (fun j => partFun F A h j Z) + fun j => (Zs.map (partFun F A h j)).sum := by
      funext j
      simp
    rw [e, map_add, smul_add]
    simp only [Matrix.add_apply, mul_add, Finset.sum_add_distrib, Complex.add_re, List.map_cons, List.sum_cons]
    rw [ih]
    congr 1
    have e2 : ∑ a, ∑ c, Q a c * ((r : ℂ) • entryMatrix A.sections.size fun j => partFun F A h j Z) a c =
        ((r * pointWeight (n + 2) F Z : ℝ) : ℂ) * ((∑ a, ∑ c, Q a c * (eval Z (sec A a) * conj (eval Z (sec A c)))) /
          ∑ c, ∑ d, eval Z (sec A c) * h c d * conj (eval Z (sec A d))) := by
      rw [Finset.sum_div, Finset.mul_sum]
      refine Finset.sum_congr rfl fun a _ => ?_
      rw [Finset.sum_div, Finset.mul_sum]
      refine Finset.sum_congr rfl fun c _ => ?_
      rw [Matrix.smul_apply, parts_entry, smul_eq_mul]
      unfold tFun psiAt
      push_cast
      ring
    rw [e2, Complex.re_ofReal_mul]
    ring

private theorem re_sum_list {α : Type*} (l : List α) (f g : α → ℝ) :
    ((l.map f).sum : ℂ) + ((l.map g).sum : ℂ) * Complex.I = (l.map fun Z => ((f Z : ℂ) + (g Z : ℂ) * Complex.I)).sum := by
  induction l with
  | nil => simp
  | cons x l ih =>
    simp only [List.map_cons, List.sum_cons, ← ih]
    push_cast
    ring

/-- The T operator from the sums of the parts. -/
private theorem tOperator_parts (vol : ℝ) (Zs : List (Fin (n + 2) → ℂ)) :
    tOperator (sec A) h vol (pointWeight (n + 2) F) Zs =
      ((A.sections.size : ℂ) / vol) • entryMatrix A.sections.size fun j => (Zs.map (partFun F A h j)).sum / Zs.length := by
  ext a c
  rw [Matrix.smul_apply, entryMatrix_apply, smul_eq_mul]
  unfold tOperator
  rw [Matrix.of_apply]
  congr 1
  have e1 : ∀ Z, eval Z (sec A a) * conj (eval Z (sec A c)) * pointWeight (n + 2) F Z /
      ∑ c, ∑ d, eval Z (sec A c) * h c d * conj (eval Z (sec A d)) =
      ((partFun F A h (a, c, true) Z : ℝ) : ℂ) + ((partFun F A h (a, c, false) Z : ℝ) : ℂ) * Complex.I := by
    intro Z
    have e3 := parts_entry (F := F) h Z a c
    rw [entryMatrix_apply] at e3
    rw [e3]
    unfold tFun psiAt
    ring
  rw [List.map_congr_left fun Z _ => e1 Z, ← re_sum_list]
  push_cast
  ring

private theorem sec_hom' (hB : IsBasisModulo F A.sections.degree A.sections.rows) (a : Fin A.sections.size) :
    (sec A a).IsHomogeneous A.sections.degree := by
  rw [← hB.1 _ (List.get_mem A.sections.rows a)]
  exact mono_homogeneous _

include hF hB in
private theorem parts_inv (j : Fin A.sections.size × Fin A.sections.size × Bool) (c : ℂ) (hc : c ≠ 0) (Z : Fin (n + 2) → ℂ) :
    partFun F A h j (c • Z) = partFun F A h j Z := by
  simp only [partFun]
  rw [tFun_smul (sec A) (sec_hom' hB) h _ _ c hc, pointWeight_smul hF.homogeneous c hc]

private theorem parts_measurable (j : Fin A.sections.size × Fin A.sections.size × Bool) : Measurable (partFun F A h j) := by
  have gm : ∀ a b, Measurable (tFun (sec A) h a b) := measurable_tFun (sec A) h
  have hwm : Measurable (pointWeight (n + 2) F) := measurable_pointWeight (F := F) (n + 2)
  obtain ⟨a, c, _ | _⟩ := j
  · rw [partFun_false]
    exact (Complex.measurable_im.comp (gm a c)).mul hwm
  · rw [partFun_true]
    exact (Complex.measurable_re.comp (gm a c)).mul hwm

include hsm hn hS hF hB hh

/-- The sums of the parts over a line: their moments, and the limit of the step in terms of their means. -/
private theorem parts_line : ∃ m : Fin A.sections.size × Fin A.sections.size × Bool → ℝ,
    (∀ j, MemLp (realSum F (partFun F A h j)) 2 (lineLaw (n + 2))) ∧
    (∀ j, ∫ x, realSum F (partFun F A h j) x ∂lineLaw (n + 2) = (n + 2) * m j) ∧
    ∀ vol : ℝ, 0 < vol → (((A.sections.size : ℂ) / vol) • entryMatrix A.sections.size m).det ≠ 0 ∧
      (((A.sections.size : ℂ) / vol) • entryMatrix A.sections.size m)⁻¹.transpose =
        ((vol * (n + 2) / (cyMeasure p d F univ).toReal : ℝ) : ℂ) • (tIntegral (sec A) h (cyMeasure p d F))⁻¹.transpose := by
  have hom := hF.homogeneous
  have he0 : n + 2 ≠ 0 := by omega
  have hirr := smooth_irreducible (by omega) hom he0 hsm
  have hd := smooth_pderiv_ne_zero hom (by omega) hsm (p.succAbove d)
  obtain ⟨hint0, hpd⟩ := C134_operator hsm hn p d hS hF hB h hh
  have hint : ∀ a b, Integrable (tFun (sec A) h a b) (cyMeasure p d F) := hint0
  obtain ⟨hfin0, hne0, -⟩ := C130_measure hsm hn p d hS hF
  obtain ⟨V, hV⟩ : ∃ V, V = (cyMeasure p d F univ).toReal := ⟨_, rfl⟩
  have hV0 : 0 < V := hV ▸ ENNReal.toReal_pos hne0 hfin0
  have hn2 : (0 : ℝ) < n + 2 := by positivity
  have sne : ∀ Z : Fin (n + 2) → ℂ, Z ≠ 0 → eval Z F = 0 → ∃ a, eval Z (sec A a) ≠ 0 :=
    spans_ne (hB := ⟨hB.1, fun f hf => (hB.2 f hf).exists⟩)
  obtain ⟨W, -, hW⟩ := pointWeight_bounded hom hsm
  have pm := parts_measurable (F := F) h
  have pinv := parts_inv hF hB h
  have pb : ∀ j, ∃ K, ∀ Z, Z ≠ 0 → eval Z F = 0 → |partFun F A h j Z| ≤ K := by
    rintro ⟨a, c, t⟩
    obtain ⟨B, hB'⟩ := tFun_bounded (sec A) (sec_hom' hB) h hh sne hom a c
    refine ⟨B * W, fun Z hZ h0 => ?_⟩
    have hw0 : 0 < pointWeight (n + 2) F Z := pointWeight_pos (e := n + 2) Z hZ (hsm Z hZ h0)
    simp only [partFun]
    rw [abs_mul, abs_of_pos hw0]
    refine mul_le_mul ?_ (hW Z hZ h0) hw0.le ((norm_nonneg _).trans (hB' Z hZ h0))
    cases t
    · exact (Complex.abs_im_le_norm _).trans (hB' Z hZ h0)
    · exact (Complex.abs_re_le_norm _).trans (hB' Z hZ h0)
  obtain ⟨m, hm⟩ : ∃ m : Fin A.sections.size × Fin A.sections.size × Bool → ℝ, m = fun j : Fin A.sections.size × Fin A.sections.size × Bool =>
    (if j.2.2 then (∫ Z, tFun (sec A) h j.1 j.2.1 Z ∂cyMeasure p d F).re else (∫ Z, tFun (sec A) h j.1 j.2.1 Z ∂cyMeasure p d F).im) /
      (n + 2) := ⟨_, rfl⟩
  have pint : ∀ j, Integrable (realSum F (partFun F A h j)) (lineLaw (n + 2)) ∧
      ∫ x, realSum F (partFun F A h j) x ∂lineLaw (n + 2) = (n + 2) * m j := by
    rintro ⟨a, c, _ | _⟩
    · have i2 := cy_integral hom p d fun Z => (tFun (sec A) h a c Z).im
      obtain ⟨r1, r2⟩ := realSum_integral p d hirr hom he0 hd (f := partFun F A h (a, c, false)) (pm _) (pinv _)
        (i2.1.1 (hint a c).im)
      refine ⟨r1, r2.trans ?_⟩
      have e : ∫ Z, partFun F A h (a, c, false) Z ∂fsMeasure p d F = ∫ Z, (tFun (sec A) h a c Z).im ∂cyMeasure p d F :=
        i2.2.symm
      rw [e, hm]
      simp only [Bool.false_eq_true, if_false]
      have e4 : ∫ Z, (tFun (sec A) h a c Z).im ∂cyMeasure p d F = (∫ Z, tFun (sec A) h a c Z ∂cyMeasure p d F).im :=
        integral_im (hint a c)
      rw [e4]
      field_simp
    · have i2 := cy_integral hom p d fun Z => (tFun (sec A) h a c Z).re
      obtain ⟨r1, r2⟩ := realSum_integral p d hirr hom he0 hd (f := partFun F A h (a, c, true)) (pm _) (pinv _)
        (i2.1.1 (hint a c).re)
      refine ⟨r1, r2.trans ?_⟩
      have e : ∫ Z, partFun F A h (a, c, true) Z ∂fsMeasure p d F = ∫ Z, (tFun (sec A) h a c Z).re ∂cyMeasure p d F :=
        i2.2.symm
      rw [e, hm]
      simp only [if_true]
      have e4 : ∫ Z, (tFun (sec A) h a c Z).re ∂cyMeasure p d F = (∫ Z, tFun (sec A) h a c Z ∂cyMeasure p d F).re :=
        integral_re (hint a c)
      rw [e4]
      field_simp
  refine ⟨m, fun j => ?_, fun j => (pint j).2, fun vol hvol => ?_⟩
  · obtain ⟨K, hK⟩ := pb j
    exact MemLp.of_bound (measurable_realSum (pm j)).aestronglyMeasurable _
      (realSum_bound hS hF hsm hirr he0 (g := partFun F A h j) (K := K) hK)
  obtain ⟨κ, hκ⟩ : ∃ κ : ℂ, κ = (A.sections.size : ℂ) / vol := ⟨_, rfl⟩
  have hmat : κ • entryMatrix A.sections.size m = ((V / (vol * (n + 2)) : ℝ) : ℂ) • tIntegral (sec A) h (cyMeasure p d F) := by
    ext a c
    rw [Matrix.smul_apply, Matrix.smul_apply, entryMatrix_apply, tIntegral_apply, smul_eq_mul, smul_eq_mul, ← hV, hκ, hm]
    have hVc : (V : ℂ) ≠ 0 := by exact_mod_cast hV0.ne'
    have hvc : (vol : ℂ) ≠ 0 := by exact_mod_cast hvol.ne'
    have hnc : (n + 2 : ℂ) ≠ 0 := by exact_mod_cast hn2.ne'
    simp only [if_true, Bool.false_eq_true, if_false]
    conv_rhs => rw [← Complex.re_add_im (∫ Z, tFun (sec A) h a c Z ∂cyMeasure p d F)]
    push_cast
    field_simp
  have hκ' : ((V / (vol * (n + 2)) : ℝ) : ℂ) ≠ 0 := by exact_mod_cast (div_pos hV0 (mul_pos hvol hn2)).ne'
  have hdet : (κ • entryMatrix A.sections.size m).det ≠ 0 := by
    rw [hmat, Matrix.det_smul]
    exact mul_ne_zero (pow_ne_zero _ hκ') hpd.det_pos.ne'
  have hL : (κ • entryMatrix A.sections.size m)⁻¹.transpose =
      ((vol * (n + 2) / (cyMeasure p d F univ).toReal : ℝ) : ℂ) • (tIntegral (sec A) h (cyMeasure p d F))⁻¹.transpose := by
    let _ := invertibleOfNonzero hκ'
    rw [hmat, Matrix.inv_smul _ _ (isUnit_iff_ne_zero.2 hpd.det_pos.ne'), Matrix.transpose_smul, invOf_eq_inv,
      ← Complex.ofReal_inv, inv_div, hV]
  rw [← hκ]
  exact ⟨hdet, hL⟩

end Parts

variable {Ω : Type*} [MeasurableSpace Ω] {P : Measure Ω} [IsProbabilityMeasure P] (bs : ℕ) (hbs : bs ≠ 0)
  (hdvd : (n + 2) ∣ bs) (X : ℕ → Ω → Fin 2 → Fin (sampleCount bs (n + 2)) → Fin (2 * (n + 2)) → ℝ)
  (hX : ∀ i, HasLaw (X i) (normalsLaw (n + 2) (sampleCount bs (n + 2))) P) (hind : iIndepFun X P)

include ho hr hsm hn hS hF hB hh hbs hdvd hX

omit [IsProbabilityMeasure P] in
/-- Results of the code in terms of the sums of the parts over the batches. -/
private theorem step_parts : ∀ᵐ ω ∂P,
    (∀ (r : ℝ) (Q : Matrix (Fin A.sections.size) (Fin A.sections.size) ℂ), weightedMean (fun Z => r *
        ((∑ a, ∑ c, Q a c * (eval Z (sec A a) * conj (eval Z (sec A c)))) /
          ∑ c, ∑ d, eval Z (sec A c) * h c d * conj (eval Z (sec A d))).re)
        (sampleIntersectOpt n A.variety o roots ps bs (asLists (lineDraws (X 0 ω))) false true) =
      (∑ a, ∑ c, Q a c * ((r : ℂ) • entryMatrix A.sections.size fun j =>
        ∑ l, realSum F (partFun F A h j) (rawLines (X 0 ω) l)) a c).re / bs) ∧
    ∀ (vol : ℝ) (b : ℕ), matrixOrZero (A.donaldsonStep .complex h o roots ps vol bs
        (List.ofFn fun i : Fin (b + 1) => asLists (lineDraws (X i ω)))) =
      (((A.sections.size : ℂ) / vol) • entryMatrix A.sections.size fun j =>
        (∑ i ∈ Finset.range (b + 1), ∑ l, realSum F (partFun F A h j) (rawLines (X i ω) l)) / ((b + 1) * bs : ℕ))⁻¹.transpose := by
  have hom := hF.homogeneous
  have he0 : n + 2 ≠ 0 := by omega
  have hirr := smooth_irreducible (by omega) hom he0 hsm
  have hcount := sampleCount_dvd he0 hdvd
  have pinv := parts_inv hF hB h
  obtain ⟨pts, hpts⟩ := sample_sums hS hF hsm hirr ho hr he0 (sampleCount bs (n + 2))
  have had := ae_admissible (count := sampleCount bs (n + 2)) F (smooth_ne_zero hsm) hom
  have hall : ∀ᵐ ω ∂P, ∀ i : ℕ, (∀ y ∈ lineDraws (X i ω), Admissible F y) ∧ (pts (X i ω)).length = bs ∧
      sampleIntersectOpt n A.variety o roots ps bs (asLists (lineDraws (X i ω))) false true =
        .ok (.homWeights ((pts (X i ω)).map List.ofFn) ((pts (X i ω)).map (pointWeight (n + 2) F))) ∧
      ∀ g : (Fin (n + 2) → ℂ) → ℝ, (∀ c : ℂ, c ≠ 0 → ∀ Z, g (c • Z) = g Z) →
        ((pts (X i ω)).map g).sum = ∑ j, realSum F g (rawLines (X i ω) j) := by
    rw [ae_all_iff]
    intro i
    rw [← (hX i).map_eq] at had hpts
    filter_upwards [ae_of_ae_map (hX i).aemeasurable had, ae_of_ae_map (hX i).aemeasurable hpts] with ω h1 h2
    obtain ⟨g1, -, g3, g4⟩ := h2
    rw [hcount] at g1
    have g5 := (g3 bs).2.1
    rw [List.take_of_length_le g1.le] at g5
    exact ⟨h1.2, g1, g5, g4⟩
  filter_upwards [hall] with ω hp
  refine ⟨fun r Q => ?_, fun vol b => ?_⟩
  · obtain ⟨-, g2, g3, g4⟩ := hp 0
    rw [g3, weightedMean_eq, g2]
    congr 1
    have eT : (fun j => ∑ l, realSum F (partFun F A h j) (rawLines (X 0 ω) l)) =
        fun j => ((pts (X 0 ω)).map (partFun F A h j)).sum := funext fun j => (g4 _ (pinv j)).symm
    rw [eT, parts_sum]
  · have hmem : ∀ x ∈ (List.ofFn fun i : Fin (b + 1) => lineDraws (X i ω)), bs ≤ x.length * (n + 2) ∧ ∀ y ∈ x, Admissible F y := by
      intro x hx
      obtain ⟨i, rfl⟩ := List.mem_ofFn.1 hx
      refine ⟨?_, (hp i).1⟩
      rw [lineDraws, List.length_ofFn, hcount]
    obtain ⟨Zs, h1, h2⟩ := C112_step hS hF hsm ho hr.exact bs hB.1 _ hmem
    have hZ : ∀ i : Fin (b + 1), Zs (lineDraws (X i ω)) = pts (X i ω) := fun i => by
      have e1 := (h1 _ (List.mem_ofFn.2 ⟨i, rfl⟩)).1.symm.trans (hp i).2.2.1
      injection e1 with e1
      injection e1 with e1 _
      exact List.map_injective_iff.2 List.ofFn_injective e1
    have hlen : ((List.ofFn fun i : Fin (b + 1) => lineDraws (X i ω)).flatMap Zs).length = (b + 1) * bs := by
      rw [List.length_flatMap, List.map_ofFn, List.sum_ofFn]
      simp only [Function.comp_apply, hZ, (hp _).2.1, Finset.sum_const, Finset.card_univ, Fintype.card_fin, smul_eq_mul]
    have hres := (h2 h vol).2.1 hh.isHermitian
    rw [List.map_ofFn] at hres
    have hres' : A.donaldsonStep .complex h o roots ps vol bs (List.ofFn fun i : Fin (b + 1) => asLists (lineDraws (X i ω))) =
        .ok (tOperator (sec A) h vol (pointWeight (n + 2) F)
          ((List.ofFn fun i : Fin (b + 1) => lineDraws (X i ω)).flatMap Zs))⁻¹.transpose := hres
    rw [hres', tOperator_parts, hlen]
    have hY : (fun j => (((List.ofFn fun i : Fin (b + 1) => lineDraws (X i ω)).flatMap Zs).map (partFun F A h j)).sum /
        (((b + 1) * bs : ℕ) : ℝ)) = fun j => (∑ i ∈ Finset.range (b + 1), ∑ l, realSum F (partFun F A h j) (rawLines (X i ω) l)) /
          ((b + 1) * bs : ℕ) := by
      funext j
      congr 1
      rw [List.map_flatMap, sum_flatMap', List.map_ofFn, List.sum_ofFn, Finset.sum_range]
      refine Finset.sum_congr rfl fun i _ => ?_
      rw [Function.comp_apply, hZ, (hp i).2.2.2 _ (pinv j)]
    rw [hY]
    rfl

omit ho hr hsm hn hS hF hB hh hbs hdvd hX in
private theorem div_smul_inv {N : ℕ} (q u : ℂ) (C : Matrix (Fin N) (Fin N) ℂ) : ((q / u) • C)⁻¹ = u • (q • C)⁻¹ := by
  by_cases hu : u = 0
  · rw [hu, div_zero, zero_smul, zero_smul, Matrix.inv_zero]
  · rw [div_eq_inv_mul, mul_smul]
    generalize q • C = D
    by_cases hD : IsUnit D.det
    · let _ := invertibleOfNonzero (inv_ne_zero hu)
      rw [Matrix.inv_smul _ _ hD, invOf_eq_inv, inv_inv]
    · rw [Matrix.nonsing_inv_apply_not_isUnit _ hD, smul_zero, Matrix.nonsing_inv_apply_not_isUnit]
      rw [Matrix.det_smul, isUnit_iff_ne_zero] at *
      exact fun h0 => hD (right_ne_zero_of_mul h0)

omit ho hr hsm hn hS hF hB hh hbs hdvd hX in
private theorem trace_parts {N : ℕ} (L M C : Matrix (Fin N) (Fin N) ℂ) :
    (M * (L * C.transpose * L)).trace = ∑ a, ∑ c, (L * M * L) a c * C a c := by
  have e1 : (M * (L * C.transpose * L)).trace = (L * M * L * C.transpose).trace := by
    rw [← Matrix.mul_assoc M, Matrix.trace_mul_comm]
    simp only [Matrix.mul_assoc]
  rw [e1]
  rfl

omit ho hr hsm hn hS hF hB hh hbs hdvd hX [IsProbabilityMeasure P] in
private theorem measurable_sums : Measurable fun (x : Fin 2 → Fin (sampleCount bs (n + 2)) → Fin (2 * (n + 2)) → ℝ)
    (j : Fin A.sections.size × Fin A.sections.size × Bool) => ∑ l, realSum F (partFun F A h j) (rawLines x l) :=
  measurable_pi_lambda _ fun j => Finset.measurable_sum _ fun l _ => (measurable_realSum (parts_measurable h j)).comp
    ((measurable_pi_apply l).comp (rawLines_preserving (n + 2) (sampleCount bs (n + 2))).measurable)

omit ho hr hsm hn hS hF hB hh hbs in
private theorem batch_moments {G : (Fin (n + 2) → ℂ) × (Fin (n + 2) → ℂ) → ℝ} (hGm : Measurable G)
    (hG : MemLp G 2 (lineLaw (n + 2))) {m : ℝ} (hm : ∫ x, G x ∂lineLaw (n + 2) = (n + 2) * m) :
    MemLp (fun ω => ∑ l, G (rawLines (X 0 ω) l)) 2 P ∧ ∫ ω, ∑ l, G (rawLines (X 0 ω) l) ∂P = bs * m := by
  have hbsR : (bs : ℝ) = sampleCount bs (n + 2) * (n + 2) := by exact_mod_cast (sampleCount_dvd (by omega) hdvd).symm
  refine ⟨?_, ?_⟩
  · simpa using (batches_variance (X := fun _ : Fin 1 => X 0) (fun i => hX 0) iIndepFun.of_subsingleton hGm hG).1
  · rw [(lines_integral (hX 0) (hG.integrable one_le_two)).2, hm, hbsR]
    ring

include hind

/-- **C189.** With a volume `vol` and `b` independent batches of `bs` points, where `bs` is a multiple of `n + 2`, the matrix
returned by `donaldson_step` is asymptotically normal around its limit `L` of C134: for every matrix `M`, the real part of the
trace of `M` times the error, times the square root of the number of points, converges in distribution to a centred normal
variable. The variance is `bs` times the variance of the weighted mean of a function over the points of one batch. -/
theorem C189_normal {vol : ℝ} (hvol : 0 < vol) (M : Matrix (Fin A.sections.size) (Fin A.sections.size) ℂ) :
    let L := ((vol * (n + 2) / (cyMeasure p d F univ).toReal : ℝ) : ℂ) • (tIntegral (sec A) h (cyMeasure p d F))⁻¹.transpose
    TendstoInDistribution (fun (b : ℕ) ω => √((b + 1) * bs : ℕ) * (M * (matrixOrZero (A.donaldsonStep .complex h o roots ps vol bs
        (List.ofFn fun i : Fin (b + 1) => asLists (lineDraws (X i ω)))) - L)).trace.re) atTop id (fun _ => P)
      (gaussianReal 0 (bs * Var[fun ω => weightedMean (fun Z => A.sections.size / vol *
          ((∑ a, ∑ c, (L * M * L) a c * (eval Z (sec A a) * conj (eval Z (sec A c)))) /
            ∑ c, ∑ d, eval Z (sec A c) * h c d * conj (eval Z (sec A d))).re)
          (sampleIntersectOpt n A.variety o roots ps bs (asLists (lineDraws (X 0 ω))) false true); P]).toNNReal) := by
  intro L
  have hbs0 : (0 : ℝ) < bs := by exact_mod_cast Nat.pos_of_ne_zero hbs
  obtain ⟨m, m1, m2, m3⟩ := parts_line hsm hn p d hS hF hB h hh
  obtain ⟨hdet, hL⟩ := m3 vol hvol
  change _ = L at hL
  clear_value L
  obtain ⟨f', hf', hfe⟩ := hasFDerivAt_inverseFun ((A.sections.size : ℂ) / vol) M m hdet
  rw [hL] at hfe
  have hmeas := measurable_sums (F := F) h bs
  have key := delta_batches (P := P) hbs (T := fun i ω j => ∑ l, realSum F (partFun F A h j) (rawLines (X i ω) l))
    (fun j => (batch_moments bs hdvd X hX (measurable_realSum (parts_measurable h j)) (m1 j) (m2 j)).1)
    (hind.comp (fun _ x j => ∑ l, realSum F (partFun F A h j) (rawLines x l)) fun _ => hmeas)
    (fun i => ((hX i).identDistrib (hX 0)).comp hmeas)
    (fun j => (batch_moments bs hdvd X hX (measurable_realSum (parts_measurable h j)) (m1 j) (m2 j)).2)
    (measurable_inverseFun _ M) hf'
  have hall := step_parts ho hr hsm hn hS hF hB h hh bs hbs hdvd X hX
  have hvar : Var[fun ω => f' (fun j => ∑ l, realSum F (partFun F A h j) (rawLines (X 0 ω) l)); P] / bs =
      bs * Var[fun ω => weightedMean (fun Z => A.sections.size / vol *
          ((∑ a, ∑ c, (L * M * L) a c * (eval Z (sec A a) * conj (eval Z (sec A c)))) /
            ∑ c, ∑ d, eval Z (sec A c) * h c d * conj (eval Z (sec A d))).re)
          (sampleIntersectOpt n A.variety o roots ps bs (asLists (lineDraws (X 0 ω))) false true); P] := by
    have e : (fun ω => f' (fun j => ∑ l, realSum F (partFun F A h j) (rawLines (X 0 ω) l))) =ᵐ[P]
        fun ω => -(bs : ℝ) * weightedMean (fun Z => A.sections.size / vol *
          ((∑ a, ∑ c, (L * M * L) a c * (eval Z (sec A a) * conj (eval Z (sec A c)))) /
            ∑ c, ∑ d, eval Z (sec A c) * h c d * conj (eval Z (sec A d))).re)
          (sampleIntersectOpt n A.variety o roots ps bs (asLists (lineDraws (X 0 ω))) false true) := by
      filter_upwards [hall] with ω hω
      rw [hω.1, hfe, trace_parts, neg_mul, mul_div_cancel₀ _ hbs0.ne']
      push_cast
      rfl
    rw [variance_congr e, variance_const_mul]
    field_simp
  rw [hvar] at key
  refine key.congr (fun b => ?_) EventuallyEq.rfl
  filter_upwards [hall] with ω hω
  rw [hω.2]
  simp only [inverseFun]
  rw [hL, ← Complex.sub_re, ← Matrix.trace_sub, ← Matrix.mul_sub]

/-- **C189.** The real and the imaginary part of every entry of the returned matrix are asymptotically normal, so that the
probability that an entry has an error of at most `t / √count` in its real (imaginary) part converges. -/
theorem C189_entries {vol : ℝ} (hvol : 0 < vol) (a c : Fin A.sections.size) :
    let L := ((vol * (n + 2) / (cyMeasure p d F univ).toReal : ℝ) : ℂ) • (tIntegral (sec A) h (cyMeasure p d F))⁻¹.transpose
    let error := fun (b : ℕ) ω => (matrixOrZero (A.donaldsonStep .complex h o roots ps vol bs
      (List.ofFn fun i : Fin (b + 1) => asLists (lineDraws (X i ω)))) - L) a c
    ∃ u v : ℝ≥0, ∀ t : ℝ, 0 < t →
      Tendsto (fun b : ℕ => P {ω | |(error b ω).re| ≤ t / √((b + 1) * bs : ℕ)}) atTop (𝓝 (gaussianReal 0 u (Icc (-t) t))) ∧
      Tendsto (fun b : ℕ => P {ω | |(error b ω).im| ≤ t / √((b + 1) * bs : ℕ)}) atTop (𝓝 (gaussianReal 0 v (Icc (-t) t))) := by
  intro L error
  have k1 := C189_normal ho hr hsm hn p d hS hF hB h hh bs hbs hdvd X hX hind hvol (Matrix.single c a 1)
  have k2 := C189_normal ho hr hsm hn p d hS hF hB h hh bs hbs hdvd X hX hind hvol (Matrix.single c a (-Complex.I))
  refine ⟨_, _, fun t ht => ⟨(normal_interval k1 ht).congr fun b => ?_, (normal_interval k2 ht).congr fun b => ?_⟩⟩
  all_goals
    congr 1
    ext ω
    have hN : 0 < √((b + 1) * bs : ℕ) :=
      Real.sqrt_pos.2 (by exact_mod_cast Nat.mul_pos b.succ_pos (Nat.pos_of_ne_zero hbs))
    rw [mem_ofPred_eq, mem_ofPred_eq, abs_mul, abs_of_pos hN, le_div_iff₀ hN, mul_comm, Matrix.trace_single_mul]
    simp [error, L]

omit hX hind in
/-- **C189.** With the volume of `compute_vol`, from as many batches: the matrix returned by `donaldson_step` is asymptotically
normal around the transposed inverse of Donaldson's T operator. The variance is `bs` times the variance of the difference of two
weighted means: of a constant over a batch for the volume, and of a function over a batch for the step. -/
theorem C189_pipeline (X : ℕ → Ω → Fin 2 → Fin (sampleCount bs (n + 2)) → Fin (2 * (n + 2)) → ℝ)
    {Key : Type*} (split : Key → Key × Key) (key : Key) (bs' : ℕ) (hbs' : bs' ≠ 0) (hdvd' : (n + 2) ∣ bs')
    (Y : Key → Ω → Fin 2 → Fin (sampleCount bs' (n + 2)) → Fin (2 * (n + 2)) → ℝ)
    (hXY : ∀ i, HasLaw (fun ω => (X i ω, Y (batchKey split key i) ω))
      ((normalsLaw (n + 2) (sampleCount bs (n + 2))).prod (normalsLaw (n + 2) (sampleCount bs' (n + 2)))) P)
    (hind : iIndepFun (fun i ω => (X i ω, Y (batchKey split key i) ω)) P)
    (M : Matrix (Fin A.sections.size) (Fin A.sections.size) ℂ) :
    let L := (tIntegral (sec A) h (cyMeasure p d F))⁻¹.transpose
    let v := (cyMeasure p d F univ).toReal / (n + 2)
    TendstoInDistribution (fun (b : ℕ) ω => √((b + 1) * bs : ℕ) * (M * (matrixOrZero (A.donaldsonStep .complex h o roots ps
        (volMean (computeVol n A.variety o roots ps split (fun k => asLists (lineDraws (Y k ω))) key (b + 1) bs')) bs
        (List.ofFn fun i : Fin (b + 1) => asLists (lineDraws (X i ω)))) - L)).trace.re) atTop id (fun _ => P)
      (gaussianReal 0 (bs * Var[fun ω => (M * L).trace.re / v * weightedMean (fun _ => 1)
          (sampleIntersectOpt n A.variety o roots ps bs' (asLists (lineDraws (Y (batchKey split key 0) ω))) false true) -
        weightedMean (fun Z => A.sections.size / v *
          ((∑ a, ∑ c, (L * M * L) a c * (eval Z (sec A a) * conj (eval Z (sec A c)))) /
            ∑ c, ∑ d, eval Z (sec A c) * h c d * conj (eval Z (sec A d))).re)
          (sampleIntersectOpt n A.variety o roots ps bs (asLists (lineDraws (X 0 ω))) false true); P]).toNNReal) := by
  intro L v
  have hom := hF.homogeneous
  have he0 : n + 2 ≠ 0 := by omega
  have hirr := smooth_irreducible (by omega) hom he0 hsm
  have hd := smooth_pderiv_ne_zero hom (by omega) hsm (p.succAbove d)
  have hn2 : (0 : ℝ) < n + 2 := by positivity
  have hbs0 : (0 : ℝ) < bs := by exact_mod_cast Nat.pos_of_ne_zero hbs
  have hbs0' : (0 : ℝ) < bs' := by exact_mod_cast Nat.pos_of_ne_zero hbs'
  obtain ⟨hfin0, hne0, -⟩ := C130_measure hsm hn p d hS hF
  have hfin : IsFiniteMeasure (cyMeasure p d F) := ⟨hfin0.lt_top⟩
  have hV0 : 0 < (cyMeasure p d F univ).toReal := ENNReal.toReal_pos hne0 hfin0
  have hv0 : 0 < v := div_pos hV0 hn2
  have hX : ∀ i, HasLaw (X i) (normalsLaw (n + 2) (sampleCount bs (n + 2))) P := fun i =>
    ⟨(hXY i).aemeasurable.fst, by
      have := congrArg (Measure.map Prod.fst) (hXY i).map_eq
      rwa [AEMeasurable.map_map_of_aemeasurable measurable_fst.aemeasurable (hXY i).aemeasurable, Measure.map_fst_prod, measure_univ,
        one_smul] at this⟩
  have hY : ∀ i, HasLaw (Y (batchKey split key i)) (normalsLaw (n + 2) (sampleCount bs' (n + 2))) P := fun i =>
    ⟨(hXY i).aemeasurable.snd, by
      have := congrArg (Measure.map Prod.snd) (hXY i).map_eq
      rwa [AEMeasurable.map_map_of_aemeasurable measurable_snd.aemeasurable (hXY i).aemeasurable, Measure.map_snd_prod, measure_univ,
        one_smul] at this⟩
  obtain ⟨m, m1, m2, m3⟩ := parts_line hsm hn p d hS hF hB h hh
  obtain ⟨-, hL⟩ := m3 v hv0
  have e1 : v * (n + 2) / (cyMeasure p d F univ).toReal = 1 := by
    change (cyMeasure p d F univ).toReal / (n + 2) * (n + 2) / _ = 1
    field_simp
  rw [e1, Complex.ofReal_one, one_smul] at hL
  change _ = L at hL
  obtain ⟨hdet, -⟩ := m3 1 one_pos
  rw [Complex.ofReal_one, div_one] at hdet
  -- the sums of the weights
  obtain ⟨W, -, hW⟩ := pointWeight_bounded hom hsm
  have hwm : Measurable (realSum F (pointWeight (n + 2) F)) := measurable_realSum (measurable_pointWeight (F := F) (n + 2))
  have hw2 : MemLp (realSum F (pointWeight (n + 2) F)) 2 (lineLaw (n + 2)) :=
    MemLp.of_bound hwm.aestronglyMeasurable _ (realSum_bound hS hF hsm hirr he0 (g := pointWeight (n + 2) F) (K := W)
      fun Z hZ h0 => by
        rw [abs_of_pos (pointWeight_pos (e := n + 2) Z hZ (hsm Z hZ h0))]
        exact hW Z hZ h0)
  have hwi : ∫ x, realSum F (pointWeight (n + 2) F) x ∂lineLaw (n + 2) = (n + 2) * v := by
    have hw := (cy_integral hom p d fun _ => 1).1.1 (integrable_const 1)
    simp only [one_mul] at hw
    have hvol := (cy_integral hom p d fun _ => 1).2
    simp only [one_mul, integral_const, smul_eq_mul, mul_one] at hvol
    rw [(realSum_integral p d hirr hom he0 hd (measurable_pointWeight (F := F) (n + 2)) (pointWeight_smul hom) hw).2, ← hvol]
    change (cyMeasure p d F univ).toReal = (n + 2) * ((cyMeasure p d F univ).toReal / (n + 2))
    field_simp
  -- the function of the means
  obtain ⟨g', hg', hge⟩ := hasFDerivAt_inverseFun (A.sections.size : ℂ) M m hdet
  have hL1 : L = (v : ℂ) • (((A.sections.size : ℂ) • entryMatrix A.sections.size m)⁻¹).transpose := by
    rw [← hL, div_smul_inv, Matrix.transpose_smul]
  obtain ⟨L1, hL1d⟩ : ∃ L1, L1 = (((A.sections.size : ℂ) • entryMatrix A.sections.size m)⁻¹).transpose := ⟨_, rfl⟩
  rw [← hL1d] at hL1 hge
  obtain ⟨m', hm'⟩ : ∃ m' : Option (Fin A.sections.size × Fin A.sections.size × Bool) → ℝ, m' = fun j => j.elim v m := ⟨_, rfl⟩
  obtain ⟨R, hR⟩ : ∃ R : (Option (Fin A.sections.size × Fin A.sections.size × Bool) → ℝ) →L[ℝ]
      (Fin A.sections.size × Fin A.sections.size × Bool → ℝ), ∀ y, R y = fun j => y (some j) :=
    ⟨ContinuousLinearMap.pi fun j => ContinuousLinearMap.proj (some j), fun y => rfl⟩
  obtain ⟨f, hf⟩ : ∃ f : (Option (Fin A.sections.size × Fin A.sections.size × Bool) → ℝ) → ℝ, f = fun y =>
    y none * inverseFun (A.sections.size : ℂ) M (R y) := ⟨_, rfl⟩
  have hRm : R m' = m := by
    rw [hR, hm']
    rfl
  have hfm : Measurable f := by
    rw [hf]
    exact (measurable_pi_apply none).mul ((measurable_inverseFun _ M).comp R.measurable)
  have hder : HasFDerivAt f (m' none • (g'.comp R) + inverseFun (A.sections.size : ℂ) M m •
      (ContinuousLinearMap.proj none : (Option (Fin A.sections.size × Fin A.sections.size × Bool) → ℝ) →L[ℝ] ℝ)) m' := by
    rw [hf]
    have d1 : HasFDerivAt (fun y : Option (Fin A.sections.size × Fin A.sections.size × Bool) → ℝ => y none)
        (ContinuousLinearMap.proj none : (Option (Fin A.sections.size × Fin A.sections.size × Bool) → ℝ) →L[ℝ] ℝ) m' :=
      (ContinuousLinearMap.proj none : (Option (Fin A.sections.size × Fin A.sections.size × Bool) → ℝ) →L[ℝ] ℝ).hasFDerivAt
    have d2 := HasFDerivAt.comp m' (hRm ▸ hg') R.hasFDerivAt
    have := d1.mul d2
    rw [Function.comp_apply, hRm] at this
    exact this
  -- the sums over the batches
  obtain ⟨G, hG⟩ : ∃ G : (Fin 2 → Fin (sampleCount bs (n + 2)) → Fin (2 * (n + 2)) → ℝ) ×
      (Fin 2 → Fin (sampleCount bs' (n + 2)) → Fin (2 * (n + 2)) → ℝ) →
      Option (Fin A.sections.size × Fin A.sections.size × Bool) → ℝ, G = fun x j =>
    j.elim ((bs / bs' : ℝ) * ∑ l, realSum F (pointWeight (n + 2) F) (rawLines x.2 l))
      fun j => ∑ l, realSum F (partFun F A h j) (rawLines x.1 l) := ⟨_, rfl⟩
  have hGm : Measurable G := by
    rw [hG]
    refine measurable_pi_lambda _ fun j => ?_
    cases j with
    | none =>
      exact ((Finset.measurable_sum _ fun l _ => hwm.comp ((measurable_pi_apply l).comp
        (rawLines_preserving (n + 2) (sampleCount bs' (n + 2))).measurable)).comp measurable_snd).const_mul _
    | some j => exact ((measurable_pi_apply j).comp (measurable_sums (F := F) h bs)).comp measurable_fst
  have hmom : ∀ j, MemLp (fun ω => G (X 0 ω, Y (batchKey split key 0) ω) j) 2 P ∧
      ∫ ω, G (X 0 ω, Y (batchKey split key 0) ω) j ∂P = bs * m' j := by
    intro j
    rw [hG, hm']
    cases j with
    | none =>
      obtain ⟨q1, q2⟩ := batch_moments bs' hdvd' (fun i => Y (batchKey split key i)) hY hwm hw2 hwi
      refine ⟨q1.const_mul _, ?_⟩
      simp only [Option.elim_none]
      rw [integral_const_mul, q2]
      field_simp
    | some j => exact batch_moments bs hdvd X hX (measurable_realSum (parts_measurable h j)) (m1 j) (m2 j)
  have lim := delta_batches (P := P) hbs (T := fun i ω => G (X i ω, Y (batchKey split key i) ω))
    (fun j => (hmom j).1) (hind.comp (fun _ => G) fun _ => hGm) (fun i => ((hXY i).identDistrib (hXY 0)).comp hGm)
    (fun j => (hmom j).2) hfm hder
  have hall := step_parts ho hr hsm hn hS hF hB h hh bs hbs hdvd X hX
  have hvols : ∀ b : ℕ, ∀ᵐ ω ∂P, volMean (computeVol n A.variety o roots ps split (fun k => asLists (lineDraws (Y k ω))) key (b + 1) bs') =
      (∑ i ∈ Finset.range (b + 1), G (X i ω, Y (batchKey split key i) ω) none) / ((b + 1) * bs : ℕ) := fun b => by
    filter_upwards [vol_sums ho hr hsm hn hS hF split key (b + 1) bs' b.succ_ne_zero hbs' hdvd' Y fun i _ => hY i] with ω hω
    rw [hω, hG]
    change (∑ i ∈ Finset.range (b + 1), ∑ j, realSum F (pointWeight (n + 2) F) (rawLines (Y (batchKey split key i) ω) j)) /
      ((b + 1) * bs' : ℕ) = _
    simp only [Option.elim_none]
    rw [← Finset.mul_sum]
    push_cast
    field_simp
  have hone : ∀ᵐ ω ∂P, G (X 0 ω, Y (batchKey split key 0) ω) none = bs * weightedMean (fun _ => 1)
      (sampleIntersectOpt n A.variety o roots ps bs' (asLists (lineDraws (Y (batchKey split key 0) ω))) false true) := by
    obtain ⟨pts, hpts⟩ := sample_sums hS hF hsm hirr ho hr he0 (sampleCount bs' (n + 2))
    rw [← (hY 0).map_eq] at hpts
    filter_upwards [ae_of_ae_map (hY 0).aemeasurable hpts] with ω h2
    obtain ⟨g1, -, g3, g4⟩ := h2
    rw [sampleCount_dvd he0 hdvd'] at g1
    have g5 := (g3 bs').2.1
    rw [List.take_of_length_le g1.le] at g5
    rw [g5, weightedMean_eq, g1, hG]
    simp only [one_mul, Option.elim_none]
    rw [← g4 _ (pointWeight_smul hom)]
    ring
  have hvar : Var[fun ω => (m' none • (g'.comp R) + inverseFun (A.sections.size : ℂ) M m •
        (ContinuousLinearMap.proj none : (Option (Fin A.sections.size × Fin A.sections.size × Bool) → ℝ) →L[ℝ] ℝ))
          (G (X 0 ω, Y (batchKey split key 0) ω)); P] / bs =
      bs * Var[fun ω => (M * L).trace.re / v * weightedMean (fun _ => 1)
          (sampleIntersectOpt n A.variety o roots ps bs' (asLists (lineDraws (Y (batchKey split key 0) ω))) false true) -
        weightedMean (fun Z => A.sections.size / v *
          ((∑ a, ∑ c, (L * M * L) a c * (eval Z (sec A a) * conj (eval Z (sec A c)))) /
            ∑ c, ∑ d, eval Z (sec A c) * h c d * conj (eval Z (sec A d))).re)
          (sampleIntersectOpt n A.variety o roots ps bs (asLists (lineDraws (X 0 ω))) false true); P] := by
    have e : (fun ω => (m' none • (g'.comp R) + inverseFun (A.sections.size : ℂ) M m •
        (ContinuousLinearMap.proj none : (Option (Fin A.sections.size × Fin A.sections.size × Bool) → ℝ) →L[ℝ] ℝ))
          (G (X 0 ω, Y (batchKey split key 0) ω))) =ᵐ[P] fun ω => (bs : ℝ) * ((M * L).trace.re / v * weightedMean (fun _ => 1)
          (sampleIntersectOpt n A.variety o roots ps bs' (asLists (lineDraws (Y (batchKey split key 0) ω))) false true) -
        weightedMean (fun Z => A.sections.size / v *
          ((∑ a, ∑ c, (L * M * L) a c * (eval Z (sec A a) * conj (eval Z (sec A c)))) /
            ∑ c, ∑ d, eval Z (sec A c) * h c d * conj (eval Z (sec A d))).re)
          (sampleIntersectOpt n A.variety o roots ps bs (asLists (lineDraws (X 0 ω))) false true)) := by
      filter_upwards [hall, hone] with ω hω h1
      rw [hω.1]
      change m' none * g' (R _) + inverseFun (A.sections.size : ℂ) M m * G (X 0 ω, Y (batchKey split key 0) ω) none = _
      rw [h1, hge, hR]
      have eG : (fun j => G (X 0 ω, Y (batchKey split key 0) ω) (some j)) =
          fun j => ∑ l, realSum F (partFun F A h j) (rawLines (X 0 ω) l) := by rw [hG]; rfl
      rw [eG, trace_parts]
      have em : m' none = v := by rw [hm']; rfl
      have ei : inverseFun (A.sections.size : ℂ) M m = (M * L).trace.re / v := by
        unfold inverseFun
        rw [← hL1d, hL1, Matrix.mul_smul, Matrix.trace_smul, smul_eq_mul, Complex.re_ofReal_mul, mul_div_cancel_left₀ _ hv0.ne']
      rw [em, ei]
      generalize (fun j => ∑ l, realSum F (partFun F A h j) (rawLines (X 0 ω) l)) = y
      have eQ : (∑ a, ∑ c, (L * M * L) a c * (((A.sections.size / v : ℝ) : ℂ) • entryMatrix A.sections.size y) a c).re =
          v * (∑ a, ∑ c, (L1 * M * L1) a c * ((A.sections.size : ℂ) • entryMatrix A.sections.size y) a c).re := by
        rw [← Complex.re_ofReal_mul, Finset.mul_sum]
        congr 1
        refine Finset.sum_congr rfl fun a _ => ?_
        rw [Finset.mul_sum]
        refine Finset.sum_congr rfl fun c _ => ?_
        have hvc : (v : ℂ) ≠ 0 := by exact_mod_cast hv0.ne'
        rw [hL1, Matrix.smul_mul, Matrix.smul_mul, Matrix.mul_smul, Matrix.smul_apply, Matrix.smul_apply, Matrix.smul_apply,
          Matrix.smul_apply]
        simp only [smul_eq_mul]
        push_cast
        field_simp
      rw [eQ]
      field_simp
      ring
    rw [variance_congr e, variance_const_mul]
    field_simp
  rw [hvar] at lim
  refine lim.congr (fun b => ?_) EventuallyEq.rfl
  filter_upwards [hall, hvols b] with ω hω hv
  rw [hω.2, hv, div_smul_inv, Matrix.transpose_smul, hf]
  simp only
  have eY : R (fun j => (∑ i ∈ Finset.range (b + 1), G (X i ω, Y (batchKey split key i) ω) j) / ((b + 1) * bs : ℕ)) =
      fun j => (∑ i ∈ Finset.range (b + 1), ∑ l, realSum F (partFun F A h j) (rawLines (X i ω) l)) / ((b + 1) * bs : ℕ) := by
    rw [hR, hG]
    rfl
  have em : m' none = v := by rw [hm']; rfl
  rw [eY, hRm, em]
  unfold inverseFun
  rw [← hL1d, ← Complex.re_ofReal_mul, ← Complex.re_ofReal_mul, ← Complex.sub_re, Matrix.mul_sub, Matrix.trace_sub, hL1, Matrix.mul_smul,
    Matrix.mul_smul, Matrix.trace_smul, Matrix.trace_smul]
  rfl

omit ho hr hsm hn hS hF hB hh hbs hdvd hX hind in
/-- The hypotheses of C189 can be met: the Dwork quintic with `psi = 2`, the reduced basis of any degree, `h = 1`, batches of
`bs` points for the step and of `bs'` points for the volume, for all positive multiples of five. -/
example (k bs bs' : ℕ) (hbs : bs ≠ 0) (hbs' : bs' ≠ 0) (hdvd : 5 ∣ bs) (hdvd' : 5 ∣ bs') : ∃ (rows : List (Fin 5 → ℕ)) (F : MvPolynomial (Fin 5) ℂ)
    (P : Measure (ℕ → (Fin 2 → Fin (sampleCount bs 5) → Fin (2 * 5) → ℝ) × (Fin 2 → Fin (sampleCount bs' 5) → Fin (2 * 5) → ℝ)))
    (_ : IsProbabilityMeasure P), ∀ M : Matrix (Fin (⟨k, rows⟩ : MonomialSections 4).size) (Fin (⟨k, rows⟩ : MonomialSections 4).size) ℂ,
    ∃ v : ℝ≥0, TendstoInDistribution (fun (b : ℕ) ω => √((b + 1) * bs : ℕ) * (M * (matrixOrZero
      ((⟨.dwork 5 (.flag true), ⟨k, rows⟩⟩ : AlgebraicMetric 4).donaldsonStep .complex 1 someOrder someRoots [2]
        (volMean (computeVol 3 (.dwork 5 (.flag true)) someOrder someRoots [2] (fun k : ℕ => (k, k + 1))
          (fun k => asLists (lineDraws (ω k).2)) 0 (b + 1) bs')) bs
        (List.ofFn fun i : Fin (b + 1) => asLists (lineDraws (ω i).1))) -
        (tIntegral (sec (⟨.dwork 5 (.flag true), ⟨k, rows⟩⟩ : AlgebraicMetric 4)) 1
          (cyMeasure (n := 3) 0 0 F))⁻¹.transpose)).trace.re) atTop id (fun _ => P) (gaussianReal 0 v) := by
  obtain ⟨F, hF, hsm⟩ := C114_quintic 2 []
  have hsm' := hsm.2 (by norm_num)
  have hvars : F.vars = Finset.univ := by
    refine Finset.eq_univ_iff_forall.2 fun i => ?_
    by_contra hi
    exact smooth_pderiv_ne_zero hF.homogeneous (by norm_num) hsm' i (pderiv_eq_zero_of_notMem_vars hi)
  obtain ⟨rows, h1, h2⟩ := C97_basis_partial F 5 k hF.homogeneous hvars
  have hk : ∀ i, batchKey (fun k : ℕ => (k, k + 1)) 0 i = i := fun i => by
    unfold batchKey
    simp
  obtain ⟨μ, hμ⟩ : ∃ μ, μ = (normalsLaw 5 (sampleCount bs 5)).prod (normalsLaw 5 (sampleCount bs' 5)) := ⟨_, rfl⟩
  have hp : IsProbabilityMeasure μ := hμ ▸ inferInstance
  have hXY : ∀ i, HasLaw (fun ω : ℕ → (Fin 2 → Fin (sampleCount bs 5) → Fin (2 * 5) → ℝ) ×
      (Fin 2 → Fin (sampleCount bs' 5) → Fin (2 * 5) → ℝ) => ((ω i).1, (ω (batchKey (fun k : ℕ => (k, k + 1)) 0 i)).2))
      ((normalsLaw 5 (sampleCount bs 5)).prod (normalsLaw 5 (sampleCount bs' 5))) (Measure.infinitePi fun _ => μ) := fun i => by
    simp only [hk]
    exact hμ ▸ (measurePreserving_eval_infinitePi (fun _ : ℕ => μ) i).hasLaw
  have hind : iIndepFun (fun i => fun ω : ℕ → (Fin 2 → Fin (sampleCount bs 5) → Fin (2 * 5) → ℝ) ×
      (Fin 2 → Fin (sampleCount bs' 5) → Fin (2 * 5) → ℝ) => ((ω i).1, (ω (batchKey (fun k : ℕ => (k, k + 1)) 0 i)).2))
      (Measure.infinitePi fun _ => μ) := by
    simp only [hk]
    exact iIndepFun_infinitePi (P := fun _ : ℕ => μ) (X := fun _ x => x) fun _ => measurable_id
  refine ⟨rows, F, Measure.infinitePi fun _ => μ, inferInstance, fun M => ?_⟩
  have key := C189_pipeline (n := 3) (P := Measure.infinitePi fun _ => μ) (A := ⟨.dwork 5 (.flag true), ⟨k, rows⟩⟩) someOrder_valid someRoots_complete
      hsm' (by norm_num) 0 0 (.dwork 4 (.flag true) (by simp [DworkFactor.value]) 2) hF h2 1 Matrix.PosDef.one bs hbs hdvd
      (fun i ω => (ω i).1) (fun k : ℕ => (k, k + 1)) 0 bs' hbs' hdvd' (fun k ω => (ω k).2) hXY hind M
  exact ⟨_, key⟩

end Cyjax
