import Verif.Lemmas.ConeIntegral
import Verif.Lemmas.ComplexGaussian
import Verif.Lemmas.ChartMetric

/-! # The roots along a random line, in coordinates -/

namespace Cyjax

open MeasureTheory MvPolynomial Cyjax.Spec Set
open scoped ENNReal

/-- Sums with countably many terms can be integrated term by term. -/
theorem lintegral_tsum_countable {X Y : Type*} [MeasurableSpace X] {μ : Measure X} {S : Set Y} (hS : S.Countable)
    {f : X → Y → ℝ≥0∞} (hf : ∀ y, Measurable fun x => f x y) (h0 : ∀ x, ∀ y ∉ S, f x y = 0) :
    ∫⁻ x, ∑' y, f x y ∂μ = ∑' y, ∫⁻ x, f x y ∂μ := by
  have : Countable S := hS.to_subtype
  have h1 : ∀ x, ∑' y, f x y = ∑' y : S, f x y := by
    intro x
    rw [tsum_subtype]
    refine tsum_congr fun y => ?_
    by_cases hy : y ∈ S
    · rw [indicator_of_mem hy]
    · rw [indicator_of_notMem hy, h0 x y hy]
  simp_rw [h1]
  rw [lintegral_tsum (fun y : S => (hf y).aemeasurable), tsum_subtype S fun y => ∫⁻ x, f x y ∂μ]
  refine tsum_congr fun y => ?_
  by_cases hy : y ∈ S
  · rw [indicator_of_mem hy]
  · rw [indicator_of_notMem hy]
    simp [h0 _ y hy]

/-- The simple roots along a line are countable in number. -/
theorem countable_simple {m : ℕ} (F : MvPolynomial (Fin m) ℂ) (u r : Fin m → ℂ) :
    {y : ℂ | eval (u + y • r) F = 0 ∧ dirD F r (u + y • r) ≠ 0}.Countable := by
  set P : Polynomial ℂ := aeval (fun i => Polynomial.C (u i) + Polynomial.X * Polynomial.C (r i)) F with hP
  have hPe : ∀ t, P.eval t = eval (u + t • r) F := by
    intro t
    have := comp_aeval_apply (R := ℂ) (fun i => Polynomial.C (u i) + Polynomial.X * Polynomial.C (r i))
      (Polynomial.aeval (R := ℂ) t) F
    rw [Polynomial.coe_aeval_eq_eval] at this
    rw [hP, this, ← aeval_eq_eval]
    refine congrArg (fun f => aeval f F) (funext fun i => ?_)
    simp only [Polynomial.eval_add, Polynomial.eval_C, Polynomial.eval_mul, Polynomial.eval_X, Pi.add_apply, Pi.smul_apply, smul_eq_mul]
  by_cases h0 : P = 0
  · obtain ⟨H, hH, h1, h2⟩ := exists_quotient F
    convert countable_empty
    ext y
    simp only [mem_ofPred_eq, mem_empty_iff_false, iff_false, not_and, not_not]
    intro _
    have hc : Continuous fun y' => H ((u, r), (y, y')) := hH.comp (by fun_prop)
    have := Continuous.ext_on (dense_compl_singleton y) hc (continuous_const (y := (0 : ℂ))) fun y' hy' => by
      have h := h1 u r y y'
      rw [← hPe, ← hPe, h0] at h
      simp only [Polynomial.eval_zero, sub_zero] at h
      exact (mul_eq_zero.1 h.symm).resolve_left (sub_ne_zero.2 (Ne.symm hy'))
    rw [← h2]
    exact congrFun this y
  · refine Set.Countable.mono (s₂ := {y | P.IsRoot y}) (fun y hy => ?_) (Polynomial.finite_setOfPred_isRoot h0).countable
    change P.eval y = 0
    rw [hPe]
    exact hy.1

section Kernel

variable {m : ℕ}

/-- The sum of the squared derivatives. -/
noncomputable def gradSq (F : MvPolynomial (Fin m) ℂ) (Z : Fin m → ℂ) : ℝ := ∑ i, ‖eval Z (pderiv i F)‖ ^ 2

theorem measurable_gradSq (F : MvPolynomial (Fin m) ℂ) : Measurable (gradSq F) := by
  unfold gradSq
  exact Finset.measurable_fun_sum _ fun i _ => (measurable_evalZ _).norm.pow_const 2

theorem gradSq_nonneg (F : MvPolynomial (Fin m) ℂ) (Z : Fin m → ℂ) : 0 ≤ gradSq F Z :=
  Finset.sum_nonneg fun _ _ => by positivity

/-- The weight of the multiples of a point. -/
noncomputable def radial (m : ℕ) (ρ : ℝ) : ℝ≥0∞ :=
  ∫⁻ t : ℂ, ENNReal.ofReal (1 / (2 * Real.pi) ^ m * (1 / (2 * Real.pi) ^ m) *
    (Real.pi ^ m / ((1 + ‖t‖ ^ 2) / 2) ^ (m + 1)) * Real.exp (-(1 / (2 * (1 + ‖t‖ ^ 2))) * ρ))

theorem measurable_radial (m : ℕ) : Measurable (radial m) := by
  unfold radial
  refine Measurable.lintegral_prod_right' (f := fun x : ℝ × ℂ => ENNReal.ofReal (1 / (2 * Real.pi) ^ m * (1 / (2 * Real.pi) ^ m) *
    (Real.pi ^ m / ((1 + ‖x.2‖ ^ 2) / 2) ^ (m + 1)) * Real.exp (-(1 / (2 * (1 + ‖x.2‖ ^ 2))) * x.1))) ?_
  fun_prop

theorem kernel {F : MvPolynomial (Fin m) ℂ} {e : ℕ} (hom : F.IsHomogeneous e) {Z : Fin m → ℂ} (hZ : eval Z F = 0) :
    ∫⁻ q, cdensity q * (lineDensity Z q * ‖dirD F q Z‖ₑ ^ 2) =
      ENNReal.ofReal (gradSq F Z) * radial m (∑ k, ‖Z k‖ ^ 2) := by
  have hE : ∑ i, eval Z (pderiv i F) * Z i = 0 := by
    have h := congrArg (eval Z) hom.sum_X_mul_pderiv
    simp only [map_sum, map_mul, eval_X, map_nsmul, hZ, smul_zero] at h
    rw [← h]
    exact Finset.sum_congr rfl fun i _ => mul_comm _ _
  have hm1 : Measurable fun x : (Fin m → ℂ) × ℂ => cdensity (Z + x.2 • x.1) := measurable_cdensity.comp (by fun_prop)
  have hm2 : Measurable fun q : Fin m → ℂ => ‖dirD F q Z‖ₑ ^ 2 := by
    unfold dirD
    fun_prop
  have h1 : ∀ q : Fin m → ℂ, cdensity q * (lineDensity Z q * ‖dirD F q Z‖ₑ ^ 2) =
      ∫⁻ t : ℂ, cdensity q * (cdensity (Z + t • q) * ‖dirD F q Z‖ₑ ^ 2) := by
    intro q
    have hc : Measurable fun t : ℂ => cdensity (Z + t • q) := measurable_cdensity.comp (by fun_prop)
    rw [lintegral_const_mul _ (by fun_prop), lintegral_mul_const _ hc]
    rfl
  simp_rw [h1]
  rw [lintegral_lintegral_swap]
  · rw [radial, ← lintegral_const_mul _ (by fun_prop)]
    refine lintegral_congr fun t => ?_
    have h2 := lintegral_direction Z (fun i => eval Z (pderiv i F)) hE (-t)
    have hk : (0 : ℝ) ≤ 1 / (2 * Real.pi) ^ m * (1 / (2 * Real.pi) ^ m) := by positivity
    have h3 : ∀ q : Fin m → ℂ, cdensity q * (cdensity (Z + t • q) * ‖dirD F q Z‖ₑ ^ 2) =
        ENNReal.ofReal (1 / (2 * Real.pi) ^ m * (1 / (2 * Real.pi) ^ m)) *
          ENNReal.ofReal (‖∑ i, eval Z (pderiv i F) * q i‖ ^ 2 *
            Real.exp (-(1 / 2) * ((∑ k, ‖q k‖ ^ 2) + ∑ k, ‖Z k - -t * q k‖ ^ 2))) := by
      intro q
      have : ‖dirD F q Z‖ₑ ^ 2 = ENNReal.ofReal (‖∑ i, eval Z (pderiv i F) * q i‖ ^ 2) := by
        rw [ENNReal.ofReal_pow (norm_nonneg _), ofReal_norm]
        simp only [dirD, mul_comm]
      rw [this, cdensity, cdensity, ← ENNReal.ofReal_mul (by positivity), ← ENNReal.ofReal_mul (by positivity),
        ← ENNReal.ofReal_mul hk, mul_add (-(1 / 2) : ℝ), Real.exp_add]
      congr 1
      simp only [Pi.add_apply, Pi.smul_apply, smul_eq_mul, neg_mul, sub_neg_eq_add]
      ring
    simp_rw [h3]
    rw [lintegral_const_mul _ (by fun_prop), h2, ← ENNReal.ofReal_mul hk, ← ENNReal.ofReal_mul (gradSq_nonneg F Z)]
    congr 1
    simp only [norm_neg, gradSq]
    ring
  · refine Measurable.aemeasurable ?_
    exact (measurable_cdensity.comp measurable_fst).mul (hm1.mul (hm2.comp measurable_fst))

theorem lintegral_radial (n : ℕ) {ρ : ℝ} (hρ : 0 < ρ) :
    ∫⁻ x : ℂ, ‖x‖ₑ ^ (2 * n) * radial (n + 2) (‖x‖ ^ 2 * ρ) =
      ENNReal.ofReal (n.factorial / Real.pi ^ n) * ENNReal.ofReal (1 / ρ ^ (n + 1)) := by
  have hπ := Real.pi_pos
  have h1 : ∀ x : ℂ, ‖x‖ₑ ^ (2 * n) * radial (n + 2) (‖x‖ ^ 2 * ρ) =
      ∫⁻ t : ℂ, ENNReal.ofReal (1 / (2 * Real.pi) ^ (n + 2) * (1 / (2 * Real.pi) ^ (n + 2)) *
        (Real.pi ^ (n + 2) / ((1 + ‖t‖ ^ 2) / 2) ^ (n + 2 + 1))) *
          ENNReal.ofReal (‖x‖ ^ (2 * n) * Real.exp (-(ρ / (2 * (1 + ‖t‖ ^ 2))) * ‖x‖ ^ 2)) := by
    intro x
    rw [radial, ← lintegral_const_mul _ (by fun_prop)]
    refine lintegral_congr fun t => ?_
    rw [← ofReal_norm, ← ENNReal.ofReal_pow (norm_nonneg _), ← ENNReal.ofReal_mul (by positivity), ← ENNReal.ofReal_mul (by positivity)]
    congr 1
    have : -(1 / (2 * (1 + ‖t‖ ^ 2))) * (‖x‖ ^ 2 * ρ) = -(ρ / (2 * (1 + ‖t‖ ^ 2))) * ‖x‖ ^ 2 := by ring
    rw [this]
    ring
  simp_rw [h1]
  rw [lintegral_lintegral_swap (by fun_prop)]
  have h2 : ∀ t : ℂ, ∫⁻ x : ℂ, ENNReal.ofReal (1 / (2 * Real.pi) ^ (n + 2) * (1 / (2 * Real.pi) ^ (n + 2)) *
        (Real.pi ^ (n + 2) / ((1 + ‖t‖ ^ 2) / 2) ^ (n + 2 + 1))) *
          ENNReal.ofReal (‖x‖ ^ (2 * n) * Real.exp (-(ρ / (2 * (1 + ‖t‖ ^ 2))) * ‖x‖ ^ 2)) =
      ENNReal.ofReal (n.factorial / Real.pi ^ n * (1 / ρ ^ (n + 1)) / Real.pi) * ENNReal.ofReal (1 / (1 + ‖t‖ ^ 2) ^ 2) := by
    intro t
    have ht : 0 < 1 + ‖t‖ ^ 2 := by positivity
    rw [lintegral_const_mul _ (by fun_prop), lintegral_norm_pow_gauss n (by positivity), ← ENNReal.ofReal_mul (by positivity),
      ← ENNReal.ofReal_mul (by positivity)]
    congr 1
    generalize 1 + ‖t‖ ^ 2 = s at ht
    simp only [div_pow, mul_pow, pow_succ]
    field_simp
  simp_rw [h2]
  rw [lintegral_const_mul _ (by fun_prop), lintegral_sphere, ← ENNReal.ofReal_mul (by positivity),
    ← ENNReal.ofReal_mul (by positivity)]
  congr 1
  field_simp

end Kernel

section Average

variable {n : ℕ} (p : Fin (n + 2)) (d : Fin (n + 1)) (F : MvPolynomial (Fin (n + 2)) ℂ)

theorem measurableSet_regularSet : MeasurableSet (regularSet p d F) :=
  ((measurable_evalZ F) (measurableSet_singleton 0)).inter
    ((measurable_evalZ (pderiv (p.succAbove d) F)) (measurableSet_singleton 0).compl)

theorem measurable_regularSum {X : Type*} [TopologicalSpace X] [PolishSpace X] [MeasurableSpace X] [BorelSpace X] {a : X → ℂ}
    {b : X → Fin n → ℂ} (ha : Continuous a) (hb : Continuous b) {k : X → (Fin (n + 2) → ℂ) → ℝ≥0∞}
    (hk : Measurable fun z : X × ℂ => k z.1 (hpoint p d (a z.1) z.2 (b z.1))) :
    Measurable fun x => ∑' y, (regularSet p d F).indicator (k x) (hpoint p d (a x) y (b x)) := by
  have hm : Measurable fun x : X × ℂ => hpoint p d (a x.1) x.2 (b x.1) := by
    have := ha.measurable
    have := hb.measurable
    fun_prop
  exact measurable_hpointSum p d F (G := fun _ => regularSet p d F) (k := k) ha hb (hm (measurableSet_regularSet p d F))
    (fun _ Z hZ => hZ) hk

theorem countable_regular (x : ℂ) (w : Fin n → ℂ) : {y | hpoint p d x y w ∈ regularSet p d F}.Countable := by
  refine (countable_simple F (hpoint p d x 0 w) (Pi.single (p.succAbove d) 1)).mono fun y hy => ?_
  simp only [mem_ofPred_eq]
  rw [← hpoint_shift, dirD_single]
  exact hy

theorem average_direction {e : ℕ} (hom : F.IsHomogeneous e) {φ : (Fin (n + 2) → ℂ) → ℝ≥0∞} (hφ : Measurable φ) :
    ∫⁻ q, cdensity q * ∫⁻ P, cdensity P * ∑' t : ℂ, (goodSet p d F q).indicator φ (P + t • q) =
      ∫⁻ x, ∫⁻ w, ∑' y, (regularSet p d F).indicator
        (fun Z => φ Z * (ENNReal.ofReal (gradSq F Z) * radial (n + 2) (∑ k, ‖Z k‖ ^ 2)) /
          ‖eval Z (pderiv (p.succAbove d) F)‖ₑ ^ 2) (hpoint p d x y w) := by
  set R := regularSet p d F with hR
  have hRm : MeasurableSet R := measurableSet_regularSet p d F
  have hae : ∀ᵐ q : Fin (n + 2) → ℂ, q p ≠ 0 := Measure.ae_eval_ne (α := fun _ => ℂ) (fun _ => volume) p 0
  set D : (Fin (n + 2) → ℂ) → ℝ≥0∞ := fun Z => ‖eval Z (pderiv (p.succAbove d) F)‖ₑ ^ 2 with hD
  have hDm : Measurable D := (measurable_evalZ _).enorm.pow_const 2
  set k : (Fin (n + 2) → ℂ) → (Fin (n + 2) → ℂ) → ℝ≥0∞ :=
    fun q Z => cdensity q * (φ Z * lineDensity Z q * (‖dirD F q Z‖ₑ ^ 2 / D Z)) with hk
  have hkm : Measurable fun x : (Fin (n + 2) → ℂ) × (Fin (n + 2) → ℂ) => k x.1 x.2 := by
    simp only [hk, hD]
    fun_prop
  -- the two sets differ where the summand vanishes
  have hind : ∀ q Z, cdensity q * (goodSet p d F q).indicator
      (fun Z => φ Z * lineDensity Z q * (‖dirD F q Z‖ₑ ^ 2 / D Z)) Z = R.indicator (k q) Z := by
    intro q Z
    by_cases hZ : Z ∈ R
    · rw [indicator_of_mem hZ]
      by_cases hd : dirD F q Z = 0
      · rw [indicator_of_notMem (fun h => h.2.1 hd), mul_zero, hk]
        simp [hd]
      · rw [indicator_of_mem (show Z ∈ goodSet p d F q from ⟨hZ.1, hd, hZ.2⟩)]
    · rw [indicator_of_notMem hZ, indicator_of_notMem (fun h => hZ ⟨h.1, h.2.2⟩), mul_zero]
  have hm0 : Measurable fun x : ((Fin (n + 2) → ℂ) × ℂ × (Fin n → ℂ)) × ℂ => k x.1.1 (hpoint p d x.1.2.1 x.2 x.1.2.2) :=
    hkm.comp (f := fun x : ((Fin (n + 2) → ℂ) × ℂ × (Fin n → ℂ)) × ℂ => (x.1.1, hpoint p d x.1.2.1 x.2 x.1.2.2)) (by fun_prop)
  have hmJ : Measurable fun x : (Fin (n + 2) → ℂ) × ℂ × (Fin n → ℂ) => ∑' y, R.indicator (k x.1) (hpoint p d x.2.1 y x.2.2) :=
    measurable_regularSum p d F (X := (Fin (n + 2) → ℂ) × ℂ × (Fin n → ℂ)) (a := fun x => x.2.1) (b := fun x => x.2.2)
      (k := fun x => k x.1) (by fun_prop) (by fun_prop) hm0
  have h1 : ∫⁻ q, cdensity q * ∫⁻ P, cdensity P * ∑' t : ℂ, (goodSet p d F q).indicator φ (P + t • q) =
      ∫⁻ q, ∫⁻ x, ∫⁻ w, ∑' y, R.indicator (k q) (hpoint p d x y w) := by
    refine lintegral_congr_ae ?_
    filter_upwards [hae] with q hq
    have hmq : Measurable fun x : ℂ × (Fin n → ℂ) => ∑' y, (goodSet p d F q).indicator
        (fun Z => φ Z * lineDensity Z q * (‖dirD F q Z‖ₑ ^ 2 / D Z)) (hpoint p d x.1 y x.2) := by
      have hm : Measurable fun x : (ℂ × (Fin n → ℂ)) × ℂ => hpoint p d x.1.1 x.2 x.1.2 := by fun_prop
      exact measurable_hpointSum p d F (X := ℂ × (Fin n → ℂ)) (a := fun x => x.1) (b := fun x => x.2)
        (G := fun _ => goodSet p d F q) (k := fun _ Z => φ Z * lineDensity Z q * (‖dirD F q Z‖ₑ ^ 2 / D Z))
        continuous_fst continuous_snd (hm (measurableSet_goodSet p d F q)) (fun _ Z hZ => ⟨hZ.1, hZ.2.2⟩) (by fun_prop)
    rw [along_direction p d F hq hφ, ← lintegral_const_mul _ hmq.lintegral_prod_right']
    refine lintegral_congr fun x => ?_
    have hmx : Measurable fun w : Fin n → ℂ => ∑' y, (goodSet p d F q).indicator
        (fun Z => φ Z * lineDensity Z q * (‖dirD F q Z‖ₑ ^ 2 / D Z)) (hpoint p d x y w) :=
      hmq.comp (f := fun w : Fin n → ℂ => (x, w)) (by fun_prop)
    rw [← lintegral_const_mul _ hmx]
    refine lintegral_congr fun w => ?_
    rw [← ENNReal.tsum_mul_left]
    exact tsum_congr fun y => hind q _
  rw [h1]
  -- the direction first
  have h2 : ∫⁻ q, ∫⁻ x, ∫⁻ w, ∑' y, R.indicator (k q) (hpoint p d x y w) =
      ∫⁻ x, ∫⁻ w, ∫⁻ q, ∑' y, R.indicator (k q) (hpoint p d x y w) := by
    have hma : Measurable fun x : ((Fin (n + 2) → ℂ) × ℂ) × (Fin n → ℂ) => ∑' y, R.indicator (k x.1.1) (hpoint p d x.1.2 y x.2) :=
      hmJ.comp (f := fun x : ((Fin (n + 2) → ℂ) × ℂ) × (Fin n → ℂ) => (x.1.1, x.1.2, x.2)) (by fun_prop)
    rw [lintegral_lintegral_swap hma.lintegral_prod_right'.aemeasurable]
    refine lintegral_congr fun x => ?_
    exact lintegral_lintegral_swap (hmJ.comp (f := fun z : (Fin (n + 2) → ℂ) × (Fin n → ℂ) => (z.1, x, z.2)) (by fun_prop)).aemeasurable
  rw [h2]
  refine lintegral_congr fun x => lintegral_congr fun w => ?_
  have hkq : ∀ Z, Measurable fun q => k q Z := fun Z =>
    hkm.comp (f := fun q : Fin (n + 2) → ℂ => (q, Z)) (by fun_prop)
  rw [lintegral_tsum_countable (countable_regular p d F x w)]
  · refine tsum_congr fun y => ?_
    by_cases hy : hpoint p d x y w ∈ R
    · simp_rw [indicator_of_mem hy]
      set Z := hpoint p d x y w with hZ
      have hfac : ∀ q, k q Z = φ Z / D Z * (cdensity q * (lineDensity Z q * ‖dirD F q Z‖ₑ ^ 2)) := by
        intro q
        rw [hk]
        simp only [div_eq_mul_inv]
        ring
      have hmK : Measurable fun q => cdensity q * (lineDensity Z q * ‖dirD F q Z‖ₑ ^ 2) := by
        fun_prop
      simp_rw [hfac]
      rw [lintegral_const_mul _ hmK, kernel hom hy.1]
      simp only [div_eq_mul_inv]
      ring
    · simp_rw [indicator_of_notMem hy]
      simp
  · intro y
    by_cases hy : hpoint p d x y w ∈ R
    · simp_rw [indicator_of_mem hy]
      exact hkq _
    · simp_rw [indicator_of_notMem hy]
      exact measurable_const
  · intro q y hy
    exact indicator_of_notMem (s := R) hy (k q)

end Average

end Cyjax
