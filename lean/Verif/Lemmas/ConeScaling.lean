import Verif.Lemmas.ConeAverage

/-! # From the cone over a hypersurface to an affine chart -/

namespace Cyjax

open MeasureTheory MvPolynomial Cyjax.Spec Set
open scoped ENNReal

section Scaling

variable {m : ℕ} {F : MvPolynomial (Fin m) ℂ} {e : ℕ}

theorem eval_smul_point (hom : F.IsHomogeneous e) (c : ℂ) (Z : Fin m → ℂ) : eval (c • Z) F = c ^ e * eval Z F :=
  eval_smul_homogeneous hom c Z

theorem gradSq_smul (hom : F.IsHomogeneous e) (c : ℂ) (Z : Fin m → ℂ) :
    gradSq F (c • Z) = (‖c‖ ^ 2) ^ (e - 1) * gradSq F Z := by
  simp only [gradSq, Finset.mul_sum]
  refine Finset.sum_congr rfl fun i _ => ?_
  rw [eval_smul_point hom.pderiv, norm_mul, norm_pow]
  ring

theorem sumSq_smul (c : ℂ) (Z : Fin m → ℂ) : ∑ k, ‖(c • Z) k‖ ^ 2 = ‖c‖ ^ 2 * ∑ k, ‖Z k‖ ^ 2 := by
  rw [Finset.mul_sum]
  exact Finset.sum_congr rfl fun k _ => by rw [Pi.smul_apply, norm_smul, mul_pow]

end Scaling

variable {n : ℕ} (p : Fin (n + 2)) (d : Fin (n + 1)) {F : MvPolynomial (Fin (n + 2)) ℂ} {e : ℕ}

theorem smul_mem_regularSet (hom : F.IsHomogeneous e) {c : ℂ} (hc : c ≠ 0) (Z : Fin (n + 2) → ℂ) :
    c • Z ∈ regularSet p d F ↔ Z ∈ regularSet p d F := by
  change eval (c • Z) F = 0 ∧ eval (c • Z) (pderiv (p.succAbove d) F) ≠ 0 ↔ eval Z F = 0 ∧ eval Z (pderiv (p.succAbove d) F) ≠ 0
  rw [eval_smul_point hom, eval_smul_point hom.pderiv]
  simp [hc]

/-- The summand at a multiple of a point. -/
theorem summand_smul (hom : F.IsHomogeneous e) {φ : (Fin (n + 2) → ℂ) → ℝ≥0∞} (hinv : ∀ c : ℂ, c ≠ 0 → ∀ Z, φ (c • Z) = φ Z)
    {c : ℂ} (hc : c ≠ 0) (Z : Fin (n + 2) → ℂ) :
    (regularSet p d F).indicator (fun Z => φ Z * (ENNReal.ofReal (gradSq F Z) * radial (n + 2) (∑ k, ‖Z k‖ ^ 2)) /
          ‖eval Z (pderiv (p.succAbove d) F)‖ₑ ^ 2) (c • Z) =
      (regularSet p d F).indicator (fun Z => φ Z * ENNReal.ofReal (gradSq F Z) / ‖eval Z (pderiv (p.succAbove d) F)‖ₑ ^ 2 *
        radial (n + 2) (‖c‖ ^ 2 * ∑ k, ‖Z k‖ ^ 2)) Z := by
  by_cases hZ : Z ∈ regularSet p d F
  · rw [indicator_of_mem hZ, indicator_of_mem ((smul_mem_regularSet p d hom hc Z).2 hZ), hinv c hc, sumSq_smul, gradSq_smul hom,
      eval_smul_point hom.pderiv, enorm_mul, enorm_pow, mul_pow, ENNReal.ofReal_mul (by positivity), ENNReal.ofReal_pow (by positivity),
      ENNReal.ofReal_pow (norm_nonneg _), ofReal_norm, ← pow_mul, ← pow_mul, mul_comm (e - 1) 2]
    have h1 : ‖c‖ₑ ^ (2 * (e - 1)) ≠ 0 := by simp [hc]
    have h2 : ‖c‖ₑ ^ (2 * (e - 1)) ≠ ⊤ := by simp
    generalize ‖c‖ₑ ^ (2 * (e - 1)) = x at h1 h2
    rw [div_eq_mul_inv, div_eq_mul_inv, ENNReal.mul_inv (Or.inl h1) (Or.inl h2)]
    generalize (‖eval Z (pderiv (p.succAbove d) F)‖ₑ ^ 2)⁻¹ = y
    generalize ENNReal.ofReal (gradSq F Z) = g
    generalize radial (n + 2) (‖c‖ ^ 2 * ∑ k, ‖Z k‖ ^ 2) = r
    calc φ Z * (x * g * r) * (x⁻¹ * y) = φ Z * g * y * r * (x * x⁻¹) := by ring
      _ = φ Z * g * y * r := by rw [ENNReal.mul_inv_cancel h1 h2, mul_one]
  · rw [indicator_of_notMem hZ, indicator_of_notMem (mt (smul_mem_regularSet p d hom hc Z).1 hZ)]

theorem cone_average (hom : F.IsHomogeneous e) {φ : (Fin (n + 2) → ℂ) → ℝ≥0∞} (hφ : Measurable φ)
    (hinv : ∀ c : ℂ, c ≠ 0 → ∀ Z, φ (c • Z) = φ Z) :
    ∫⁻ q, cdensity q * ∫⁻ P, cdensity P * ∑' t : ℂ, (goodSet p d F q).indicator φ (P + t • q) =
      ENNReal.ofReal (n.factorial / Real.pi ^ n) * ∫⁻ w, ∑' y, (regularSet p d F).indicator
        (fun Z => φ Z * ENNReal.ofReal (gradSq F Z / (∑ k, ‖Z k‖ ^ 2) ^ (n + 1)) /
          ‖eval Z (pderiv (p.succAbove d) F)‖ₑ ^ 2) (hpoint p d 1 y w) := by
  rw [average_direction p d F hom hφ]
  have hS : Measurable fun Z : Fin (n + 2) → ℂ => ENNReal.ofReal (gradSq F Z) := (measurable_gradSq F).ennreal_ofReal
  have hrad : ∀ {X : Type} [MeasurableSpace X] {f : X → ℝ}, Measurable f → Measurable fun x => radial (n + 2) (f x) :=
    fun hf => (measurable_radial (n + 2)).comp hf
  set R := regularSet p d F with hR
  set B : (Fin (n + 2) → ℂ) → ℝ≥0∞ := fun Z => φ Z * ENNReal.ofReal (gradSq F Z) / ‖eval Z (pderiv (p.succAbove d) F)‖ₑ ^ 2 with hB
  have hBm : Measurable B := by fun_prop
  set k : (Fin (n + 2) → ℂ) → ℝ≥0∞ := fun Z => φ Z * (ENNReal.ofReal (gradSq F Z) * radial (n + 2) (∑ k, ‖Z k‖ ^ 2)) /
          ‖eval Z (pderiv (p.succAbove d) F)‖ₑ ^ 2 with hk
  have hr0 : Measurable fun Z : Fin (n + 2) → ℂ => radial (n + 2) (∑ k, ‖Z k‖ ^ 2) := hrad (by fun_prop)
  have hkm : Measurable k := by fun_prop
  set g : ℂ → (Fin (n + 2) → ℂ) → ℝ≥0∞ := fun x Z => ‖x‖ₑ ^ (2 * n) * (B Z * radial (n + 2) (‖x‖ ^ 2 * ∑ k, ‖Z k‖ ^ 2)) with hg
  have hgm : Measurable fun z : ℂ × (Fin (n + 2) → ℂ) => g z.1 z.2 := by
    have : Measurable fun z : ℂ × (Fin (n + 2) → ℂ) => radial (n + 2) (‖z.1‖ ^ 2 * ∑ k, ‖z.2 k‖ ^ 2) := hrad (by fun_prop)
    fun_prop
  have hae : ∀ᵐ x : ℂ, x ≠ 0 := by
    simp [ae_iff]
  have h1 : ∫⁻ x, ∫⁻ w, ∑' y, R.indicator k (hpoint p d x y w) = ∫⁻ x, ∫⁻ w, ∑' y, R.indicator (g x) (hpoint p d 1 y w) := by
    refine lintegral_congr_ae ?_
    filter_upwards [hae] with x hx
    have hmw : Measurable fun w : Fin n → ℂ => ∑' y, R.indicator k (hpoint p d x y w) :=
      measurable_regularSum p d F (X := Fin n → ℂ) (a := fun _ => x) (b := fun w => w) (k := fun _ => k) continuous_const
        continuous_id (by fun_prop)
    have hmw' : Measurable fun w : Fin n → ℂ => ∑' y, R.indicator k (hpoint p d x y (x • w)) :=
      hmw.comp (f := fun w : Fin n → ℂ => x • w) (by fun_prop)
    rw [lintegral_comp_smul hx hmw, ← lintegral_const_mul _ hmw']
    refine lintegral_congr fun w => ?_
    rw [← ENNReal.tsum_mul_left, ← (Equiv.mulLeft₀ x hx).tsum_eq]
    refine tsum_congr fun y => ?_
    have hpt : hpoint p d x (x * y) (x • w) = x • hpoint p d 1 y w := by
      rw [← hpoint_smul, mul_one]
    change ‖x‖ₑ ^ (2 * n) * R.indicator k (hpoint p d x (x * y) (x • w)) = _
    rw [hpt, hk, hR, summand_smul p d hom hinv hx]
    by_cases hZ : hpoint p d 1 y w ∈ regularSet p d F
    · rw [indicator_of_mem hZ, indicator_of_mem hZ]
    · rw [indicator_of_notMem hZ, indicator_of_notMem hZ, mul_zero]
  rw [h1]
  have hmJ : Measurable fun z : ℂ × (Fin n → ℂ) => ∑' y, R.indicator (g z.1) (hpoint p d 1 y z.2) :=
    measurable_regularSum p d F (X := ℂ × (Fin n → ℂ)) (a := fun _ => 1) (b := fun z => z.2) (k := fun z => g z.1) continuous_const
      continuous_snd (hgm.comp (f := fun z : (ℂ × (Fin n → ℂ)) × ℂ => (z.1.1, hpoint p d 1 z.2 z.1.2)) (by fun_prop))
  have hmF : Measurable fun w : Fin n → ℂ => ∑' y, R.indicator
        (fun Z => φ Z * ENNReal.ofReal (gradSq F Z / (∑ k, ‖Z k‖ ^ 2) ^ (n + 1)) /
          ‖eval Z (pderiv (p.succAbove d) F)‖ₑ ^ 2) (hpoint p d 1 y w) := by
    have := measurable_gradSq F
    have hk' : Measurable fun Z : Fin (n + 2) → ℂ => φ Z * ENNReal.ofReal (gradSq F Z / (∑ k, ‖Z k‖ ^ 2) ^ (n + 1)) /
          ‖eval Z (pderiv (p.succAbove d) F)‖ₑ ^ 2 := by fun_prop
    exact measurable_regularSum p d F (X := Fin n → ℂ) (a := fun _ => 1) (b := fun w => w) (k := fun _ Z => φ Z * ENNReal.ofReal (gradSq F Z / (∑ k, ‖Z k‖ ^ 2) ^ (n + 1)) /
          ‖eval Z (pderiv (p.succAbove d) F)‖ₑ ^ 2) continuous_const
        continuous_id (hk'.comp (f := fun z : (Fin n → ℂ) × ℂ => hpoint p d 1 z.2 z.1) (by fun_prop))
  rw [lintegral_lintegral_swap hmJ.aemeasurable, ← lintegral_const_mul _ hmF]
  refine lintegral_congr fun w => ?_
  rw [lintegral_tsum_countable (countable_regular p d F 1 w), ← ENNReal.tsum_mul_left]
  · refine tsum_congr fun y => ?_
    by_cases hy : hpoint p d 1 y w ∈ R
    · simp_rw [indicator_of_mem hy]
      set Z := hpoint p d 1 y w with hZ
      have hρ : 0 < ∑ k, ‖Z k‖ ^ 2 := by
        refine Finset.sum_pos' (fun _ _ => by positivity) ⟨p, Finset.mem_univ _, ?_⟩
        rw [hZ, hpoint_p]
        simp
      have hfac : ∀ x : ℂ, g x Z = B Z * (‖x‖ₑ ^ (2 * n) * radial (n + 2) (‖x‖ ^ 2 * ∑ k, ‖Z k‖ ^ 2)) := by
        intro x
        rw [hg]
        ring
      have hmr : Measurable fun x : ℂ => radial (n + 2) (‖x‖ ^ 2 * ∑ k, ‖Z k‖ ^ 2) := hrad (by fun_prop)
      simp_rw [hfac]
      rw [lintegral_const_mul _ (by fun_prop), lintegral_radial n hρ, hB, div_eq_mul_one_div (gradSq F Z),
        ENNReal.ofReal_mul (gradSq_nonneg F Z)]
      simp only [div_eq_mul_inv _ (‖eval Z (pderiv (p.succAbove d) F)‖ₑ ^ 2)]
      ring
    · simp_rw [indicator_of_notMem hy]
      simp
  · intro y
    by_cases hy : hpoint p d 1 y w ∈ R
    · simp_rw [indicator_of_mem hy]
      exact hgm.comp (f := fun x : ℂ => (x, hpoint p d 1 y w)) (by fun_prop)
    · simp_rw [indicator_of_notMem hy]
      exact measurable_const
  · intro x y hy
    exact indicator_of_notMem (s := R) hy (g x)

end Cyjax
