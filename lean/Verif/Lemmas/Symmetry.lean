import Verif.Spec.Symmetry
import Verif.Props.Sphere
import Verif.Props.Volume
import Verif.Lemmas.CyMeasure
import Verif.Lemmas.WeightAverage
import Verif.Lemmas.ConeConnected

/-! # Invariance of the measures of a hypersurface under its symmetries (C155) -/

namespace Cyjax

open MeasureTheory MvPolynomial Cyjax.Spec Set Matrix
open scoped ENNReal ComplexConjugate

section Unitary

variable {m : ℕ} {U : Matrix (Fin m) (Fin m) ℂ} (hU : U ∈ Matrix.unitaryGroup (Fin m) ℂ)

include hU

theorem unitary_star_mul : star U * U = 1 := (Matrix.mem_unitaryGroup_iff').1 hU

theorem unitary_mul_star : U * star U = 1 := (Matrix.mem_unitaryGroup_iff).1 hU

theorem unitary_sq (w : Fin m → ℂ) : ∑ i, ‖(U *ᵥ w) i‖ ^ 2 = ∑ i, ‖w i‖ ^ 2 := by
  have h : star (U *ᵥ w) ⬝ᵥ (U *ᵥ w) = star w ⬝ᵥ w := by
    rw [Matrix.star_mulVec, ← Matrix.dotProduct_mulVec, Matrix.mulVec_mulVec, ← Matrix.star_eq_conjTranspose,
      unitary_star_mul hU, Matrix.one_mulVec]
  have h2 : ∀ v : Fin m → ℂ, star v ⬝ᵥ v = ((∑ i, ‖v i‖ ^ 2 : ℝ) : ℂ) := by
    intro v
    simp only [dotProduct, Pi.star_apply]
    push_cast
    refine Finset.sum_congr rfl fun i _ => ?_
    rw [← Complex.conj_mul']
    rfl
  rw [h2, h2] at h
  exact_mod_cast h

theorem unitary_sq_transpose (w : Fin m → ℂ) : ∑ i, ‖(U.transpose *ᵥ w) i‖ ^ 2 = ∑ i, ‖w i‖ ^ 2 := by
  have hT : U.transpose ∈ Matrix.unitaryGroup (Fin m) ℂ := by
    rw [Matrix.mem_unitaryGroup_iff, Matrix.star_eq_conjTranspose]
    have h := congrArg Matrix.transpose (unitary_star_mul hU)
    rw [Matrix.transpose_mul, Matrix.transpose_one, Matrix.star_eq_conjTranspose] at h
    rwa [show Uᵀᴴ = Uᴴᵀ from rfl]
  exact unitary_sq hT w

theorem star_unitary : star U ∈ Matrix.unitaryGroup (Fin m) ℂ := by
  rw [Matrix.mem_unitaryGroup_iff, star_star]
  exact unitary_star_mul hU

theorem mulVec_star_mulVec (Z : Fin m → ℂ) : U *ᵥ (star U *ᵥ Z) = Z := by
  rw [Matrix.mulVec_mulVec, unitary_mul_star hU, Matrix.one_mulVec]

theorem mulVec_unitary_ne {Z : Fin m → ℂ} (hZ : Z ≠ 0) : U *ᵥ Z ≠ 0 := by
  intro h0
  refine hZ ?_
  rw [← Matrix.one_mulVec Z, ← unitary_star_mul hU, ← Matrix.mulVec_mulVec, h0, Matrix.mulVec_zero]

omit hU in
theorem continuous_mulVec (U : Matrix (Fin m) (Fin m) ℂ) : Continuous fun Z : Fin m → ℂ => U *ᵥ Z :=
  U.mulVecLin.continuous_of_finiteDimensional

/-- A factor by which a unitary map changes a function on a cone is one, if the function is positive somewhere. -/
theorem factor_eq_one {K : Set (Fin m → ℂ)} (hK : IsClosed K) (hUK : ∀ Z, U *ᵥ Z ∈ K ↔ Z ∈ K) {f : (Fin m → ℂ) → ℝ}
    (hf : Continuous f) {c : ℝ} (hc : 0 ≤ c) (hfc : ∀ Z ∈ K, f (U *ᵥ Z) = c * f Z)
    (hpos : ∃ Z ∈ K, ∑ i, ‖Z i‖ ^ 2 = 1 ∧ 0 < f Z) : c = 1 := by
  have hS : IsCompact ({Z : Fin m → ℂ | ∑ i, ‖Z i‖ ^ 2 = 1} ∩ K) := by
    refine Metric.isCompact_of_isClosed_isBounded (IsClosed.inter ?_ hK) ?_
    · exact isClosed_singleton.preimage (f := fun Z : Fin m → ℂ => ∑ i, ‖Z i‖ ^ 2) (by fun_prop)
    · refine (Metric.isBounded_closedBall (x := (0 : Fin m → ℂ)) (r := 1)).subset fun Z hZ => ?_
      rw [mem_closedBall_zero_iff, pi_norm_le_iff_of_nonneg zero_le_one]
      intro i
      have h1 : ‖Z i‖ ^ 2 ≤ ∑ i, ‖Z i‖ ^ 2 :=
        Finset.single_le_sum (f := fun i => ‖Z i‖ ^ 2) (fun i _ => by positivity) (Finset.mem_univ i)
      have h2 : ∑ i, ‖Z i‖ ^ 2 = 1 := hZ.1
      rw [h2] at h1
      exact (sq_le_one_iff₀ (norm_nonneg _)).1 h1
  obtain ⟨Z1, hZ1, hn1, hp1⟩ := hpos
  obtain ⟨Z0, hZ0, hmax⟩ := hS.exists_isMaxOn ⟨Z1, hn1, hZ1⟩ hf.continuousOn
  have hp0 : 0 < f Z0 := lt_of_lt_of_le hp1 (hmax ⟨hn1, hZ1⟩)
  have hn0 : ∑ i, ‖Z0 i‖ ^ 2 = 1 := hZ0.1
  refine le_antisymm ?_ ?_
  · have h1 : f (U *ᵥ Z0) ≤ f Z0 := hmax ⟨by rw [mem_ofPred_eq, unitary_sq hU, hn0], (hUK Z0).2 hZ0.2⟩
    rw [hfc Z0 hZ0.2] at h1
    by_contra hcon
    push Not at hcon
    nlinarith
  · have hW : star U *ᵥ Z0 ∈ K := by
      rw [← hUK, mulVec_star_mulVec hU]
      exact hZ0.2
    have h1 : f (star U *ᵥ Z0) ≤ f Z0 := hmax ⟨by rw [mem_ofPred_eq, unitary_sq (star_unitary hU), hn0], hW⟩
    have h2 := hfc _ hW
    rw [mulVec_star_mulVec hU] at h2
    by_contra hcon
    push Not at hcon
    nlinarith [mul_le_mul_of_nonneg_left h1 hc]

end Unitary

section Normal

variable {m : ℕ}

private noncomputable def rvec (w : Fin m → ℂ) : Fin (2 * m) → ℝ :=
  fun j => if h : (j : ℕ) < m then (w ⟨j, h⟩).re else (w ⟨j - m, by omega⟩).im

private theorem cvec_rvec (w : Fin m → ℂ) : cvec (rvec w) = w := by
  funext i
  unfold cvec rvec
  have h1 : (i : ℕ) < m := i.2
  simp only [h1, dif_pos, show ¬ m + (i : ℕ) < m by omega, dif_neg, not_false_eq_true, Nat.add_sub_cancel_left]
  apply Complex.ext <;> simp

private theorem sum_cvec_sq (x : Fin (2 * m) → ℝ) : ∑ i, ‖cvec x i‖ ^ 2 = ∑ i, x i ^ 2 := by
  have hsum : ∀ f : Fin (2 * m) → ℝ, ∑ i, f i = ∑ i : Fin m, f ⟨i, by omega⟩ + ∑ i : Fin m, f ⟨m + i, by omega⟩ := by
    intro f
    rw [← Fin.sum_congr' f (by omega : m + m = 2 * m), Fin.sum_univ_add]
    rfl
  rw [hsum, ← Finset.sum_add_distrib]
  refine Finset.sum_congr rfl fun i _ => ?_
  rw [← Complex.normSq_eq_norm_sq, Complex.normSq_apply]
  simp [cvec]
  ring

private noncomputable def rmap (U : Matrix (Fin m) (Fin m) ℂ) : (Fin (2 * m) → ℝ) →ₗ[ℝ] (Fin (2 * m) → ℝ) where
  toFun x := rvec (U *ᵥ cvec x)
  map_add' x y := by
    have h : cvec (x + y) = cvec x + cvec y := by
      funext i; simp [cvec]; ring
    rw [h, Matrix.mulVec_add]
    funext j
    unfold rvec
    by_cases hj : (j : ℕ) < m <;> simp [hj]
  map_smul' c x := by
    have h : cvec (c • x) = (c : ℂ) • cvec x := by
      funext i; simp [cvec]; ring
    rw [h, Matrix.mulVec_smul]
    funext j
    unfold rvec
    by_cases hj : (j : ℕ) < m <;> simp [hj]

/-- Unitary maps do not change the law of a vector of normal complex numbers. -/
theorem cnormal_unitary {U : Matrix (Fin m) (Fin m) ℂ} (hU : U ∈ Matrix.unitaryGroup (Fin m) ℂ) :
    (cnormal m).map (fun Z => U *ᵥ Z) = cnormal m := by
  have hf : ∀ x, ∑ i, rmap U x i ^ 2 = ∑ i, x i ^ 2 := by
    intro x
    rw [← sum_cvec_sq, ← sum_cvec_sq x]
    change ∑ i, ‖cvec (rvec (U *ᵥ cvec x)) i‖ ^ 2 = _
    rw [cvec_rvec, unitary_sq hU]
  have hmr : Measurable (rmap U) := (rmap U).continuous_of_finiteDimensional.measurable
  have hc : Measurable (cvec (m := m)) := (continuous_cvec m).measurable
  unfold cnormal
  rw [Measure.map_map (continuous_mulVec U).measurable hc]
  conv_rhs => rw [← normalRow_map (rmap U) hf, Measure.map_map hc hmr]
  congr 1
  funext x
  exact (cvec_rvec _).symm

theorem lineLaw_unitary {U : Matrix (Fin m) (Fin m) ℂ} (hU : U ∈ Matrix.unitaryGroup (Fin m) ℂ) :
    (lineLaw m).map (Prod.map (fun Z => U *ᵥ Z) (fun Z => U *ᵥ Z)) = lineLaw m := by
  unfold lineLaw
  rw [← Measure.map_prod_map _ _ (continuous_mulVec U).measurable (continuous_mulVec U).measurable, cnormal_unitary hU]

end Normal

section Polynomial

variable {m : ℕ} {F : MvPolynomial (Fin m) ℂ} {U : Matrix (Fin m) (Fin m) ℂ}

/-- The gradients at `U Z` and at `Z`. -/
theorem gradient_mulVec {c : ℂ} (hc : ∀ Z : Fin m → ℂ, eval (U *ᵥ Z) F = c * eval Z F) (Z : Fin m → ℂ) :
    U.transpose *ᵥ (fun i => eval (U *ᵥ Z) (pderiv i F)) = fun i => c * eval Z (pderiv i F) := by
  funext j
  have e : ∀ s : ℂ, onLine (U *ᵥ Z) (U *ᵥ Pi.single j 1) s = U *ᵥ onLine Z (Pi.single j 1) s := by
    intro s
    have e2 : ∀ W v : Fin m → ℂ, onLine W v s = W + s • v := fun W v => by funext i; simp [onLine]
    rw [e2, e2, Matrix.mulVec_add, Matrix.mulVec_smul]
  have h1 := hasDerivAt_onLine F (U *ᵥ Pi.single j 1) (U *ᵥ Z) 0
  have h2 := (hasDerivAt_onLine F (Pi.single j 1) Z 0).const_mul c
  simp only [e, hc] at h1
  have h3 := h1.unique h2
  rw [onLine_zero, dirD_single] at h3
  rw [← h3]
  simp [dirD, Matrix.mulVec, dotProduct, Pi.single_apply]

theorem gradSq_mulVec {c : ℂ} (hU : U ∈ Matrix.unitaryGroup (Fin m) ℂ)
    (hc : ∀ Z : Fin m → ℂ, eval (U *ᵥ Z) F = c * eval Z F) (Z : Fin m → ℂ) :
    gradSq F (U *ᵥ Z) = ‖c‖ ^ 2 * gradSq F Z := by
  unfold gradSq
  rw [← unitary_sq_transpose hU fun i => eval (U *ᵥ Z) (pderiv i F), gradient_mulVec hc, Finset.mul_sum]
  simp only [norm_mul, mul_pow]

theorem sphere_point {e : ℕ} (hom : F.IsHomogeneous e) (hF : F ≠ 0) : ∃ Z : Fin m → ℂ, ∑ i, ‖Z i‖ ^ 2 = 1 ∧ eval Z F ≠ 0 ∨
    e = 0 := by
  by_cases he : e = 0
  · exact ⟨0, .inr he⟩
  obtain ⟨W, hW⟩ : ∃ W : Fin m → ℂ, eval W F ≠ 0 := by
    by_contra hcon
    push Not at hcon
    exact hF (MvPolynomial.funext fun Z => by rw [hcon Z, map_zero])
  have hW0 : W ≠ 0 := by
    rintro rfl
    refine hW ?_
    have := eval_smul_point hom 0 (0 : Fin m → ℂ)
    rwa [zero_smul, zero_pow he, zero_mul] at this
  have hs : 0 < ∑ i, ‖W i‖ ^ 2 := by
    obtain ⟨i, hi⟩ := Function.ne_iff.1 hW0
    exact Finset.sum_pos' (fun i _ => by positivity) ⟨i, Finset.mem_univ i, by have := norm_pos_iff.2 hi; positivity⟩
  set r : ℝ := (√(∑ i, ‖W i‖ ^ 2))⁻¹ with hr
  have hr0 : r ≠ 0 := inv_ne_zero (Real.sqrt_pos.2 hs).ne'
  refine ⟨(r : ℂ) • W, .inl ⟨?_, ?_⟩⟩
  · simp only [Pi.smul_apply, smul_eq_mul, norm_mul, mul_pow, ← Finset.mul_sum, Complex.norm_real, Real.norm_eq_abs, sq_abs]
    rw [hr, inv_pow, Real.sq_sqrt hs.le, inv_mul_cancel₀ hs.ne']
  · rw [eval_smul_point hom]
    exact mul_ne_zero (pow_ne_zero _ (by exact_mod_cast hr0)) hW

/-- The factor of a symmetry has absolute value one. -/
theorem symmetry_norm_factor {e : ℕ} (hom : F.IsHomogeneous e) (he : e ≠ 0) (hF : F ≠ 0) {c : ℂ}
    (hU : U ∈ Matrix.unitaryGroup (Fin m) ℂ) (hc : ∀ Z : Fin m → ℂ, eval (U *ᵥ Z) F = c * eval Z F) : ‖c‖ = 1 := by
  obtain ⟨Z, ⟨h1, h2⟩ | h⟩ := sphere_point hom hF
  · refine factor_eq_one hU (K := univ) isClosed_univ (fun _ => by simp) (f := fun Z => ‖eval Z F‖)
      (MvPolynomial.continuous_eval F).norm (norm_nonneg c) (fun Z _ => by rw [hc, norm_mul]) ⟨Z, mem_univ _, h1, norm_pos_iff.2 h2⟩
  · exact absurd h he

theorem symmetry_star {c : ℂ} (h0 : c ≠ 0) (hU : U ∈ Matrix.unitaryGroup (Fin m) ℂ)
    (hc : ∀ Z : Fin m → ℂ, eval (U *ᵥ Z) F = c * eval Z F) (Z : Fin m → ℂ) : eval (star U *ᵥ Z) F = c⁻¹ * eval Z F := by
  have := hc (star U *ᵥ Z)
  rw [mulVec_star_mulVec hU] at this
  rw [this, inv_mul_cancel_left₀ h0]

end Polynomial

section Measure

variable {n : ℕ} {F : MvPolynomial (Fin (n + 2)) ℂ} {U : Matrix (Fin (n + 2)) (Fin (n + 2)) ℂ}

theorem lineSum_mulVec {c : ℂ} (h0 : c ≠ 0) (hc : ∀ Z, eval (U *ᵥ Z) F = c * eval Z F)
    (φ : (Fin (n + 2) → ℂ) → ℝ≥0∞) (x : (Fin (n + 2) → ℂ) × (Fin (n + 2) → ℂ)) :
    lineSum F (fun Z => φ (U *ᵥ Z)) x = lineSum F φ (Prod.map (fun Z => U *ᵥ Z) (fun Z => U *ᵥ Z) x) := by
  have e : ∀ t, linePoint (Prod.map (fun Z => U *ᵥ Z) (fun Z => U *ᵥ Z) x) t = U *ᵥ linePoint x t := by
    intro t
    have e2 : ∀ y : (Fin (n + 2) → ℂ) × (Fin (n + 2) → ℂ), linePoint y t = y.1 + t • y.2 := fun y => by
      funext i; simp [linePoint]
    rw [e2, e2, Matrix.mulVec_add, Matrix.mulVec_smul]
    rfl
  unfold lineSum
  refine tsum_congr fun t => ?_
  have hs : {t | eval (linePoint (Prod.map (fun Z => U *ᵥ Z) (fun Z => U *ᵥ Z) x) t) F = 0} =
      {t | eval (linePoint x t) F = 0} := by
    ext t
    rw [mem_ofPred_eq, mem_ofPred_eq, e, hc, mul_eq_zero]
    exact or_iff_right h0
  rw [hs]
  simp only [e]

/-- The Fubini-Study measure is invariant. -/
theorem fsMeasure_symmetry {e : ℕ} (hF : Irreducible F) (hom : F.IsHomogeneous e) (he : e ≠ 0) (p : Fin (n + 2))
    (d : Fin (n + 1)) (hd : pderiv (p.succAbove d) F ≠ 0) (hU : U ∈ Matrix.unitaryGroup (Fin (n + 2)) ℂ) {c : ℂ}
    (h0 : c ≠ 0) (hc : ∀ Z, eval (U *ᵥ Z) F = c * eval Z F) {φ : (Fin (n + 2) → ℂ) → ℝ≥0∞} (hφ : Measurable φ)
    (hinv : ∀ c : ℂ, c ≠ 0 → ∀ Z, φ (c • Z) = φ Z) :
    ∫⁻ Z, φ (U *ᵥ Z) ∂fsMeasure p d F = ∫⁻ Z, φ Z ∂fsMeasure p d F := by
  have hUm := (continuous_mulVec U).measurable
  rw [← lineSum_fs (p := p) (d := d) hF hom he hd (φ := fun Z => φ (U *ᵥ Z)) (hφ.comp hUm)
    (fun a ha Z => by rw [Matrix.mulVec_smul, hinv a ha]), ← lineSum_fs (p := p) (d := d) hF hom he hd hφ hinv]
  conv_rhs => rw [← lineLaw_unitary hU]
  let E : ((Fin (n + 2) → ℂ) × (Fin (n + 2) → ℂ)) ≃ᵐ ((Fin (n + 2) → ℂ) × (Fin (n + 2) → ℂ)) :=
    { toFun := Prod.map (fun Z => U *ᵥ Z) (fun Z => U *ᵥ Z)
      invFun := Prod.map (fun Z => star U *ᵥ Z) (fun Z => star U *ᵥ Z)
      left_inv := fun x => by
        refine Prod.ext ?_ ?_ <;> simp [unitary_star_mul hU]
      right_inv := fun x => by
        refine Prod.ext ?_ ?_ <;> simp [unitary_mul_star hU]
      measurable_toFun := hUm.prodMap hUm
      measurable_invFun := (continuous_mulVec (star U)).measurable.prodMap (continuous_mulVec (star U)).measurable }
  rw [show (Measure.map (Prod.map (fun Z => U *ᵥ Z) (fun Z => U *ᵥ Z)) (lineLaw (n + 2))) = (lineLaw (n + 2)).map E from rfl,
    lintegral_map_equiv]
  exact lintegral_congr fun x => lineSum_mulVec h0 hc φ x

/-- The measure `|Ω|²` is invariant. -/
theorem cyMeasure_symmetry (hF : Irreducible F) (hom : F.IsHomogeneous (n + 2)) (p : Fin (n + 2))
    (d : Fin (n + 1)) (hd : pderiv (p.succAbove d) F ≠ 0) (hU : U ∈ Matrix.unitaryGroup (Fin (n + 2)) ℂ) {c : ℂ}
    (hc : ∀ Z, eval (U *ᵥ Z) F = c * eval Z F) {φ : (Fin (n + 2) → ℂ) → ℝ≥0∞} (hφ : Measurable φ)
    (hinv : ∀ c : ℂ, c ≠ 0 → ∀ Z, φ (c • Z) = φ Z) :
    ∫⁻ Z, φ (U *ᵥ Z) ∂cyMeasure p d F = ∫⁻ Z, φ Z ∂cyMeasure p d F := by
  have hUm := (continuous_mulVec U).measurable
  have hn := symmetry_norm_factor hom (by omega) hF.ne_zero hU hc
  have h0 : c ≠ 0 := by rintro rfl; simp at hn
  have hw : Measurable fun Z : Fin (n + 2) → ℂ => ENNReal.ofReal (pointWeight (n + 2) F Z) :=
    (measurable_pointWeight _).ennreal_ofReal
  rw [cyMeasure_withDensity p d hom, lintegral_withDensity_eq_lintegral_mul _ hw hφ,
    lintegral_withDensity_eq_lintegral_mul _ hw (g := fun Z => φ (U *ᵥ Z)) (hφ.comp hUm)]
  have hwinv : ∀ Z : Fin (n + 2) → ℂ, ∀ a : ℂ, a ≠ 0 → pointWeight (n + 2) F (a • Z) = pointWeight (n + 2) F Z := by
    intro Z a ha
    by_cases hZ : Z = 0
    · rw [hZ, smul_zero]
    · exact (C111_calabi_yau hom Z hZ).2 a ha
  have hwU : ∀ Z : Fin (n + 2) → ℂ, pointWeight (n + 2) F (U *ᵥ Z) = pointWeight (n + 2) F Z := by
    intro Z
    by_cases hZ : Z = 0
    · rw [hZ, Matrix.mulVec_zero]
    · rw [(C111_calabi_yau hom Z hZ).1, (C111_calabi_yau hom _ (mulVec_unitary_ne hU hZ)).1, unitary_sq hU]
      have := gradSq_mulVec hU hc Z
      rw [hn, one_pow, one_mul] at this
      unfold gradSq at this
      rw [this]
  rw [← fsMeasure_symmetry hF hom (by omega) p d hd hU h0 hc (hw.mul hφ) fun a ha Z => by
    simp only [Pi.mul_apply, hinv a ha, hwinv Z a ha]]
  refine lintegral_congr fun Z => ?_
  simp only [Pi.mul_apply, hwU]

end Measure

end Cyjax
