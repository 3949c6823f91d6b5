import Verif.Lemmas.HopfMax
import Verif.Lemmas.Levi
import Mathlib.Analysis.Matrix.Order

/-! # The strong maximum principle for the trace of the mixed derivatives (for C151) -/

namespace Cyjax.Spec

open Filter Topology
open scoped ComplexConjugate ComplexOrder MatrixOrder Matrix.Norms.L2Operator

variable {m : ℕ}

/-- The two real directions of a complex coordinate. -/
def unitOf (β : Bool) : ℂ := if β then Complex.I else 1

/-- A real basis of `ℂ^m`. -/
def realBasis (i : Fin m × Bool) : Fin m → ℂ := Pi.single i.1 (unitOf i.2)

/-- The coefficients of the trace with the matrix `G`. -/
noncomputable def traceCoef (G : Matrix (Fin m) (Fin m) ℂ) (i : (Fin m × Bool) × (Fin m × Bool)) : ℝ :=
  (G i.1.1 i.2.1 * unitOf i.1.2 * conj (unitOf i.2.2)).re / 4

theorem traceForm_eq (G : Matrix (Fin m) (Fin m) ℂ) (B : (Fin m → ℂ) →L[ℝ] (Fin m → ℂ) →L[ℝ] ℝ) :
    traceForm (traceCoef G) (fun i => realBasis i.1) (fun i => realBasis i.2) B =
      ∑ i : Fin m × Bool, ∑ j : Fin m × Bool,
        (G i.1 j.1 * unitOf i.2 * conj (unitOf j.2)).re / 4 * B (realBasis i) (realBasis j) := by
  rw [traceForm, Fintype.sum_prod_type]
  rfl

/-- The mixed derivative in terms of the second derivative. -/
theorem levi_fderiv {u : (Fin m → ℂ) → ℝ} {y : Fin m → ℂ} (hu : ContDiffAt ℝ 2 u y) (r s : Fin m) :
    dzbar (fun v => dz (fun y => ((u y : ℝ) : ℂ)) r v) s y =
      ∑ β, ∑ γ, unitOf β * conj (unitOf γ) * (fderiv ℝ (fderiv ℝ u) y (realBasis (s, β)) (realBasis (r, γ)) : ℝ) / 4 := by
  have hd : DifferentiableAt ℝ (fderiv ℝ u) y := (hu.fderiv_right (m := 1) (by norm_num)).differentiableAt (by norm_num)
  set B := fderiv ℝ (fderiv ℝ u) y with hB
  have h2 : ∀ c, HasFDerivAt (fun s => fderiv ℝ u s c) (B.flip c) y := by
    intro c
    have h := hd.hasFDerivAt.clm_apply (hasFDerivAt_const c y)
    simpa using h
  have hc : ∀ z, DifferentiableAt ℝ u z → HasFDerivAt (fun s => ((u s : ℝ) : ℂ)) (Complex.ofRealCLM.comp (fderiv ℝ u z)) z :=
    fun z hz => Complex.ofRealCLM.hasFDerivAt.comp z hz.hasFDerivAt
  have hev : ∀ᶠ z in 𝓝 y, dz (fun y => ((u y : ℝ) : ℂ)) r z =
      (2 : ℂ)⁻¹ * (((fderiv ℝ u z (Pi.single r 1) : ℝ) : ℂ) - Complex.I * ((fderiv ℝ u z (Pi.single r Complex.I) : ℝ) : ℂ)) := by
    filter_upwards [hu.eventually (by norm_num)] with z hz
    have h3 := hc z (hz.differentiableAt (by norm_num))
    rw [dz_fderiv h3.differentiableAt, h3.fderiv, div_eq_inv_mul]
    rfl
  have h4 : HasFDerivAt (fun z => dz (fun y => ((u y : ℝ) : ℂ)) r z)
      ((2 : ℂ)⁻¹ • (Complex.ofRealCLM.comp (B.flip (Pi.single r 1)) -
        Complex.I • Complex.ofRealCLM.comp (B.flip (Pi.single r Complex.I)))) y := by
    refine (((Complex.ofRealCLM.hasFDerivAt.comp y (h2 _)).sub
      ((Complex.ofRealCLM.hasFDerivAt.comp y (h2 _)).const_mul Complex.I)).const_mul (2 : ℂ)⁻¹).congr_of_eventuallyEq ?_
    filter_upwards [hev] with z hz
    rw [hz]
    rfl
  rw [dzbar_fderiv h4.differentiableAt, h4.fderiv]
  simp only [Fintype.sum_bool, unitOf, realBasis, if_true, Bool.false_eq_true, if_false, map_one, Complex.conj_I,
    _root_.smul_apply, _root_.sub_apply, ContinuousLinearMap.comp_apply, ContinuousLinearMap.flip_apply, smul_eq_mul,
    Complex.ofRealCLM_apply]
  linear_combination (0 : ℂ) * Complex.I_mul_I

theorem traceForm_levi {u : (Fin m → ℂ) → ℝ} {y : Fin m → ℂ} (hu : ContDiffAt ℝ 2 u y) (G : Matrix (Fin m) (Fin m) ℂ) :
    traceForm (traceCoef G) (fun i => realBasis i.1) (fun i => realBasis i.2) (fderiv ℝ (fderiv ℝ u) y) =
      (∑ r, ∑ s, dzbar (fun v => dz (fun y => ((u y : ℝ) : ℂ)) r v) s y * G s r).re := by
  rw [traceForm_eq, Finset.sum_comm (s := (Finset.univ : Finset (Fin m)))]
  simp only [Fintype.sum_prod_type, levi_fderiv hu, Complex.re_sum]
  refine Finset.sum_congr rfl fun s _ => ?_
  rw [Finset.sum_comm]
  refine Finset.sum_congr rfl fun r _ => ?_
  rw [Finset.sum_mul, Complex.re_sum]
  refine Finset.sum_congr rfl fun β _ => ?_
  rw [Finset.sum_mul, Complex.re_sum]
  refine Finset.sum_congr rfl fun γ _ => ?_
  set b := fderiv ℝ (fderiv ℝ u) y (realBasis (s, β)) (realBasis (r, γ))
  rw [show unitOf β * conj (unitOf γ) * (b : ℂ) / 4 * G s r = ((b / 4 : ℝ) : ℂ) * (G s r * unitOf β * conj (unitOf γ)) by
    push_cast; ring, Complex.re_ofReal_mul]
  ring

theorem traceForm_pos {G : Matrix (Fin m) (Fin m) ℂ} (hG : G.PosDef) (g : (Fin m → ℂ) →L[ℝ] ℝ) (hg : g ≠ 0) :
    0 < traceForm (traceCoef G) (fun i => realBasis i.1) (fun i => realBasis i.2) (g.smulRight g) := by
  set v : Fin m → ℂ := fun s => ∑ β, conj (unitOf β) * (g (realBasis (s, β)) : ℝ) with hv
  have hv0 : v ≠ 0 := by
    intro h0
    apply hg
    have h1 : ∀ s, g (Pi.single s 1) = 0 ∧ g (Pi.single s Complex.I) = 0 := by
      intro s
      have := congrFun h0 s
      simp only [hv, Fintype.sum_bool, unitOf, realBasis, if_true, Bool.false_eq_true, if_false, map_one, Complex.conj_I,
        Pi.zero_apply] at this
      have hr := congrArg Complex.re this
      have hi := congrArg Complex.im this
      simp at hr hi
      exact ⟨hr, hi⟩
    ext w
    have hw : w = ∑ a, ((w a).re • (Pi.single a 1 : Fin m → ℂ) + (w a).im • (Pi.single a Complex.I : Fin m → ℂ)) := by
      funext b
      rw [Finset.sum_apply, Finset.sum_eq_single b]
      · simp [Complex.re_add_im]
      · intro c _ hc
        simp [Pi.single_eq_of_ne hc.symm]
      · simp
    rw [hw, map_sum]
    simp [h1]
  have h1 := hG.re_dotProduct_pos hv0
  have h2 : traceForm (traceCoef G) (fun i => realBasis i.1) (fun i => realBasis i.2) (g.smulRight g) =
      (star v ⬝ᵥ G.mulVec v).re / 4 := by
    rw [traceForm_eq]
    simp only [dotProduct, Matrix.mulVec, Finset.mul_sum, Complex.re_sum, Fintype.sum_prod_type, Finset.sum_div]
    refine Finset.sum_congr rfl fun s _ => ?_
    rw [Finset.sum_comm]
    refine Finset.sum_congr rfl fun r _ => ?_
    have e : star v s * (G s r * v r) = ∑ β, ∑ γ, ((g (realBasis (s, β)) * g (realBasis (r, γ)) : ℝ) : ℂ) *
        (G s r * unitOf β * conj (unitOf γ)) := by
      have e1 : star v s = ∑ β, unitOf β * (g (realBasis (s, β)) : ℝ) := by
        simp only [hv, Pi.star_apply, RCLike.star_def, map_sum, map_mul, Complex.conj_conj, Complex.conj_ofReal]
      rw [e1, Finset.sum_mul]
      refine Finset.sum_congr rfl fun β _ => ?_
      simp only [hv, Finset.mul_sum]
      refine Finset.sum_congr rfl fun γ _ => ?_
      push_cast
      ring
    rw [e, Complex.re_sum, Finset.sum_div]
    refine Finset.sum_congr rfl fun β _ => ?_
    rw [Complex.re_sum, Finset.sum_div]
    refine Finset.sum_congr rfl fun γ _ => ?_
    rw [Complex.re_ofReal_mul]
    simp only [ContinuousLinearMap.smulRight_apply, _root_.smul_apply, smul_eq_mul]
    ring
  rw [h2]
  have h3 : 0 < (star v ⬝ᵥ G.mulVec v).re := h1
  linarith

theorem traceForm_neg {G : Matrix (Fin m) (Fin m) ℂ} (hG : G.PosSemidef) (B : (Fin m → ℂ) →L[ℝ] (Fin m → ℂ) →L[ℝ] ℝ)
    (hB : ∀ a, B a a ≤ 0) :
    traceForm (traceCoef G) (fun i => realBasis i.1) (fun i => realBasis i.2) B ≤ 0 := by
  obtain ⟨C, hC⟩ := CStarAlgebra.nonneg_iff_eq_star_mul_self.mp hG.nonneg
  rw [Matrix.star_eq_conjTranspose] at hC
  set α : Fin m → Fin m × Bool → ℂ := fun k i => conj (C k i.1) * unitOf i.2 with hα
  have h1 : traceForm (traceCoef G) (fun i => realBasis i.1) (fun i => realBasis i.2) B =
      ∑ k, (B (∑ i, (α k i).re • realBasis i) (∑ i, (α k i).re • realBasis i) +
        B (∑ i, (α k i).im • realBasis i) (∑ i, (α k i).im • realBasis i)) / 4 := by
    rw [traceForm_eq]
    have e : ∀ i j : Fin m × Bool, (G i.1 j.1 * unitOf i.2 * conj (unitOf j.2)).re / 4 * B (realBasis i) (realBasis j) =
        ∑ k, ((α k i).re * (α k j).re + (α k i).im * (α k j).im) / 4 * B (realBasis i) (realBasis j) := by
      intro i j
      have e2 : G i.1 j.1 * unitOf i.2 * conj (unitOf j.2) = ∑ k, α k i * conj (α k j) := by
        rw [hC, Matrix.mul_apply, Finset.sum_mul, Finset.sum_mul]
        refine Finset.sum_congr rfl fun k _ => ?_
        simp only [hα, map_mul, Complex.conj_conj, Matrix.conjTranspose_apply, RCLike.star_def]
        ring
      rw [e2, Complex.re_sum, Finset.sum_div, Finset.sum_mul]
      refine Finset.sum_congr rfl fun k _ => ?_
      rw [Complex.mul_re, Complex.conj_re, Complex.conj_im]
      ring
    simp only [e]
    have e3 : ∀ w : Fin m × Bool → ℝ, B (∑ i, w i • realBasis i) (∑ i, w i • realBasis i) =
        ∑ i, ∑ j, w i * w j * B (realBasis i) (realBasis j) := by
      intro w
      rw [map_sum, Finset.sum_comm]
      refine Finset.sum_congr rfl fun j _ => ?_
      rw [map_sum, _root_.sum_apply]
      refine Finset.sum_congr rfl fun i _ => ?_
      rw [map_smul, map_smul, _root_.smul_apply, smul_eq_mul, smul_eq_mul]
      ring
    simp only [e3]
    rw [Finset.sum_congr rfl fun i _ => Finset.sum_comm, Finset.sum_comm]
    refine Finset.sum_congr rfl fun k _ => ?_
    rw [← Finset.sum_add_distrib, Finset.sum_div]
    refine Finset.sum_congr rfl fun i _ => ?_
    rw [← Finset.sum_add_distrib, Finset.sum_div]
    refine Finset.sum_congr rfl fun j _ => ?_
    ring
  rw [h1]
  refine Finset.sum_nonpos fun k _ => ?_
  have h2 := hB (∑ i, (α k i).re • realBasis i)
  have h3 := hB (∑ i, (α k i).im • realBasis i)
  linarith

/-- The Euclidean form on `ℂ^m`. -/
noncomputable def euclid (m : ℕ) : (Fin m → ℂ) →L[ℝ] (Fin m → ℂ) →L[ℝ] ℝ :=
  ∑ i, ((Complex.reCLM.comp (ContinuousLinearMap.proj (R := ℝ) (φ := fun _ : Fin m => ℂ) i)).smulRight
      (Complex.reCLM.comp (ContinuousLinearMap.proj (R := ℝ) (φ := fun _ : Fin m => ℂ) i)) +
    (Complex.imCLM.comp (ContinuousLinearMap.proj (R := ℝ) (φ := fun _ : Fin m => ℂ) i)).smulRight
      (Complex.imCLM.comp (ContinuousLinearMap.proj (R := ℝ) (φ := fun _ : Fin m => ℂ) i)))

theorem euclid_apply (a b : Fin m → ℂ) : euclid m a b = ∑ i, ((a i).re * (b i).re + (a i).im * (b i).im) := by
  simp [euclid, _root_.sum_apply]

theorem euclid_self (a : Fin m → ℂ) : euclid m a a = ∑ i, ‖a i‖ ^ 2 := by
  rw [euclid_apply]
  refine Finset.sum_congr rfl fun i _ => ?_
  rw [← Complex.normSq_eq_norm_sq, Complex.normSq_apply]

/-- If the trace of the mixed derivatives with positive definite matrices is nowhere negative near a local maximum, then the
function is constant near it. -/
theorem levi_strong_max {u : (Fin m → ℂ) → ℝ} {x : Fin m → ℂ} (G : (Fin m → ℂ) → Matrix (Fin m) (Fin m) ℂ)
    (hs : ∀ᶠ y in 𝓝 x, ContDiffAt ℝ 2 u y) (hc : ∀ᶠ y in 𝓝 x, ∀ i j, ContinuousAt (fun z => G z i j) y)
    (hp : ∀ᶠ y in 𝓝 x, (G y).PosDef)
    (hL : ∀ᶠ y in 𝓝 x, 0 ≤ (∑ r, ∑ s, dzbar (fun v => dz (fun y => ((u y : ℝ) : ℂ)) r v) s y * G y s r).re)
    (hm : ∀ᶠ y in 𝓝 x, u y ≤ u x) : ∀ᶠ y in 𝓝 x, u y = u x := by
  refine strong_max (euclid m) ?_ m ?_ ?_ (fun z => traceCoef (G z)) (fun i => realBasis i.1) (fun i => realBasis i.2)
    hs ?_ ?_ ?_ ?_ hm
  · intro a b
    rw [euclid_apply, euclid_apply]
    exact Finset.sum_congr rfl fun i _ => by ring
  · intro a
    rw [euclid_self]
    have h0 : 0 ≤ ∑ i, ‖a i‖ ^ 2 := Finset.sum_nonneg fun i _ => sq_nonneg _
    have h1 : ‖a‖ ≤ Real.sqrt (∑ i, ‖a i‖ ^ 2) := by
      refine (pi_norm_le_iff_of_nonneg (Real.sqrt_nonneg _)).2 fun i => ?_
      exact Real.le_sqrt_of_sq_le (Finset.single_le_sum (f := fun i => ‖a i‖ ^ 2) (fun i _ => sq_nonneg _) (Finset.mem_univ i))
    calc ‖a‖ ^ 2 ≤ Real.sqrt (∑ i, ‖a i‖ ^ 2) ^ 2 := pow_le_pow_left₀ (norm_nonneg _) h1 2
      _ = _ := Real.sq_sqrt h0
  · intro a
    rw [euclid_self]
    calc ∑ i, ‖a i‖ ^ 2 ≤ ∑ _i : Fin m, ‖a‖ ^ 2 := Finset.sum_le_sum fun i _ => pow_le_pow_left₀ (norm_nonneg _) (norm_le_pi_norm a i) 2
      _ = _ := by simp
  · filter_upwards [hc] with y hy i
    have h1 : ContinuousAt (fun z => G z i.1.1 i.2.1 * unitOf i.1.2 * conj (unitOf i.2.2)) y :=
      ((hy _ _).mul continuousAt_const).mul continuousAt_const
    exact (Complex.continuous_re.continuousAt.comp h1).div_const 4
  · filter_upwards [hp] with y hy B hB
    exact traceForm_neg hy.posSemidef B hB
  · filter_upwards [hp] with y hy g hg
    exact traceForm_pos hy g hg
  · filter_upwards [hL, hs] with y hy hsy
    rw [traceForm_levi hsy]
    exact hy

end Cyjax.Spec
