import Verif.Lemmas.VolumeInvariance
import Verif.Lemmas.RicciScalar
import Mathlib.LinearAlgebra.Lagrange
import Mathlib.LinearAlgebra.Matrix.Charpoly.Coeff
import Mathlib.LinearAlgebra.Matrix.Polynomial

/-! # The Kahler potential in homogeneous coordinates and its volume density (for C153) -/

namespace Cyjax

open MeasureTheory MvPolynomial Cyjax.Spec Cyjax.Polynomial Cyjax.Variety Cyjax.Donaldson Cyjax.Projective Set Filter Topology
open scoped ContDiff ENNReal ComplexOrder

variable {n : ℕ} {F : MvPolynomial (Fin (n + 2)) ℂ} {A : AlgebraicMetric (n + 1)} {ps : List ℂ}

/-- The sections at homogeneous coordinates. -/
noncomputable def homSection (A : AlgebraicMetric (n + 1)) (Z : Fin (n + 2) → ℂ) (a : Fin A.sections.size) : ℂ :=
  ∏ i, Z i ^ A.sections.powers a i

/-- The Kahler potential at homogeneous coordinates. -/
noncomputable def potAt (A : AlgebraicMetric (n + 1)) (h : A.H) (Z : Fin (n + 2) → ℂ) : ℝ :=
  Real.log (bil h (homSection A Z) (homSection A Z)).re / (Real.pi * A.degree)

section Potential

variable (hF : Hypersurface A.variety (.vec ps) (n + 1) (n + 2) F) (hB : SpansModulo F A.sections.degree A.sections.rows)
  (hk : A.sections.degree ≠ 0) (h : A.H) (hh : h.PosDef)

include hB in
theorem homSection_smul (c : ℂ) (Z : Fin (n + 2) → ℂ) : homSection A (c • Z) = c ^ A.sections.degree • homSection A Z := by
  funext a
  simp only [homSection, Pi.smul_apply, smul_eq_mul, mul_pow, Finset.prod_mul_distrib]
  rw [Finset.prod_pow_eq_pow_sum, (hB.1 _ (List.get_mem _ a) : ∑ i, A.sections.powers a i = _)]

include hB in
theorem bil_homSection_smul (c : ℂ) (Z : Fin (n + 2) → ℂ) : (bil h (homSection A (c • Z)) (homSection A (c • Z))).re =
    (‖c‖ ^ 2) ^ A.sections.degree * (bil h (homSection A Z) (homSection A Z)).re := by
  rw [homSection_smul hB, bil_smul_left, bil_smul_right, ← mul_assoc, Complex.mul_conj', norm_pow]
  rw [← Complex.ofReal_pow, Complex.re_ofReal_mul]
  ring

include hB in
theorem psi_hom (p : Fin (n + 2)) (z : Fin (n + 1) → ℂ) : Graph.psi (.full h) (sectionsJet A.sections (p : ℕ) z) =
    bil h (homSection A (affineToHom z (p : ℕ))) (homSection A (affineToHom z (p : ℕ))) := by
  have : (sectionsJet A.sections (p : ℕ) z).s = homSection A (affineToHom z (p : ℕ)) := by
    funext a
    exact C60_affine z p A.sections.powers A.sections.degree (spans_le hB) a
  change bil h (sectionsJet A.sections (p : ℕ) z).s (sectionsJet A.sections (p : ℕ) z).s = _
  rw [this]

include hF hB hh in
theorem bil_hom_pos (Z : Fin (n + 2) → ℂ) (hZ : Z ≠ 0) (h0 : eval Z F = 0) : 0 < (bil h (homSection A Z) (homSection A Z)).re := by
  obtain ⟨p, hp⟩ : ∃ p, Z p ≠ 0 := by
    by_contra! hcon
    exact hZ (funext hcon)
  have h1 : affineToHom (homToAffine Z (p : ℕ)) (p : ℕ) = (Z p)⁻¹ • Z := affine_homogeneous Z p hp
  have h2 := psi_pos h hh hB p (homToAffine Z (p : ℕ)) (by rw [h1]; exact eval_smul_zero hF.homogeneous _ _ h0)
  rw [psi_hom hB h, h1] at h2
  have h3 := (Complex.pos_iff.1 h2).1
  rw [bil_homSection_smul hB h] at h3
  exact pos_of_mul_pos_right h3 (by positivity)

include hF hB hk hh in
theorem potAt_log : LogHomogeneous F Real.pi⁻¹ (potAt A h) := by
  intro Z hZ h0 c hc
  have hpos := bil_hom_pos hF hB h hh Z hZ h0
  have hc0 : 0 < ‖c‖ := norm_pos_iff.2 hc
  unfold potAt
  rw [bil_homSection_smul hB h, Real.log_mul (by positivity) hpos.ne', Real.log_pow]
  have hk' : (A.sections.degree : ℝ) ≠ 0 := Nat.cast_ne_zero.2 hk
  have hd : (A.degree : ℝ) = A.sections.degree := rfl
  have hpi := Real.pi_ne_zero
  rw [hd]
  field_simp
  ring

include hF hB hh in
theorem potAt_affine (p : Fin (n + 2)) (z : Fin (n + 1) → ℂ) (h0 : eval (affineToHom z (p : ℕ)) F = 0) :
    onOk id (A.kahlerPotential h (List.ofFn z) (some (p : ℕ))) = ((potAt A h (affineToHom z (p : ℕ)) : ℝ) : ℂ) := by
  have hpos := psi_pos h hh hB p z h0
  rw [kahler_val hF h]
  change Complex.log (Graph.psi (.full h) (sectionsJet A.sections (p : ℕ) z)) / (Real.pi * A.degree) = _
  have h1 : Graph.psi (.full h) (sectionsJet A.sections (p : ℕ) z) =
      (((bil h (homSection A (affineToHom z (p : ℕ))) (homSection A (affineToHom z (p : ℕ)))).re : ℝ) : ℂ) := by
    rw [← psi_hom hB h]
    exact Complex.ext rfl (Complex.pos_iff.1 hpos).2.symm
  rw [h1, ← Complex.ofReal_log (bil_hom_pos hF hB h hh _ (affine_ne_zero z p) h0).le, potAt]
  push_cast
  rfl

include hF hB hh in
theorem potAt_smooth {l : WithTop ℕ∞} : ChartSmooth F l (potAt A h) := by
  intro p d φ x hc
  have h1 := kahler_smooth (l := l) hF h hh hB p (φ x) (by rw [hF.defining, hc.zero])
  have h2 := ContDiffAt.comp (g := fun w => onOk id (A.kahlerPotential h (List.ofFn w) (some (p : ℕ)))) x h1
      ((hc.implicit.1.restrict_scalars ℝ).of_le le_top)
  refine (Complex.reCLM.contDiff.contDiffAt.comp x h2).congr_of_eventuallyEq ?_
  filter_upwards [hc.eventually] with y hy
  rw [Function.comp_apply, Function.comp_apply, potAt_affine hF hB h hh p (φ y) hy.zero]
  rfl

include hF hB hk hh in
theorem Chart.levi_pot {p : Fin (n + 2)} {d : Fin (n + 1)} {φ : (Fin n → ℂ) → Fin (n + 1) → ℂ} {x : Fin n → ℂ}
    (hc : Chart F p d φ x) : chartLevi (potAt A h) p φ x = chartMetric F h p d (φ x) := by
  have hloc : LocalCoordinates A.variety (.vec ps) (p : ℕ) d φ x := by
    filter_upwards [hc.par] with y hy
    refine ⟨hy.1, hy.2.1, ?_⟩
    rw [hF.defining p, ← eval_dehom, hy.2.2]
  obtain ⟨g, hm, hg⟩ := C108_metric hF h hh hB hk p d φ x hloc _ (hF.grad p (φ x)) hc.ne
  have hm' := metric_val hF h p (φ x) (some (d : ℕ))
  rw [hm] at hm'
  injection hm' with hm'
  have h1 : g = chartMetric F h p d (φ x) := (Prod.ext_iff.1 hm').1
  rw [← h1]
  ext r s
  rw [hg]
  refine levi_congr ?_ r s
  filter_upwards [hc.eventually] with y hy
  rw [potAt_affine hF hB h hh p (φ y) hy.zero]

variable (hsm : SmoothHypersurface F)

include hF hB hk hh hsm in
theorem Chart.det_metric {p : Fin (n + 2)} {d : Fin (n + 1)} {φ : (Fin n → ℂ) → Fin (n + 1) → ℂ} {x : Fin n → ℂ}
    (hc : Chart F p d φ x) : ‖eval (affineToHom (φ x) (p : ℕ)) (pderiv (p.succAbove d) F)‖ ^ 2 *
      (chartMetric F h p d (φ x)).det = (etaAt A h ps (affineToHom (φ x) (p : ℕ)) : ℂ) := by
  have h1 := (eta_affine_value hsm hF hB hk h hh p (φ x) hc.zero).2.2 d hc.ne
  rw [eta_val hF] at h1
  rw [← Except.ok.inj h1, ← eval_pderiv_dehom, mul_comm]
  change _ = (chartMetric F h p d (φ x)).det * (‖jget (fun k => eval (φ x) (pderiv k (dehom p F))) ((d : ℕ) : ℤ)‖ : ℂ) ^ 2
  rw [jget_nat]

include hF hB hk hh hsm in
theorem Chart.vol_pot {p : Fin (n + 2)} {d : Fin (n + 1)} {φ : (Fin n → ℂ) → Fin (n + 1) → ℂ} {x : Fin n → ℂ}
    (hc : Chart F p d φ x) : chartVol F (potAt A h) p d φ x = etaAt A h ps (affineToHom (φ x) (p : ℕ)) := by
  have h1 := congrArg Complex.re (hc.det_metric hF hB hk h hh hsm)
  rw [← Complex.ofReal_pow, Complex.re_ofReal_mul, Complex.ofReal_re] at h1
  rw [chartVol, hc.levi_pot hF hB hk h hh, h1]

include hF hB hk hh hsm in
theorem hasVolume : HasVolume F :=
  ⟨potAt A h, etaAt A h ps, Real.pi⁻¹, potAt_smooth hF hB h hh, potAt_log hF hB hk h hh, etaAt_smul hF h,
    fun p _ φ x hc => ⟨hc.vol_pot hF hB hk h hh hsm, (eta_affine_value hsm hF hB hk h hh p (φ x) hc.zero).1.ne'⟩⟩

include hF hB hk hh hsm in
theorem volDensity_pot (Z : Fin (n + 2) → ℂ) (hZ : Z ≠ 0) (h0 : eval Z F = 0) : volDensity F (potAt A h) Z = etaAt A h ps Z := by
  obtain ⟨p, _, φ, hp, hc, hnear⟩ := chart_at hF.homogeneous hsm Z hZ h0
  have h1 := hnear.self_of_nhds h0
  rw [volDensity_eq hF.homogeneous (hasVolume hF hB hk h hh hsm) (potAt_smooth hF hB h hh) (potAt_log hF hB hk h hh) hc
    (inv_ne_zero hp) h1, hc.vol_pot hF hB hk h hh hsm, h1, etaAt_smul hF h _ (inv_ne_zero hp)]

/-! ## The linear term -/

/-- Weights that extract the linear coefficient of polynomials from their values. -/
theorem linear_weights (n : ℕ) : ∃ w s : Fin (n + 1) → ℝ, ∀ q : Polynomial ℂ, q.natDegree ≤ n →
    ∑ i, (w i : ℂ) * q.eval (s i : ℂ) = q.coeff 1 := by
  set s : Fin (n + 1) → ℝ := fun i => ((i : ℕ) : ℝ) with hs
  have hinj : InjOn s (Finset.univ : Finset (Fin (n + 1))) := by
    intro i _ j _ hij
    exact Fin.ext (Nat.cast_injective hij)
  set w : Fin (n + 1) → ℝ := fun i => (Lagrange.basis Finset.univ s i).coeff 1 with hw
  have hmono : ∀ j, j ≤ n → ∑ i, w i * s i ^ j = if j = 1 then 1 else 0 := by
    intro j hj
    have hd : (Polynomial.X ^ j : Polynomial ℝ).degree < (Finset.univ : Finset (Fin (n + 1))).card := by
      rw [Polynomial.degree_X_pow, Finset.card_univ, Fintype.card_fin]
      exact_mod_cast Nat.lt_succ_of_le hj
    have h1 := Lagrange.eq_interpolate hinj hd
    have h2 := congrArg (fun q => Polynomial.coeff q 1) h1
    simp only [Lagrange.interpolate_apply, Polynomial.finsetSum_coeff, Polynomial.coeff_C_mul, Polynomial.eval_pow,
      Polynomial.eval_X, Polynomial.coeff_X_pow] at h2
    rw [show (if j = 1 then (1 : ℝ) else 0) = if 1 = j then 1 else 0 by simp only [eq_comm], h2]
    exact Finset.sum_congr rfl fun i _ => mul_comm _ _
  refine ⟨w, s, fun q hq => ?_⟩
  have h1 : ∀ i, q.eval (s i : ℂ) = ∑ j ∈ Finset.range (n + 1), q.coeff j * (s i : ℂ) ^ j := fun i =>
    Polynomial.eval_eq_sum_range' (Nat.lt_succ_of_le hq) _
  simp only [h1, Finset.mul_sum]
  rw [Finset.sum_comm]
  have h2 : ∀ j ∈ Finset.range (n + 1), ∑ i, (w i : ℂ) * (q.coeff j * (s i : ℂ) ^ j) = if j = 1 then q.coeff j else 0 := by
    intro j hj
    have h3 := congrArg (fun r : ℝ => (r : ℂ)) (hmono j (Nat.lt_succ_iff.1 (Finset.mem_range.1 hj)))
    push_cast at h3
    calc ∑ i, (w i : ℂ) * (q.coeff j * (s i : ℂ) ^ j) = q.coeff j * ∑ i, (w i : ℂ) * (s i : ℂ) ^ j := by
          rw [Finset.mul_sum]
          exact Finset.sum_congr rfl fun i _ => by ring
      _ = _ := by
          rw [h3]
          split_ifs <;> simp <;> ring
  rw [Finset.sum_congr rfl h2, Finset.sum_ite_eq']
  split_ifs with hmem
  · rfl
  · rw [Finset.mem_range, not_lt] at hmem
    exact (Polynomial.coeff_eq_zero_of_natDegree_lt (by omega)).symm

theorem det_weights {m : ℕ} {w s : Fin (m + 1) → ℝ} (hw : ∀ q : Polynomial ℂ, q.natDegree ≤ m →
    ∑ i, (w i : ℂ) * q.eval (s i : ℂ) = q.coeff 1) (G L : Matrix (Fin m) (Fin m) ℂ) (hG : IsUnit G.det) :
    ∑ i, (w i : ℂ) * (G + (s i : ℂ) • L).det = G.det * (G⁻¹ * L).trace := by
  have h1 : ∀ c : ℂ, (G + c • L).det = G.det * (1 + c • (G⁻¹ * L)).det := by
    intro c
    rw [← Matrix.det_mul, mul_add, mul_one, Matrix.mul_smul, ← Matrix.mul_assoc, Matrix.mul_nonsing_inv _ hG, Matrix.one_mul]
  have h2 : ∀ c : ℂ, (1 + c • (G⁻¹ * L)).det = ((1 + (Polynomial.X : Polynomial ℂ) • (G⁻¹ * L).map Polynomial.C).det).eval c := by
    intro c
    rw [← Polynomial.coe_evalRingHom, RingHom.map_det]
    congr 1
    ext i j
    simp only [RingHom.mapMatrix_apply, Matrix.map_apply, Matrix.add_apply, Matrix.smul_apply, smul_eq_mul, map_add,
      Polynomial.coe_evalRingHom, Matrix.one_apply]
    split_ifs <;> simp <;> ring
  have h3 : ((1 + (Polynomial.X : Polynomial ℂ) • (G⁻¹ * L).map Polynomial.C).det).natDegree ≤ m := by
    have := Polynomial.natDegree_det_X_add_C_le (G⁻¹ * L) (1 : Matrix (Fin m) (Fin m) ℂ)
    rw [Fintype.card_fin, add_comm] at this
    simpa using this
  calc ∑ i, (w i : ℂ) * (G + (s i : ℂ) • L).det = G.det * ∑ i, (w i : ℂ) *
        ((1 + (Polynomial.X : Polynomial ℂ) • (G⁻¹ * L).map Polynomial.C).det).eval (s i : ℂ) := by
        rw [Finset.mul_sum]
        exact Finset.sum_congr rfl fun i _ => by rw [h1, h2]; ring
    _ = _ := by rw [hw _ h3, Matrix.coeff_det_one_add_X_smul_one]

/-! ## The potential `K + s log η` -/

include hF hB hk hh hsm in
theorem logEta_smooth {l : WithTop ℕ∞} : ChartSmooth F l (fun Z => Real.log (etaAt A h ps Z)) :=
  fun _ _ _ _ hc => hc.log_smooth hsm hF hB hk h hh

include hF hB hk hh in
theorem shift_log (t : ℝ) : LogHomogeneous F Real.pi⁻¹ (fun Z => potAt A h Z + t * Real.log (etaAt A h ps Z)) := by
  intro Z hZ h0 c hc
  dsimp only
  rw [potAt_log hF hB hk h hh Z hZ h0 c hc, etaAt_smul hF h c hc]
  ring

include hF hB hk hh hsm in
theorem Chart.levi_shift {p : Fin (n + 2)} {d : Fin (n + 1)} {φ : (Fin n → ℂ) → Fin (n + 1) → ℂ} {x : Fin n → ℂ}
    (hc : Chart F p d φ x) (t : ℝ) : chartLevi (fun Z => potAt A h Z + t * Real.log (etaAt A h ps Z)) p φ x =
      chartMetric F h p d (φ x) + (t : ℂ) • chartLevi (fun Z => Real.log (etaAt A h ps Z)) p φ x := by
  rw [← hc.levi_pot hF hB hk h hh]
  have h1 : ContDiffAt ℝ 2 (fun y => ((potAt A h (affineToHom (φ y) (p : ℕ)) : ℝ) : ℂ)) x :=
    Complex.ofRealCLM.contDiff.contDiffAt.comp x (potAt_smooth hF hB h hh p d φ x hc)
  have h2 : ContDiffAt ℝ 2 (fun y => (t : ℂ) * ((Real.log (etaAt A h ps (affineToHom (φ y) (p : ℕ))) : ℝ) : ℂ)) x :=
    contDiffAt_const.mul (Complex.ofRealCLM.contDiff.contDiffAt.comp x (hc.log_smooth hsm hF hB hk h hh))
  have h3 := levi_add h1 h2
  unfold chartLevi
  rw [← show levi (fun y => (t : ℂ) * ((Real.log (etaAt A h ps (affineToHom (φ y) (p : ℕ))) : ℝ) : ℂ)) x =
    (t : ℂ) • levi (fun y => ((Real.log (etaAt A h ps (affineToHom (φ y) (p : ℕ))) : ℝ) : ℂ)) x by
      ext r s
      simp only [levi, Matrix.of_apply, Matrix.smul_apply, smul_eq_mul, dz_mul_const, dzbar_mul_const], ← h3]
  congr 1
  funext y
  push_cast
  rfl

include hF hB hk hh hsm in
/-- The weighted sum of the volume densities of `K + s log η` is `-η` times the Ricci scalar. -/
theorem weights_density {w s : Fin (n + 1) → ℝ} (hw : ∀ q : Polynomial ℂ, q.natDegree ≤ n →
    ∑ i, (w i : ℂ) * q.eval (s i : ℂ) = q.coeff 1) (Z : Fin (n + 2) → ℂ) (hZ : Z ≠ 0) (h0 : eval Z F = 0) :
    ∃ c, A.ricciScalar h (List.ofFn Z) (.vec ps) none none none = .ok c ∧
      ∑ i, w i * volDensity F (fun Z => potAt A h Z + s i * Real.log (etaAt A h ps Z)) Z = -(etaAt A h ps Z * c.re) := by
  obtain ⟨p, d, φ, hp, hc, hnear⟩ := chart_at hF.homogeneous hsm Z hZ h0
  have h1 := hnear.self_of_nhds h0
  set x : Fin n → ℂ := fun r => homToAffine Z (p : ℕ) (d.succAbove r) with hx
  have hscal := (hc.scalar_homogeneous hsm hF hB hk h hh).trans (hc.scalar hsm hF hB hk h hh)
  rw [h1] at hscal
  have hinv : A.ricciScalar h (List.ofFn ((Z p)⁻¹ • Z)) (.vec ps) none none none =
      A.ricciScalar h (List.ofFn Z) (.vec ps) none none none := by
    obtain ⟨v, e1, -⟩ := C109_scalar hF h hh hB hk Z h0 (hsm _ hZ h0) hZ
    have e2 := e1 1 one_ne_zero
    have e3 := e1 (Z p)⁻¹ (inv_ne_zero hp)
    simp only [one_mul] at e2
    rw [e2]
    exact e3
  rw [hinv] at hscal
  refine ⟨_, hscal, ?_⟩
  set G := chartMetric F h p d (φ x) with hG
  set L := chartLevi (fun Z => Real.log (etaAt A h ps Z)) p φ x with hL
  have hdet := hc.det_metric hF hB hk h hh hsm
  rw [h1, etaAt_smul hF h _ (inv_ne_zero hp), ← h1, ← hG] at hdet
  have hunit : IsUnit G.det := (hc.posDef hF hB hk h hh).isUnit.map Matrix.detMonoidHom
  have hv : ∀ t : ℝ, volDensity F (fun Z => potAt A h Z + t * Real.log (etaAt A h ps Z)) Z =
      ‖eval (affineToHom (φ x) (p : ℕ)) (pderiv (p.succAbove d) F)‖ ^ 2 * (G + (t : ℂ) • L).det.re := by
    intro t
    have hsmooth : ChartSmooth F 2 (fun Z => potAt A h Z + t * Real.log (etaAt A h ps Z)) :=
      (potAt_smooth hF hB h hh).add ((ChartSmooth.const t).mul (logEta_smooth hF hB hk h hh hsm))
    rw [volDensity_eq hF.homogeneous (hasVolume hF hB hk h hh hsm) hsmooth (shift_log hF hB hk h hh t) hc (inv_ne_zero hp) h1,
      chartVol, hc.levi_shift hF hB hk h hh hsm]
  have hsum := congrArg (fun c : ℂ => (((‖eval (affineToHom (φ x) (p : ℕ)) (pderiv (p.succAbove d) F)‖ ^ 2 : ℝ) : ℂ) * c).re)
    (det_weights hw G L hunit)
  simp only [← mul_assoc] at hsum
  rw [Complex.ofReal_pow, hdet, Complex.re_ofReal_mul, ← Complex.ofReal_pow, Complex.re_ofReal_mul, Complex.re_sum] at hsum
  simp only [Complex.re_ofReal_mul] at hsum
  simp only [hv]
  rw [show ∑ i, w i * (‖eval (affineToHom (φ x) (p : ℕ)) (pderiv (p.succAbove d) F)‖ ^ 2 * (G + (s i : ℂ) • L).det.re) =
    ‖eval (affineToHom (φ x) (p : ℕ)) (pderiv (p.succAbove d) F)‖ ^ 2 * ∑ i, w i * (G + (s i : ℂ) • L).det.re by
      rw [Finset.mul_sum]
      exact Finset.sum_congr rfl fun i _ => by ring, hsum, Complex.neg_re, mul_neg, neg_neg]
  congr 2
  rw [Matrix.trace]
  simp only [Matrix.diag_apply, Matrix.mul_apply]
  rw [Finset.sum_comm]
  refine Finset.sum_congr rfl fun r _ => Finset.sum_congr rfl fun s _ => ?_
  rw [mul_comm]
  rfl

end Potential

end Cyjax
