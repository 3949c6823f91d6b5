import Verif.Lemmas.RicciFlat
import Verif.Lemmas.LeviTrace
import Verif.Props.CurvatureGlobal
import Mathlib.Topology.Instances.Matrix

/-! # The sign of the Ricci scalar (for C151) -/

namespace Cyjax

open MvPolynomial Cyjax.Spec Cyjax.Polynomial Cyjax.Variety Cyjax.Donaldson Cyjax.Projective Set Filter Topology
open scoped ComplexOrder

variable {n : ℕ} {F : MvPolynomial (Fin (n + 2)) ℂ} {p : Fin (n + 2)} {d : Fin (n + 1)}
  {φ : (Fin n → ℂ) → Fin (n + 1) → ℂ} {x : Fin n → ℂ} {A : AlgebraicMetric (n + 1)} {ps : List ℂ}
  (hsm : SmoothHypersurface F) (hF : Hypersurface A.variety (.vec ps) (n + 1) (n + 2) F)
  (hB : SpansModulo F A.sections.degree A.sections.rows) (hk : A.sections.degree ≠ 0) (h : A.H) (hh : h.PosDef)

theorem dz_mul_const {m : ℕ} (c : ℂ) (f : (Fin m → ℂ) → ℂ) (r : Fin m) (z : Fin m → ℂ) :
    dz (fun y => c * f y) r z = c * dz f r z := by
  have e := fun (t : ℂ) => congrFun (fderiv_const_smul_field (𝕜 := ℝ) (f := fun t => f (Function.update z r t)) c) t
  unfold dz
  change ((fderiv ℝ (c • fun t => f (Function.update z r t)) (z r)) 1 - Complex.I * (fderiv ℝ (c • fun t => f (Function.update z r t)) (z r)) Complex.I) / 2 = _
  rw [e]
  simp only [Pi.smul_apply, _root_.smul_apply, smul_eq_mul]
  ring

theorem dzbar_mul_const {m : ℕ} (c : ℂ) (f : (Fin m → ℂ) → ℂ) (r : Fin m) (z : Fin m → ℂ) :
    dzbar (fun y => c * f y) r z = c * dzbar f r z := by
  have e := fun (t : ℂ) => congrFun (fderiv_const_smul_field (𝕜 := ℝ) (f := fun t => f (Function.update z r t)) c) t
  unfold dzbar
  change ((fderiv ℝ (c • fun t => f (Function.update z r t)) (z r)) 1 + Complex.I * (fderiv ℝ (c • fun t => f (Function.update z r t)) (z r)) Complex.I) / 2 = _
  rw [e]
  simp only [Pi.smul_apply, _root_.smul_apply, smul_eq_mul]
  ring

/-- The metric in the local coordinates. -/
noncomputable def chartMetric (F : MvPolynomial (Fin (n + 2)) ℂ) (h : A.H) (p : Fin (n + 2)) (d : Fin (n + 1))
    (z : Fin (n + 1) → ℂ) : Matrix (Fin n) (Fin n) ℂ :=
  Graph.gLoc (.full h) A.degree (sectionsJet A.sections (p : ℕ) z) (polyEmb (dehom p F) d z)

include hF hB hk hh

theorem Chart.posDef (hc : Chart F p d φ x) : (chartMetric F h p d (φ x)).PosDef := by
  obtain ⟨K, g, -, -, -, -, -, hm, hg, -⟩ := C105_affine hF h hh hB hk p (φ x) d (some (d : ℕ)) _ (hF.grad p (φ x))
    (by rw [hF.defining, hc.zero]) hc.ne (Or.inl rfl)
  have hm' := metric_val hF h p (φ x) (some (d : ℕ))
  rw [hm] at hm'
  injection hm' with hm'
  have h1 : g = chartMetric F h p d (φ x) := (Prod.ext_iff.1 hm').1
  rw [← h1]
  exact hg

theorem Chart.inv_continuous (hc : Chart F p d φ x) (i j : Fin n) :
    ContinuousAt (fun y => (chartMetric F h p d (φ y))⁻¹ i j) x := by
  obtain ⟨r1, r2, r3⟩ := _root_.Cyjax.regular hF h hh hB hk p (φ x) d _ (hF.grad p (φ x)) (by rw [hF.defining, hc.zero]) hc.ne
  have hφ : ContinuousAt φ x := hc.smooth.continuousAt
  have hent : ∀ r s, ContinuousAt (fun y => chartMetric F h p d (φ y) r s) x := by
    intro r s
    refine ContinuousAt.comp (g := fun w => chartMetric F h p d w r s) ?_ hφ
    unfold chartMetric
    rw [sectionsJet_eq _ (spans_le hB) p] at r1 ⊢
    exact (ContDiffAt.sum (s := Finset.univ) fun a _ => ContDiffAt.sum (s := Finset.univ) fun b _ =>
      ((jac_contDiff (dehom p F) d (φ x) r2 r a).mul (gProj_contDiff A.degree (φ x) r1 a b)).mul
        (conj_contDiff (jac_contDiff (dehom p F) d (φ x) r2 s b)) :
      ContDiffAt ℝ 2 (fun w => Graph.gLoc (.full h) A.degree (polyJet (affineSection A.sections p) w)
        (polyEmb (dehom p F) d w) r s) (φ x)).continuousAt
  have hmat : ContinuousAt (fun y => chartMetric F h p d (φ y)) x :=
    continuousAt_pi.2 fun r => continuousAt_pi.2 fun s => hent r s
  have h1 : ContinuousAt (fun y => (chartMetric F h p d (φ y)).det) x :=
    ContinuousAt.comp (g := Matrix.det) (continuous_id.matrix_det).continuousAt hmat
  have h2 : ContinuousAt (fun y => (chartMetric F h p d (φ y)).adjugate) x :=
    ContinuousAt.comp (g := Matrix.adjugate) (continuous_id.matrix_adjugate).continuousAt hmat
  simp only [Matrix.inv_def, Ring.inverse_eq_inv', Matrix.smul_apply, smul_eq_mul]
  exact (h1.inv₀ r3).mul (continuousAt_pi.1 (continuousAt_pi.1 h2 i) j)

include hsm

/-- The Ricci scalar is the trace of the mixed derivatives of `-log eta`. -/
theorem Chart.scalar (hc : Chart F p d φ x) :
    A.ricciScalar h (List.ofFn (φ x)) (.vec ps) (some (p : ℕ)) (some (d : ℕ)) none =
      .ok (-∑ r, ∑ s, dzbar (fun v => dz (fun y =>
          ((Real.log (etaAt A h ps (affineToHom (φ y) (p : ℕ))) : ℝ) : ℂ)) r v) s x * (chartMetric F h p d (φ x))⁻¹ s r) := by
  obtain ⟨R, e1, e2⟩ := hc.ricci hsm hF hB hk h hh
  obtain ⟨R', c, hR, hc1, hR', hc'⟩ := ricci_val hF h p (φ x) d (some (d : ℕ)) rfl hc.ne
  have h5 : R' = R := congrArg Prod.fst (Except.ok.inj (hR'.symm.trans e1))
  rw [hc']
  unfold Graph.ricciScalar at hc1
  rw [hR] at hc1
  have h6 := Except.ok.inj hc1
  rw [← h6, h5]
  refine congrArg Except.ok ?_
  unfold Donaldson.ricciScalar
  simp only [e2, neg_mul, Finset.sum_neg_distrib]
  rfl

/-- The Ricci scalar at a point of a chart is that of the homogeneous coordinates. -/
theorem Chart.scalar_homogeneous (hc : Chart F p d φ x) :
    A.ricciScalar h (List.ofFn (affineToHom (φ x) (p : ℕ))) (.vec ps) none none none =
      A.ricciScalar h (List.ofFn (φ x)) (.vec ps) (some (p : ℕ)) (some (d : ℕ)) none := by
  have hne := affine_ne_zero (φ x) p
  obtain ⟨v, h1, h2⟩ := C109_scalar hF h hh hB hk (affineToHom (φ x) (p : ℕ)) hc.zero (hsm _ hne hc.zero) hne
  have h3 := h1 1 one_ne_zero
  simp only [one_mul] at h3
  have h4 := (h2 p (by rw [affineToHom_same]; exact one_ne_zero)).2 (fun k => eval (φ x) (pderiv k (dehom p F)))
  rw [C15_roundtrip] at h4
  rw [h3, h4 (hF.grad p (φ x)) d hc.ne]

/-- If the Ricci scalar has one sign, then `eta` is constant. -/
theorem const_of_scalar (hn : n ≠ 0) (σ : ℝ) (hσ : σ ≠ 0)
    (hsign : ∀ Z, Z ≠ 0 → eval Z F = 0 → ∀ c, A.ricciScalar h (List.ofFn Z) (.vec ps) none none none = .ok c → σ * c.re ≤ 0) :
    ∃ c, ∀ Z, Z ≠ 0 → eval Z F = 0 → etaAt A h ps Z = c := by
  refine const_of_local hsm hF hB hk h hh hn σ hσ fun p d φ x hch hmax => ?_
  refine levi_strong_max (u := fun y => σ * Real.log (etaAt A h ps (affineToHom (φ y) (p : ℕ))))
    (fun y => (chartMetric F h p d (φ y))⁻¹) ?_ ?_ ?_ ?_ hmax
  · exact hch.eventually.mono fun y hy => contDiffAt_const.mul (hy.log_smooth hsm hF hB hk h hh)
  · exact hch.eventually.mono fun y hy => hy.inv_continuous hF hB hk h hh
  · exact hch.eventually.mono fun y hy => (hy.posDef hF hB hk h hh).inv
  · refine hch.eventually.mono fun y hy => ?_
    have h1 := hsign _ (affine_ne_zero (φ y) p) hy.zero _
      ((hy.scalar_homogeneous hsm hF hB hk h hh).trans (hy.scalar hsm hF hB hk h hh))
    have h2 : ∀ r s, dzbar (fun v => dz (fun y =>
        ((σ * Real.log (etaAt A h ps (affineToHom (φ y) (p : ℕ))) : ℝ) : ℂ)) r v) s y =
        σ * dzbar (fun v => dz (fun y => ((Real.log (etaAt A h ps (affineToHom (φ y) (p : ℕ))) : ℝ) : ℂ)) r v) s y := by
      intro r s
      simp only [Complex.ofReal_mul, dz_mul_const, dzbar_mul_const]
    simp only [h2, mul_assoc, ← Finset.mul_sum, Complex.re_ofReal_mul]
    rw [Complex.neg_re] at h1
    linarith

end Cyjax
