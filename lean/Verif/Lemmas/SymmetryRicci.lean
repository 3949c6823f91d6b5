import Verif.Lemmas.SymmetryEta

/-! # The Ricci scalar and the symmetries of a hypersurface (C155) -/

namespace Cyjax

open MvPolynomial Cyjax.Spec Cyjax.Donaldson Cyjax.Projective Cyjax.Variety Cyjax.Differential Matrix Filter Topology
open Cyjax.Polynomial (PyErr Val)
open scoped ComplexConjugate ComplexOrder ContDiff

variable {n e : ℕ} {F : MvPolynomial (Fin (n + 2)) ℂ} {U : Matrix (Fin (n + 2)) (Fin (n + 2)) ℂ}

theorem trace_congr_conj {m : ℕ} {M L G : Matrix (Fin m) (Fin m) ℂ} (h : IsUnit (M * G * M.conjTranspose).det) :
    (M * L * M.conjTranspose * (M * G * M.conjTranspose)⁻¹).trace = (L * G⁻¹).trace := by
  rw [Matrix.det_mul, Matrix.det_mul, Matrix.det_conjTranspose] at h
  have hM : IsUnit M.det := by
    rw [isUnit_iff_ne_zero] at h ⊢
    exact fun h0 => h (by rw [h0]; simp)
  have hMs : IsUnit M.conjTranspose.det := by
    rw [Matrix.det_conjTranspose]
    exact hM.star
  rw [Matrix.mul_inv_rev, Matrix.mul_inv_rev, Matrix.mul_assoc (M * L), ← Matrix.mul_assoc M.conjTranspose,
    Matrix.mul_nonsing_inv _ hMs, Matrix.one_mul, Matrix.trace_mul_comm, ← Matrix.mul_assoc, Matrix.mul_assoc _ M⁻¹,
    Matrix.nonsing_inv_mul _ hM, Matrix.mul_one, Matrix.trace_mul_comm]

variable {A : AlgebraicMetric (n + 1)} {ps : List ℂ} (hsm : SmoothHypersurface F)
  (hF : Hypersurface A.variety (.vec ps) (n + 1) (n + 2) F) (hU : IsSymmetry F U)
  (hB : SpansModulo F A.sections.degree A.sections.rows) (hk : A.sections.degree ≠ 0) (h : A.H) (hh : h.PosDef)

include hsm hF hB hk hh

/-- The Ricci scalar at homogeneous coordinates, from the local coordinates. -/
theorem Chart.scalar_trace {p : Fin (n + 2)} {d : Fin (n + 1)} {φ : (Fin n → ℂ) → Fin (n + 1) → ℂ} {x : Fin n → ℂ}
    (hc : Chart F p d φ x) {c : ℂ} (hc0 : c ≠ 0) (Z : Fin (n + 2) → ℂ) (hZ : affineToHom (φ x) (p : ℕ) = c • Z) :
    A.ricciScalar h (List.ofFn Z) (.vec ps) none none none =
      .ok (-(chartLevi (fun Z => Real.log (etaAt A h ps Z)) p φ x * (chartLevi (potAt A h) p φ x)⁻¹).trace) := by
  have hZ0 : Z ≠ 0 := fun h0 => affine_ne_zero (φ x) p (by rw [hZ, h0, smul_zero])
  have h0 : eval Z F = 0 := by
    have := hc.zero
    rw [hZ] at this
    rw [← one_smul ℂ Z, ← inv_mul_cancel₀ hc0, ← smul_smul]
    exact eval_smul_zero hF.homogeneous _ _ this
  have hscal := (hc.scalar_homogeneous hsm hF hB hk h hh).trans (hc.scalar hsm hF hB hk h hh)
  have hinv : A.ricciScalar h (List.ofFn (c • Z)) (.vec ps) none none none =
      A.ricciScalar h (List.ofFn Z) (.vec ps) none none none := by
    obtain ⟨v, e1, -⟩ := C109_scalar hF h hh hB hk Z h0 (hsm _ hZ0 h0) hZ0
    have e2 := e1 1 one_ne_zero
    have e3 := e1 c hc0
    simp only [one_mul] at e2
    rw [e2]
    exact e3
  rw [← hinv, ← hZ, hscal, hc.levi_pot hF hB hk h hh]
  rfl

include hU

/-- The Ricci scalar at the image of a point. -/
theorem ricciScalar_symmetry {R : A.H} (hR : ActsBy F (sec A) U R) (hRu : IsUnit R.det) (Z : Fin (n + 2) → ℂ) (hZ : Z ≠ 0)
    (h0 : eval Z F = 0) : A.ricciScalar h (List.ofFn (U *ᵥ Z)) (.vec ps) none none none =
      A.ricciScalar (R.transpose * h * R.transpose.conjTranspose) (List.ofFn Z) (.vec ps) none none none := by
  have hom := hF.homogeneous
  obtain ⟨f, hf⟩ := hU.factor
  have hUF : ∀ Z, eval Z F = 0 → eval (U *ᵥ Z) F = 0 := fun Z hZ => by rw [hf, hZ, mul_zero]
  have hh' := pull_posDef hRu hh
  obtain ⟨p, d, φ, hp, hc, hnear⟩ := chart_at hom hsm Z hZ h0
  obtain ⟨p', d', φ', hp', hc', hnear'⟩ := chart_at hom hsm (U *ᵥ Z) (mulVec_unitary_ne hU.unitary hZ) (hUF Z h0)
  have h1 := hnear.self_of_nhds h0
  have h1' := hnear'.self_of_nhds (hUF Z h0)
  obtain ⟨M, hM⟩ := hc.levi_linear hom hUF hc' (c := ((U *ᵥ Z) p')⁻¹ * Z p) (mul_ne_zero (inv_ne_zero hp') hp)
    (by rw [h1', h1, Matrix.mulVec_smul, smul_smul, mul_assoc, mul_inv_cancel₀ hp, mul_one])
  have hb : ∀ (h : A.H) (W : Fin (n + 2) → ℂ), bil h (homSection A W) (homSection A W) = psiAt (sec A) h W := by
    intro h W
    have hs : ∀ a, homSection A W a = eval W (sec A a) := fun a => by simp [homSection, sec, mono]; rfl
    simp only [bil, psiAt, hs]
  have e1 : chartLevi (potAt A (R.transpose * h * R.transpose.conjTranspose)) p φ (fun r => homToAffine Z (p : ℕ) (d.succAbove r)) =
      M * chartLevi (potAt A h) p' φ' (fun r => homToAffine (U *ᵥ Z) (p' : ℕ) (d'.succAbove r)) * M.conjTranspose := by
    rw [← hM _ _ (potAt_smooth hF hB h hh) (potAt_log hF hB hk h hh)]
    refine hc.levi_eq fun W hW hW0 => ?_
    rw [potAt, potAt, hb, hb, psiAt_mulVec hR h W hW0]
  have e2 : chartLevi (fun Z => Real.log (etaAt A (R.transpose * h * R.transpose.conjTranspose) ps Z)) p φ
      (fun r => homToAffine Z (p : ℕ) (d.succAbove r)) = M * chartLevi (fun Z => Real.log (etaAt A h ps Z)) p' φ'
        (fun r => homToAffine (U *ᵥ Z) (p' : ℕ) (d'.succAbove r)) * M.conjTranspose := by
    rw [← hM _ 0 (logEta_smooth hF hB hk h hh hsm) fun Z hZ h0 c hc => by rw [etaAt_smul hF h c hc]; simp]
    refine hc.levi_eq fun W hW hW0 => ?_
    rw [etaAt_symmetry hsm hF hU hB hk h hh hR hRu W hW hW0]
  have hpd := hc.posDef hF hB hk _ hh'
  rw [← hc.levi_pot hF hB hk _ hh', e1] at hpd
  rw [hc'.scalar_trace hsm hF hB hk h hh (inv_ne_zero hp') _ h1', hc.scalar_trace hsm hF hB hk _ hh' (inv_ne_zero hp) _ h1,
    e1, e2, trace_congr_conj (hpd.isUnit.map Matrix.detMonoidHom)]

end Cyjax
