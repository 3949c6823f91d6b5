import Verif.Lemmas.RicciDependent

/-! # Property C100: the curvature does not depend on the choice of the dependent coordinate -/

namespace Cyjax

open Cyjax.Donaldson Cyjax.Spec Cyjax.Differential MvPolynomial
open scoped ComplexConjugate ComplexOrder

variable {N n : ℕ}

private theorem gLoc_eq_mul (h : HArg N) (degree : ℕ) (J : Jet N (n + 1)) (e : Graph.Emb n) :
    Graph.gLoc h degree J e = Graph.jac e * Graph.gProj h J degree * (Graph.jac e).conjTranspose := by
  rw [C67_pullback]
  exact pullback_eq _ _ _

theorem ricciLoc_eq_mul (R : Matrix (Fin (n + 1)) (Fin (n + 1)) ℂ) (e : Graph.Emb n) :
    ricciLoc R (Graph.jac e) (Graph.jacC e) = Graph.jac e * R * (Graph.jac e).conjTranspose := by
  refine Eq.trans ?_ (pullback_eq (Graph.jac e) (fun r i => conj (Graph.jac e r i)) R)
  ext r s
  simp only [ricciLoc, Matrix.of_apply, pullback, Graph.jacC]
  refine Finset.sum_congr rfl fun i _ => Finset.sum_congr rfl fun j _ => ?_
  ring

/-- **C100.** The induced metric transforms as a tensor under the change of the dependent coordinate: there is one
invertible matrix `A` that expresses one tangent frame in the other, and `g_loc = A g_loc' A†`. -/
theorem C100_frame (h : HArg N) (degree : ℕ) (J : Jet N (n + 1)) (P : MvPolynomial (Fin (n + 1)) ℂ)
    (d d' : Fin (n + 1)) (z : Fin (n + 1) → ℂ) (hd : eval z (pderiv d P) ≠ 0) (hd' : eval z (pderiv d' P) ≠ 0) :
    ∃ A : Matrix (Fin n) (Fin n) ℂ, A.det ≠ 0 ∧ Graph.jac (polyEmb P d z) = A * Graph.jac (polyEmb P d' z) ∧
      Graph.gLoc h degree J (polyEmb P d z) = A * Graph.gLoc h degree J (polyEmb P d' z) * A.conjTranspose := by
  have e1 : Graph.jac (polyEmb P d z) = frameChange (fun i => eval z (pderiv i P)) d d' * Graph.jac (polyEmb P d' z) :=
    jacobianEmbed_change (fun i => eval z (pderiv i P)) d d' hd hd'
  have e2 : Graph.jac (polyEmb P d' z) = frameChange (fun i => eval z (pderiv i P)) d' d * Graph.jac (polyEmb P d z) :=
    jacobianEmbed_change (fun i => eval z (pderiv i P)) d' d hd' hd
  refine ⟨frameChange (fun i => eval z (pderiv i P)) d d', ?_, e1, ?_⟩
  · -- the two changes of frame are inverse to each other
    have h1 : frameChange (fun i => eval z (pderiv i P)) d d' * frameChange (fun i => eval z (pderiv i P)) d' d = 1 := by
      have h2 := e1
      rw [e2, ← Matrix.mul_assoc] at h2
      have h4 : (Graph.jac (polyEmb P d z)).submatrix id d.succAbove = 1 := C27_identity_columns _ d
      have h3 := congrArg (fun M : Matrix (Fin n) (Fin (n + 1)) ℂ => M.submatrix id d.succAbove) h2
      beta_reduce at h3
      rw [Matrix.submatrix_mul _ _ id id d.succAbove Function.bijective_id, h4, Matrix.submatrix_id_id,
        Matrix.mul_one] at h3
      exact h3.symm
    intro h0
    have h2 := congrArg Matrix.det h1
    rw [Matrix.det_mul, h0, zero_mul, Matrix.det_one] at h2
    exact zero_ne_one h2
  · rw [gLoc_eq_mul, gLoc_eq_mul, e1, Matrix.conjTranspose_mul]
    simp only [Matrix.mul_assoc]

private theorem trace_invariant {A M L L' : Matrix (Fin n) (Fin n) ℂ} (hA : A.det ≠ 0)
    (h : L = A * L' * A.conjTranspose) :
    ricciScalar (A * M * A.conjTranspose) L⁻¹ = ricciScalar M L'⁻¹ := by
  have hu : IsUnit A.det := Ne.isUnit hA
  have hu' : IsUnit A.conjTranspose.det := by
    rw [Matrix.det_conjTranspose]
    exact Ne.isUnit (by simpa using hA)
  have e : ∀ X Y : Matrix (Fin n) (Fin n) ℂ, ricciScalar X Y = (X * Y).trace := by
    intro X Y
    simp only [ricciScalar, Matrix.trace, Matrix.diag, Matrix.mul_apply]
  have hi : L⁻¹ = A.conjTranspose⁻¹ * L'⁻¹ * A⁻¹ := by
    rw [h, Matrix.mul_inv_rev, Matrix.mul_inv_rev, Matrix.mul_assoc]
  rw [e, e, hi]
  have h1 : A * M * A.conjTranspose * (A.conjTranspose⁻¹ * L'⁻¹ * A⁻¹) = A * (M * L'⁻¹ * A⁻¹) := by
    simp only [Matrix.mul_assoc]
    rw [Matrix.mul_nonsing_inv_cancel_left _ _ hu']
  rw [h1, Matrix.trace_mul_comm, Matrix.mul_assoc, Matrix.nonsing_inv_mul _ hu, Matrix.mul_one]

theorem ricciProj_full (H : Matrix (Fin N) (Fin N) ℂ) (degree : ℕ) (J : Jet N (n + 1)) (e : Graph.Emb n) :
    Graph.ricciProj (.full H) degree J e = .ok (ricciProjV H degree J e) := rfl

theorem ricciLoc_full (H : Matrix (Fin N) (Fin N) ℂ) (degree : ℕ) (J : Jet N (n + 1)) (e : Graph.Emb n) :
    Graph.ricciLoc (.full H) degree J e = .ok (ricciLoc (ricciProjV H degree J e) (Graph.jac e) (Graph.jacC e)) := rfl

theorem ricciScalar_full (H : Matrix (Fin N) (Fin N) ℂ) (degree : ℕ) (J : Jet N (n + 1)) (e : Graph.Emb n) :
    Graph.ricciScalar (.full H) degree J e = .ok (ricciScalar (ricciLoc (ricciProjV H degree J e) (Graph.jac e)
      (Graph.jacC e)) (Graph.gLoc (.full H) degree J e)⁻¹) := rfl

/-- **C100.** The ambient Ricci tensor, and the Ricci scalar of the induced metric, are the same for every admissible
choice of the dependent coordinate; the Ricci tensor on the variety transforms with the change of tangent frame. -/
theorem C100_curvature (S : (Fin (n + 1) → ℂ) → Jet N (n + 1)) (hS : IsJet S) (H : Matrix (Fin N) (Fin N) ℂ)
    (hH : H.IsHermitian) (degree : ℕ) (P : MvPolynomial (Fin (n + 1)) ℂ) (d d' : Fin (n + 1)) (z : Fin (n + 1) → ℂ)
    (hz : Graph.psi (.full H) (S z) ≠ 0) (hd : eval z (pderiv d P) ≠ 0) (hd' : eval z (pderiv d' P) ≠ 0)
    (hdet : (Graph.gLoc (.full H) degree (S z) (polyEmb P d z)).det ≠ 0) :
    Graph.ricciProj (.full H) degree (S z) (polyEmb P d z) = Graph.ricciProj (.full H) degree (S z) (polyEmb P d' z) ∧
    Graph.ricciScalar (.full H) degree (S z) (polyEmb P d z) =
      Graph.ricciScalar (.full H) degree (S z) (polyEmb P d' z) ∧
    ∃ (A R R' : Matrix (Fin n) (Fin n) ℂ), Graph.jac (polyEmb P d z) = A * Graph.jac (polyEmb P d' z) ∧
      Graph.ricciLoc (.full H) degree (S z) (polyEmb P d z) = .ok R ∧
      Graph.ricciLoc (.full H) degree (S z) (polyEmb P d' z) = .ok R' ∧ R = A * R' * A.conjTranspose := by
  obtain ⟨A, hA, hJ, hg⟩ := C100_frame (.full H) degree (S z) P d d' z hd hd'
  have hdet' : (Graph.gLoc (.full H) degree (S z) (polyEmb P d' z)).det ≠ 0 := by
    intro h0
    rw [hg, Matrix.det_mul, Matrix.det_mul, h0] at hdet
    simp at hdet
  have hR := ricciProj_change hS hH degree P d d' z hz hd hd' hdet hdet'
  have hL : ricciLoc (ricciProjV H degree (S z) (polyEmb P d z)) (Graph.jac (polyEmb P d z)) (Graph.jacC (polyEmb P d z)) =
      A * ricciLoc (ricciProjV H degree (S z) (polyEmb P d' z)) (Graph.jac (polyEmb P d' z))
        (Graph.jacC (polyEmb P d' z)) * A.conjTranspose := by
    rw [ricciLoc_eq_mul, ricciLoc_eq_mul, hR, hJ, Matrix.conjTranspose_mul]
    simp only [Matrix.mul_assoc]
  refine ⟨?_, ?_, A, _, _, hJ, ricciLoc_full _ _ _ _, ricciLoc_full _ _ _ _, hL⟩
  · rw [ricciProj_full, ricciProj_full, hR]
  · rw [ricciScalar_full, ricciScalar_full, hL, trace_invariant hA hg]

/-- The hypotheses of `C100_curvature` hold for the full basis of positive degree, positive definite `H` and any
hypersurface, at every point where both derivatives of the polynomial do not vanish. -/
theorem C100_full (n k : ℕ) (hk : k ≠ 0) (p : Fin (n + 2))
    (H : Matrix (Fin (monomialBasisFull (n + 1) k).size) (Fin (monomialBasisFull (n + 1) k).size) ℂ) (hH : H.PosDef)
    (P : MvPolynomial (Fin (n + 1)) ℂ) (d d' : Fin (n + 1)) :
    ∃ S : (Fin (n + 1) → ℂ) → Jet (monomialBasisFull (n + 1) k).size (n + 1), IsJet S ∧
      (∀ z, (S z).s = (monomialBasisFull (n + 1) k).call z (p : ℕ) true) ∧
      ∀ z, eval z (pderiv d P) ≠ 0 → eval z (pderiv d' P) ≠ 0 →
        Graph.ricciScalar (.full H) k (S z) (polyEmb P d z) = Graph.ricciScalar (.full H) k (S z) (polyEmb P d' z) := by
  obtain ⟨S, hS, hs, -, h⟩ := C68_full n k hk p H hH P d
  exact ⟨S, hS, hs, fun z hz hz' =>
    (C100_curvature S hS H hH.isHermitian k P d d' z (h z hz).1 hz hz' (h z hz).2.2.1).2.1⟩

/-- Both coordinates are admissible at `(1, -1)` on the curve `x^2 + y = 0`. -/
example : ∀ i : Fin 2, eval (![1, -1] : Fin 2 → ℂ) (pderiv i (X 0 ^ 2 + X 1 : MvPolynomial (Fin 2) ℂ)) ≠ 0 := by
  intro i
  fin_cases i <;> simp

end Cyjax
