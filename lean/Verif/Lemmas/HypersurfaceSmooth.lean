import Verif.Spec.LocalCoordinates
import Verif.Lemmas.CurvatureChart
import Verif.Props.AlgebraicMetric

/-! # Smoothness of the results of `AlgebraicMetric` on a hypersurface (for C108, C109) -/

namespace Cyjax

open Cyjax.Donaldson Cyjax.Spec Cyjax.Projective Cyjax.Variety Cyjax.Differential
open Cyjax.Polynomial (PyErr Val PolyObj DworkFactor)
open MvPolynomial (eval pderiv)
open scoped ComplexConjugate ComplexOrder Topology

section Coordinates

variable {n : ℕ} {A : AlgebraicMetric (n + 1)} {params : Val} {e : ℕ} {F : MvPolynomial (Fin (n + 2)) ℂ}
  (hV : Hypersurface A.variety params (n + 1) e F)

include hV

theorem parametrises {p : Fin (n + 2)} {d : Fin (n + 1)} {φ : (Fin n → ℂ) → Fin (n + 1) → ℂ} {x : Fin n → ℂ}
    (hφ : LocalCoordinates A.variety params (p : ℕ) d φ x) : Parametrises (dehom p F) d φ x := by
  refine hφ.mono fun y hy => ⟨hy.1, hy.2.1, ?_⟩
  have := hy.2.2
  rw [hV.defining p] at this
  injection this with this
  rw [eval_dehom, this]

section Smooth

variable (h : A.H) (hh : h.PosDef) (hB : SpansModulo F A.sections.degree A.sections.rows)
  (hk : A.sections.degree ≠ 0) (p : Fin (n + 2)) (d : Fin (n + 1)) (z : Fin (n + 1) → ℂ)
  (h0 : defining A.variety (List.ofFn z) params (some (.index p)) = .ok 0) (G : Fin (n + 1) → ℂ)
  (hG : gradDefining A.variety z params (some (.index p)) = .ok G) (hd : G d ≠ 0)

include hh hB hk h0 hG hd

omit hk hG hd in
theorem kahler_smooth {l : WithTop ℕ∞} : ContDiffAt ℝ l (fun w => onOk id (A.kahlerPotential h (List.ofFn w) (some (p : ℕ)))) z := by
  have hpos : 0 < Graph.psi (.full h) (sectionsJet A.sections (p : ℕ) z) := psi_pos h hh hB p z (by
    have := (hV.defining p z).symm.trans h0
    injection this)
  simp only [kahler_val hV h p]
  rw [sectionsJet_eq _ (spans_le hB) p] at hpos ⊢
  exact kahler_contDiff A.degree z (Or.inl (Complex.pos_iff.1 hpos).1)

omit hk hd in
/-- The metric in terms of the derivatives of the Kahler potential in the patch. -/
theorem metric_levi :
    ∃ g, A.metric h (List.ofFn z) params (some (p : ℕ)) (some (d : ℕ)) none = .ok (g, (p : ℕ), ((d : ℕ) : ℤ)) ∧
      g = jacobianEmbed G (d : ℕ) * (Matrix.of fun a b => dzbar (fun v => dz (fun w =>
          onOk id (A.kahlerPotential h (List.ofFn w) (some (p : ℕ)))) a v) b z) *
        (jacobianEmbed G (d : ℕ)).conjTranspose := by
  have hsm := kahler_smooth (l := 2) hV h hh hB p z h0
  have hpos : 0 < Graph.psi (.full h) (sectionsJet A.sections (p : ℕ) z) := psi_pos h hh hB p z (by
    have := (hV.defining p z).symm.trans h0
    injection this)
  have hGe : G = fun k => eval z (pderiv k (dehom p F)) := by
    have := hG.symm.trans (hV.grad p z)
    injection this
  refine ⟨_, metric_val hV h p z (some (d : ℕ)), ?_⟩
  have hm : (Matrix.of fun a b => dzbar (fun v => dz (fun w => onOk id (A.kahlerPotential h (List.ofFn w) (some (p : ℕ)))) a v) b z) = Graph.gProj (.full h) (sectionsJet A.sections (p : ℕ) z) A.degree := by
    ext a b
    rw [Matrix.of_apply, ← dz_dzbar_comm hsm a b]
    simp only [kahler_val hV h p]
    exact C64_metric _ (sectionsJet_isJet A.sections (spans_le hB) p) h hh.isHermitian A.degree z hpos a b
  rw [hm, hGe]
  ext r s
  change Graph.gLoc (.full h) A.degree _ (polyEmb (dehom p F) d z) r s = _
  simp only [Graph.gLoc, Donaldson.gLoc, Matrix.of_apply, Matrix.mul_apply, Matrix.conjTranspose_apply, Finset.sum_mul]
  rw [Finset.sum_comm]
  rfl

theorem eta_smooth {l : WithTop ℕ∞} :
    ContDiffAt ℝ l (fun w => onOk (fun η => ((Real.log ‖η‖ : ℝ) : ℂ)) (A.eta h (List.ofFn w) params (some (p : ℕ)) (some (d : ℕ)) none)) z := by
  obtain ⟨r1, r2, r3⟩ := regular hV h hh hB hk p z d G hG h0 hd
  simp only [eta_val hV h p _ (some (d : ℕ))]
  rw [sectionsJet_eq _ (spans_le hB) p] at r1 r3 ⊢
  refine logNorm_contDiff ((det_contDiff A.degree (dehom p F) d z r1 r2).mul ?_) (mul_ne_zero r3 ?_)
  · simp only [chooseDep, jget_nat]
    exact (Complex.ofRealCLM.contDiff.contDiffAt.comp z
      ((eval_contDiffR (pderiv d (dehom p F)) l).contDiffAt.norm ℝ r2)).pow 2
  · simp only [chooseDep, jget_nat]
    simpa using r2

end Smooth

end Coordinates

end Cyjax
