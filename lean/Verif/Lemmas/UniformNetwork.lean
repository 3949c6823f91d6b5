import Verif.Props.TrainDiff

/-! # The loss function of the training script on a sample, row by row; the matrices of a network on a compact set -/

namespace Cyjax

open Cyjax.Donaldson Cyjax.Spec Cyjax.Projective Cyjax.Variety Cyjax.Differential Cyjax.Ml MvPolynomial
open Cyjax.Polynomial (PyErr Val)
open scoped ComplexOrder Matrix

/-- The loss of a sample is the mean of the losses of its rows. -/
theorem lossFunction_rows {n : ℕ} {A : AlgebraicMetric (n + 1)} {net : HNet} {keep : ℕ → ℕ → ℕ → Bool} {params : ℕ → DenseParams}
    {final : DenseParams} {r : ℕ} (rows : Fin r → SampleRow (n + 1)) (H : Fin r → A.H) (l : Fin r → ℝ)
    (h : ∀ i : Fin r, ∃ q M, net.row (dropout false keep i) params final (rows i).params = .ok q ∧ choleskyFromParam q = .ok M ∧
      asH A M = .ok (H i)) (hl : ∀ i, varianceEtaLossRow A (H i) (rows i) = .ok (l i)) :
    lossFunction A net keep params final (List.ofFn rows) = .ok ((∑ i, l i) / r) := by
  choose q M h1 h2 h3 using h
  have hz : (List.ofFn rows).zipIdx = List.ofFn fun i : Fin r => (rows i, (i : ℕ)) := by
    apply List.ext_getElem
    · simp
    · intro i h1 h2
      simp
  have e0 : (List.ofFn rows).map SampleRow.params = List.ofFn fun i => (rows i).params := by
    rw [List.map_ofFn]
    rfl
  have hz' : (List.ofFn fun i => (rows i).params).zipIdx = List.ofFn fun i : Fin r => ((rows i).params, (i : ℕ)) := by
    apply List.ext_getElem
    · simp
    · intro i h1 h2
      simp
  have e1 : (List.ofFn fun i => (rows i).params).zipIdx.mapM (fun x => net.row (dropout false keep x.2) params final x.1) =
      .ok (List.ofFn q) := by
    rw [hz']
    exact mapM_ofFn h1
  have e2 : (List.ofFn q).mapM (fun h => (choleskyFromParam h).bind fun M => asH A M) = .ok (List.ofFn H) := by
    refine mapM_ofFn fun i => ?_
    rw [h2]
    exact h3 i
  have e3 : (List.ofFn H).zip (List.ofFn rows) = List.ofFn fun i => (H i, rows i) := by
    apply List.ext_getElem
    · simp
    · intro i h1 h2
      simp
  have e4 : ((List.ofFn H).zip (List.ofFn rows)).mapM (fun x => varianceEtaLossRow A x.1 x.2) = .ok (List.ofFn l) := by
    rw [e3]
    exact mapM_ofFn hl
  unfold lossFunction
  rw [e0]
  simp only [HNet.apply, HNet.call, e1]
  simp only [bind, Except.bind] at e2 ⊢
  rw [e2]
  simp only
  rw [e4]
  refine congrArg Except.ok ?_
  unfold listMean
  rw [List.sum_ofFn, List.length_ofFn]

section Network

variable {E : Type*} [NormedAddCommGroup E] [NormedSpace ℝ E] {Θ : Set E} {n : ℕ} {A : AlgebraicMetric (n + 1)} {net : HNet}
  {drop : ℕ → ℚ → List ℝ → List ℝ} {params : E → ℕ → DenseParams}
  {final : E → DenseParams} (hsize : net.basisSize = A.sections.size) (hpow : ∃ q ∈ net.powers, q ≠ 0)
  (hfeat : net.featureAngle ∨ net.featureAbs ∨ net.featureParts) (hact : Differentiable ℝ net.activation) (hdrop : IsMask drop)
  (hk : ∀ θ ∈ Θ, ∀ l i j, DifferentiableAt ℝ (fun t => (params t l).kernel i j) θ)
  (hb : ∀ θ ∈ Θ, ∀ l j, DifferentiableAt ℝ (fun t => (params t l).bias j) θ)
  (hfk : ∀ θ ∈ Θ, ∀ i j, DifferentiableAt ℝ (fun t => (final t).kernel i j) θ)
  (hfb : ∀ θ ∈ Θ, ∀ j, DifferentiableAt ℝ (fun t => (final t).bias j) θ)

include hsize hpow hfeat hact hdrop hk hb hfk hfb

/-- The matrices of the network are continuous on a set of parameters. -/
theorem network_continuousOn (psi : List ℂ) (hpsi : psi ≠ [])
    (hdiag : ∀ θ ∈ Θ, ∀ h, net.row drop (params θ) (final θ) psi = .ok h → ∀ i < net.basisSize, h.getD i 0 ≠ 0) :
    ∃ H : E → A.H, (∀ θ ∈ Θ, ∃ q M, net.row drop (params θ) (final θ) psi = .ok q ∧ choleskyFromParam q = .ok M ∧ asH A M = .ok (H θ)) ∧
      ContinuousOn H Θ ∧ ∀ θ ∈ Θ, (H θ).PosDef := by
  rcases Θ.eq_empty_or_nonempty with rfl | ⟨θ₀, h₀⟩
  · exact ⟨fun _ => 1, by simp⟩
  have hall := fun θ (hθ : θ ∈ Θ) => network_matrix (θ := θ) (A := A) hsize hpow hfeat hact hdrop (hk θ hθ) (hb θ hθ) (hfk θ hθ) (hfb θ hθ)
    psi hpsi (hdiag θ hθ)
  choose q H h1 h2 h3 using hall
  have heq : ∀ θ hθ, H θ hθ = H θ₀ h₀ := by
    intro θ hθ
    funext t
    obtain ⟨a1, M, a2, a3⟩ := h1 θ hθ t
    obtain ⟨b1, M', b2, b3⟩ := h1 θ₀ h₀ t
    rw [a1] at b1
    obtain hq := Except.ok.inj b1
    rw [← hq, a2] at b2
    obtain rfl := Except.ok.inj b2
    rw [a3] at b3
    exact Except.ok.inj b3
  refine ⟨H θ₀ h₀, fun θ _ => ?_, fun θ hθ => ?_, fun θ hθ => ?_⟩
  · obtain ⟨a1, M, a2, a3⟩ := h1 θ₀ h₀ θ
    exact ⟨_, M, a1, a2, a3⟩
  · rw [← heq θ hθ]
    refine ContinuousAt.continuousWithinAt ?_
    exact tendsto_pi_nhds.2 fun i => tendsto_pi_nhds.2 fun j => (h2 θ hθ i j).continuousAt
  · rw [← heq θ hθ]
    exact (h3 θ hθ).self_of_nhds

end Network

end Cyjax
