import Verif.Lemmas.NetworkSmooth
import Verif.Spec.GradientLimit
import Mathlib.Analysis.Calculus.LineDeriv.Basic

/-! # The loss function of a training step and its gradient from the rows of the sample -/

namespace Cyjax

open Cyjax.Donaldson Cyjax.Spec Cyjax.Projective Cyjax.Variety Cyjax.Differential Cyjax.Ml MvPolynomial
open Cyjax.Polynomial (PyErr Val)
open scoped ComplexOrder

variable {E : Type*} [NormedAddCommGroup E] [NormedSpace ℝ E] {θ : E} {n N e count : ℕ} {A : AlgebraicMetric (n + 1)}
  {net : HNet} {keep : ℕ → ℕ → ℕ → Bool} {params : E → ℕ → DenseParams} {final : E → DenseParams}
  {row : Fin N → SampleRow (n + 1)} {F : Fin N → MvPolynomial (Fin (n + 2)) ℂ} {H : Fin N → E → A.H}
  (hgood : ∀ i, GoodRow A.variety count (row i)) (hF : ∀ i, Hypersurface A.variety (.vec (row i).params) (n + 1) e (F i))
  (hnet : ∀ i t, ∃ q M, net.row (dropout false keep (i : Fin N)) (params t) (final t) (row i).params = .ok q ∧
    choleskyFromParam q = .ok M ∧ asH A M = .ok (H i t))

private theorem zip_ofFn {α β : Type*} (f : Fin N → α) (g : Fin N → β) : (List.ofFn f).zip (List.ofFn g) = List.ofFn fun i => (f i, g i) := by
  rw [List.ofFn_eq_map, List.ofFn_eq_map, List.zip_map', ← List.ofFn_eq_map]

include hnet in
private theorem step_matrices (t : E) : ∃ hs, net.apply false (some keep) (params t) (final t) (.batch ((List.ofFn row).map SampleRow.params)) =
      .ok (.batch hs) ∧ hs.mapM (fun h => (choleskyFromParam h).bind fun M => asH A M) = .ok (List.ofFn fun i => H i t) := by
  choose q M h1 h2 h3 using hnet
  refine ⟨List.ofFn fun i => q i t, ?_, mapM_ofFn fun i => by simp only [h2, Except.bind, h3]⟩
  have h := apply_batch (net := net) (keep := keep) (params := params t) (final := final t) (sample := List.ofFn row)
    (p := fun x => if hx : x.2 < N then q ⟨x.2, hx⟩ t else []) (by
      rintro ⟨y, j⟩ hx
      have hj := List.mk_mem_zipIdx_iff_getElem?.1 hx
      rw [List.getElem?_ofFn] at hj
      split_ifs at hj with hjN
      obtain rfl := Option.some.inj hj
      simp only [dif_pos hjN]
      exact h1 ⟨j, hjN⟩ t)
  rw [h]
  congr 2
  apply List.ext_getElem
  · simp
  · intro i a1 a2
    have : i < N := by simpa using a2
    simp [this]

include hgood hF hnet in
/-- The loss function is the mean of the losses of the rows. -/
theorem stepLoss_rows (t : E) : lossFunction A net keep (params t) (final t) (List.ofFn row) =
    .ok ((∑ i, varianceEtaLoss (rowEtas A (F i) (row i) (H i t)) (rowWeights (row i))) / N) := by
  obtain ⟨hs, a1, a2⟩ := step_matrices hnet t
  have e4 : (List.ofFn fun i => (H i t, row i)).mapM (fun x => varianceEtaLossRow A x.1 x.2) =
      .ok (List.ofFn fun i => varianceEtaLoss (rowEtas A (F i) (row i) (H i t)) (rowWeights (row i))) :=
    mapM_ofFn (x := fun i => (H i t, row i)) (y := fun i => varianceEtaLoss (rowEtas A (F i) (row i) (H i t)) (rowWeights (row i)))
      fun i => lossRow_eq (hgood i) (hF i) (H i t)
  unfold lossFunction
  rw [a1]
  simp only [bind, Except.bind] at a2 ⊢
  rw [a2]
  simp only
  rw [zip_ofFn, e4]
  simp only
  refine congrArg Except.ok ?_
  rw [listMean, List.sum_ofFn, List.length_ofFn]

include hgood hF hnet in
/-- The loss function for a constant average is the mean of these losses of the rows. -/
theorem stepStopped_rows (t : E) : lossFunctionStopped A net keep (params t) (params θ) (final t) (final θ) (List.ofFn row) =
    .ok ((∑ i, lossStopped (rowEtas A (F i) (row i) (H i t)) (rowEtas A (F i) (row i) (H i θ)) (rowWeights (row i))) / N) := by
  obtain ⟨hs, a1, a2⟩ := step_matrices hnet t
  obtain ⟨hs', b1, b2⟩ := step_matrices hnet θ
  have e4 : (List.ofFn fun i => (H i t, H i θ, row i)).mapM (fun x => lossRowStopped A x.1 x.2.1 x.2.2) =
      .ok (List.ofFn fun i => lossStopped (rowEtas A (F i) (row i) (H i t)) (rowEtas A (F i) (row i) (H i θ)) (rowWeights (row i))) :=
    mapM_ofFn (x := fun i => (H i t, H i θ, row i))
      (y := fun i => lossStopped (rowEtas A (F i) (row i) (H i t)) (rowEtas A (F i) (row i) (H i θ)) (rowWeights (row i)))
      fun i => lossRowStopped_eq (hgood i) (hF i) (H i t) (H i θ)
  unfold lossFunctionStopped
  rw [a1, b1]
  simp only [bind, Except.bind] at a2 b2 ⊢
  rw [a2, b2]
  simp only
  rw [zip_ofFn, zip_ofFn, e4]
  simp only
  refine congrArg Except.ok ?_
  rw [listMean, List.sum_ofFn, List.length_ofFn]

include hgood hF hnet in
/-- The gradient of a training step, in the direction `v`, from the derivatives for the rows along a line. -/
theorem step_gradients (hc : count ≠ 0) (hsm : ∀ i, SmoothHypersurface (F i))
    (hB : ∀ i, SpansModulo (F i) A.sections.degree A.sections.rows) (hk : A.sections.degree ≠ 0)
    (hd : ∀ i a b, DifferentiableAt ℝ (fun t => H i t a b) θ) (hh : ∀ i, (H i θ).PosDef) :
    ∃ (ℓ : E → ℝ) (G : E →L[ℝ] ℝ), (∀ t, lossFunction A net keep (params t) (final t) (List.ofFn row) = .ok (ℓ t)) ∧
      trainValueAndGrad A net keep params final (List.ofFn row) θ = .ok (ℓ θ, G) ∧ DifferentiableAt ℝ ℓ θ ∧
      ∀ v, G v = (∑ i, deriv (fun t : ℝ => resultOrZero (lossRowStopped A (H i (θ + t • v)) (H i θ) (row i))) 0) / N ∧
        fderiv ℝ ℓ θ v = (∑ i, deriv (fun t : ℝ => resultOrZero (varianceEtaLossRow A (H i (θ + t • v)) (row i))) 0) / N := by
  have hw : ∀ i, (∀ j, 0 < rowWeights (row i) j) ∧ 0 < ∑ j, rowWeights (row i) j := fun i =>
    ⟨(rowWeights_pos (hgood i) hc).1, (rowWeights_pos (hgood i) hc).2.1⟩
  have hηd : ∀ i, DifferentiableAt ℝ (fun t => rowEtas A (F i) (row i) (H i t)) θ := fun i =>
    rowEtas_differentiable (hgood i) (hF i) (hB i) (hd i) (hh i)
  have hm : ∀ i, wavg (rowWeights (row i)) (rowEtas A (F i) (row i) (H i θ)) ≠ 0 := by
    intro i
    have hP := rowEtas_pos (hgood i) (hF i) (hsm i) (hB i) hk _ (hh i)
    have : Nonempty (Fin (row i).pts.length) := ⟨⟨0, Nat.pos_of_ne_zero (by rw [(hgood i).count_eq]; exact hc)⟩⟩
    exact (div_pos (Finset.sum_pos (fun j _ => mul_pos ((hw i).1 j) (hP j)) Finset.univ_nonempty) (hw i).2).ne'
  have d1 : ∀ i, DifferentiableAt ℝ (fun t => varianceEtaLoss (rowEtas A (F i) (row i) (H i t)) (rowWeights (row i))) θ := fun i =>
    (C146_gradient_partial _ _ θ (hw i).2 (hm i) (hηd i)).1
  have d2 : ∀ i, DifferentiableAt ℝ (fun t => lossStopped (rowEtas A (F i) (row i) (H i t)) (rowEtas A (F i) (row i) (H i θ))
      (rowWeights (row i))) θ := fun i => C146_stopped _ _ θ (hw i).2 (hm i) (hηd i)
  have hfd : ∀ f : Fin N → E → ℝ, (∀ i, DifferentiableAt ℝ (f i) θ) →
      DifferentiableAt ℝ (fun t => (∑ i, f i t) / N) θ ∧ ∀ v, fderiv ℝ (fun t => (∑ i, f i t) / N) θ v =
        (∑ i, deriv (fun t : ℝ => f i (θ + t • v)) 0) / N := by
    intro f hf
    have h1 : DifferentiableAt ℝ (fun t => (∑ i, f i t) / N) θ := by
      simp only [div_eq_mul_inv]
      exact (DifferentiableAt.fun_sum fun i _ => hf i).mul_const _
    refine ⟨h1, fun v => ?_⟩
    rw [← h1.lineDeriv_eq_fderiv]
    have h2 : ∀ i, HasDerivAt (fun t : ℝ => f i (θ + t • v)) (deriv (fun t : ℝ => f i (θ + t • v)) 0) 0 := fun i =>
      ((hf i).hasFDerivAt.hasLineDerivAt v).differentiableAt.hasDerivAt
    exact ((HasDerivAt.fun_sum fun i _ => h2 i).div_const (N : ℝ)).deriv
  refine ⟨fun t => (∑ i, varianceEtaLoss (rowEtas A (F i) (row i) (H i t)) (rowWeights (row i))) / N,
    fderiv ℝ (fun t => (∑ i, lossStopped (rowEtas A (F i) (row i) (H i t)) (rowEtas A (F i) (row i) (H i θ)) (rowWeights (row i))) / N) θ,
    stepLoss_rows hgood hF hnet, ?_, (hfd _ d1).1, fun v => ⟨?_, ?_⟩⟩
  · unfold trainValueAndGrad
    rw [stepLoss_rows hgood hF hnet θ]
    simp only [stepStopped_rows hgood hF hnet]
    rfl
  · refine ((hfd _ d2).2 v).trans ?_
    congr 1
    refine Finset.sum_congr rfl fun i _ => ?_
    simp only [lossRowStopped_eq (hgood i) (hF i)]
    rfl
  · refine ((hfd _ d1).2 v).trans ?_
    congr 1
    refine Finset.sum_congr rfl fun i _ => ?_
    simp only [lossRow_eq (hgood i) (hF i)]
    rfl

end Cyjax
