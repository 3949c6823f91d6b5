import Verif.Lemmas.TrainDiff

/-! # The gradient of the training script exists (C147) -/

namespace Cyjax

open Cyjax.Donaldson Cyjax.Spec Cyjax.Projective Cyjax.Variety Cyjax.Differential Cyjax.Ml MvPolynomial
open Cyjax.Polynomial (PyErr Val)
open scoped ComplexOrder Matrix

variable {E : Type*} [NormedAddCommGroup E] [NormedSpace ℝ E] {θ : E}

private theorem listMean_eq {α : Type*} (l : List α) (f : α → ℝ) : listMean (l.map f) = (l.map f).sum / l.length := by
  unfold listMean
  rw [List.length_map]

private theorem hasFDerivAt_listSum {α : Type*} (l : List α) (f : E → α → ℝ) (D : α → E →L[ℝ] ℝ)
    (h : ∀ a ∈ l, HasFDerivAt (fun t => f t a) (D a) θ) :
    HasFDerivAt (fun t => (l.map (f t)).sum) (l.map D).sum θ := by
  induction l with
  | nil => simpa using hasFDerivAt_const (0 : ℝ) θ
  | cons a l ih =>
    simp only [List.map_cons, List.sum_cons]
    exact (h a (by simp)).add (ih fun b hb => h b (by simp [hb]))

private theorem sum_apply (l : List (E →L[ℝ] ℝ)) (v : E) : l.sum v = (l.map fun D => D v).sum := by
  induction l with
  | nil => simp
  | cons a l ih => simp [ih]

private theorem decode_batch {n : ℕ} {A : AlgebraicMetric (n + 1)} {sample : List (SampleRow (n + 1))} {p : SampleRow (n + 1) × ℕ → List ℝ}
    {H : SampleRow (n + 1) × ℕ → A.H}
    (h : ∀ row ∈ sample.zipIdx, ∃ M, choleskyFromParam (p row) = .ok M ∧ asH A M = .ok (H row)) :
    (sample.zipIdx.map p).mapM (fun h => (choleskyFromParam h).bind fun M => asH A M) = .ok (sample.zipIdx.map H) := by
  rw [List.mapM_map]
  refine mapM_ok fun row hr => ?_
  obtain ⟨M, h2, h3⟩ := h row hr
  simp only [Function.comp_apply, h2, Except.bind, h3]

section Training

variable {n : ℕ} {A : AlgebraicMetric (n + 1)} {net : HNet} {keep : ℕ → ℕ → ℕ → Bool} {params : E → ℕ → DenseParams}
  {final : E → DenseParams} (hsize : net.basisSize = A.sections.size) (hpow : ∃ q ∈ net.powers, q ≠ 0)
  (hfeat : net.featureAngle ∨ net.featureAbs ∨ net.featureParts) (hact : Differentiable ℝ net.activation)
  (hpk : ∀ l i j, DifferentiableAt ℝ (fun t => (params t l).kernel i j) θ)
  (hpb : ∀ l j, DifferentiableAt ℝ (fun t => (params t l).bias j) θ)
  (hfk : ∀ i j, DifferentiableAt ℝ (fun t => (final t).kernel i j) θ)
  (hfb : ∀ j, DifferentiableAt ℝ (fun t => (final t).bias j) θ) {e count : ℕ} (hc : count ≠ 0)
  (hk : A.sections.degree ≠ 0) (sample : List (SampleRow (n + 1))) (hne : sample ≠ [])
  (hgood : ∀ row ∈ sample, row.params ≠ [] ∧ GoodRow A.variety count row ∧ ∃ F : MvPolynomial (Fin (n + 2)) ℂ,
    Hypersurface A.variety (.vec row.params) (n + 1) e F ∧ SmoothHypersurface F ∧
    SpansModulo F A.sections.degree A.sections.rows)
  (hdiag : ∀ x ∈ sample.zipIdx, ∀ h, net.row (dropout false keep x.2) (params θ) (final θ) x.1.params = .ok h →
      ∀ i < net.basisSize, h.getD i 0 ≠ 0)

include hsize hpow hfeat hact hpk hpb hfk hfb hc hk hne hgood hdiag

/-- **C147.** Let all weights and biases of the network be differentiable functions of a vector `θ` (for example its
components), with a differentiable activation function, on a training sample of smooth members, at parameters for which the
decoded triangular matrices have no zero on the diagonal. Then near `θ` the loss function is defined and given by a function `ℓ`
that is differentiable at `θ`. The training step computes `ℓ θ` and a gradient `G`. With the matrices `H` from the network, the values `η` of
`eta` at the points, and the weights `w` of the points (for each row of the sample with its position), `G` is the derivative of `ℓ` plus the mean over the sample of twice
the loss over the average eta, times the derivative of the average eta. -/
theorem C147_gradient : ∃ (ℓ : E → ℝ) (G : E →L[ℝ] ℝ) (H : SampleRow (n + 1) × ℕ → E → A.H)
      (η : (x : SampleRow (n + 1) × ℕ) → E → Fin x.1.pts.length → ℝ) (w : (x : SampleRow (n + 1) × ℕ) → Fin x.1.pts.length → ℝ),
    (∀ᶠ t in nhds θ, lossFunction A net keep (params t) (final t) sample = .ok (ℓ t)) ∧ DifferentiableAt ℝ ℓ θ ∧
    trainValueAndGrad A net keep params final sample θ = .ok (ℓ θ, G) ∧
    (∀ x ∈ sample.zipIdx, x.1.weights = List.ofFn (w x) ∧ (∀ i, 0 < w x i) ∧
      ∀ᶠ t in nhds θ, (H x t).PosDef ∧ (∃ p M, net.row (dropout false keep x.2) (params t) (final t) x.1.params = .ok p ∧
          choleskyFromParam p = .ok M ∧ asH A M = .ok (H x t)) ∧
        ∀ i, 0 < η x t i ∧ A.eta (H x t) (List.ofFn (x.1.pts.get i).1) (.vec x.1.params)
          (some ((x.1.pts.get i).2 : ℕ)) none none = .ok (η x t i : ℂ)) ∧
    (∀ x ∈ sample.zipIdx, DifferentiableAt ℝ (η x) θ) ∧
    ∀ v, G v = fderiv ℝ ℓ θ v + (sample.zipIdx.map fun x =>
      2 * varianceEtaLoss (η x θ) (w x) / wavg (w x) (η x θ) *
        fderiv ℝ (fun t => wavg (w x) (η x t)) θ v).sum / sample.length := by
  classical
  replace hgood : ∀ x ∈ sample.zipIdx, _ := fun x hx => hgood x.1 (List.fst_mem_of_mem_zipIdx hx)
  have hF : ∀ row : SampleRow (n + 1) × ℕ, ∃ F : MvPolynomial (Fin (n + 2)) ℂ, row ∈ sample.zipIdx →
      Hypersurface A.variety (.vec row.1.params) (n + 1) e F ∧ SmoothHypersurface F ∧
      SpansModulo F A.sections.degree A.sections.rows := by
    intro row
    by_cases hr : row ∈ sample.zipIdx
    · obtain ⟨-, -, F, h⟩ := hgood row hr
      exact ⟨F, fun _ => h⟩
    · exact ⟨0, fun h => absurd h hr⟩
  choose F hF using hF
  have hN : ∀ row : SampleRow (n + 1) × ℕ, ∃ (p : E → List ℝ) (H : E → A.H), row ∈ sample.zipIdx →
      (∀ t, net.row (dropout false keep row.2) (params t) (final t) row.1.params = .ok (p t) ∧
        ∃ M, choleskyFromParam (p t) = .ok M ∧ asH A M = .ok (H t)) ∧
      (∀ i j, DifferentiableAt ℝ (fun t => H t i j) θ) ∧ ∀ᶠ t in nhds θ, (H t).PosDef := by
    intro row
    by_cases hr : row ∈ sample.zipIdx
    · obtain ⟨p, H, h⟩ := network_matrix (A := A) hsize hpow hfeat hact (isMask_dropout false keep row.2) hpk hpb hfk hfb row.1.params (hgood row hr).1
        (hdiag row hr)
      exact ⟨p, H, fun _ => h⟩
    · exact ⟨fun _ => [], fun _ => 1, fun h => absurd h hr⟩
  choose p H hN using hN
  let η : (row : SampleRow (n + 1) × ℕ) → E → Fin row.1.pts.length → ℝ := fun row t => rowEtas A (F row) row.1 (H row t)
  let w : (row : SampleRow (n + 1) × ℕ) → Fin row.1.pts.length → ℝ := fun row => rowWeights row.1
  have hw : ∀ row ∈ sample.zipIdx, (∀ i, 0 < w row i) ∧ 0 < ∑ i, w row i ∧ row.1.weights = List.ofFn (w row) := fun row hr =>
    rowWeights_pos (hgood row hr).2.1 hc
  have hηd : ∀ row ∈ sample.zipIdx, DifferentiableAt ℝ (η row) θ := fun row hr =>
    rowEtas_differentiable (hgood row hr).2.1 (hF row hr).1 (hF row hr).2.2 (hN row hr).2.1 (hN row hr).2.2.self_of_nhds
  have hηp : ∀ row ∈ sample.zipIdx, ∀ t, (H row t).PosDef → ∀ i, 0 < η row t i := fun row hr t ht =>
    rowEtas_pos (hgood row hr).2.1 (hF row hr).1 (hF row hr).2.1 (hF row hr).2.2 hk _ ht
  have hlen : (sample.length : ℝ) ≠ 0 := Nat.cast_ne_zero.mpr (by rwa [Ne, List.length_eq_zero_iff])
  let ℓ : E → ℝ := fun t => (sample.zipIdx.map fun row => varianceEtaLoss (η row t) (w row)).sum / sample.length
  let σ : E → ℝ := fun t => (sample.zipIdx.map fun row => lossStopped (η row t) (η row θ) (w row)).sum / sample.length
  have hval : ∀ t, lossFunction A net keep (params t) (final t) sample = .ok (ℓ t) := by
    intro t
    have e3 := decode_batch (A := A) (sample := sample) (p := fun row => p row t) (H := fun row => H row t)
      fun row hr => ((hN row hr).1 t).2
    have e4 : ((sample.zipIdx.map fun row => H row t).zip sample).mapM (fun x => varianceEtaLossRow A x.1 x.2) =
        .ok (sample.zipIdx.map fun row => varianceEtaLoss (η row t) (w row)) := by
      rw [zip_rows, List.mapM_map]
      exact mapM_ok fun row hr => lossRow_eq (hgood row hr).2.1 (hF row hr).1 _
    unfold lossFunction
    rw [apply_batch fun row hr => ((hN row hr).1 t).1]
    simp only [bind, Except.bind] at e3 ⊢
    rw [e3]
    simp only
    rw [e4]
    exact congrArg Except.ok ((listMean_eq _ _).trans (by rw [List.length_zipIdx]))
  have hstop : ∀ t, lossFunctionStopped A net keep (params t) (params θ) (final t) (final θ) sample = .ok (σ t) := by
    intro t
    have e3 := decode_batch (A := A) (sample := sample) (p := fun row => p row t) (H := fun row => H row t)
      fun row hr => ((hN row hr).1 t).2
    have e3' := decode_batch (A := A) (sample := sample) (p := fun row => p row θ) (H := fun row => H row θ)
      fun row hr => ((hN row hr).1 θ).2
    have e4 : ((sample.zipIdx.map fun row => H row t).zip ((sample.zipIdx.map fun row => H row θ).zip sample)).mapM
        (fun x => lossRowStopped A x.1 x.2.1 x.2.2) =
        .ok (sample.zipIdx.map fun row => lossStopped (η row t) (η row θ) (w row)) := by
      rw [zip_rows, List.zip_map', List.mapM_map]
      exact mapM_ok fun row hr => lossRowStopped_eq (hgood row hr).2.1 (hF row hr).1 _ _
    unfold lossFunctionStopped
    rw [apply_batch fun row hr => ((hN row hr).1 t).1, apply_batch fun row hr => ((hN row hr).1 θ).1]
    simp only [bind, Except.bind] at e3 e3' ⊢
    rw [e3, e3']
    simp only
    rw [e4]
    exact congrArg Except.ok ((listMean_eq _ _).trans (by rw [List.length_zipIdx]))
  have hm : ∀ row ∈ sample.zipIdx, wavg (w row) (η row θ) ≠ 0 := by
    intro row hr
    obtain ⟨w1, w2, -⟩ := hw row hr
    have hP := hηp row hr θ (hN row hr).2.2.self_of_nhds
    have : Nonempty (Fin row.1.pts.length) := ⟨⟨0, Nat.pos_of_ne_zero (by rw [(hgood row hr).2.1.count_eq]; exact hc)⟩⟩
    exact (div_pos (Finset.sum_pos (fun i _ => mul_pos (w1 i) (hP i)) Finset.univ_nonempty) w2).ne'
  have hgr := fun row hr => C146_gradient_partial (η row) (w row) θ (hw row hr).2.1 (hm row hr) (hηd row hr)
  have hℓ : HasFDerivAt ℓ ((sample.length : ℝ)⁻¹ •
      (sample.zipIdx.map fun row => fderiv ℝ (fun t => varianceEtaLoss (η row t) (w row)) θ).sum) θ := by
    simp only [ℓ, div_eq_inv_mul]
    exact (hasFDerivAt_listSum sample.zipIdx (fun t row => varianceEtaLoss (η row t) (w row)) _
      fun row hr => (hgr row hr).1.hasFDerivAt).const_mul _
  have hσ : HasFDerivAt σ ((sample.length : ℝ)⁻¹ •
      (sample.zipIdx.map fun row => fderiv ℝ (fun t => lossStopped (η row t) (η row θ) (w row)) θ).sum) θ := by
    simp only [σ, div_eq_inv_mul]
    exact (hasFDerivAt_listSum sample.zipIdx (fun t row => lossStopped (η row t) (η row θ) (w row)) _
      fun row hr => (C146_stopped (η row) (w row) θ (hw row hr).2.1 (hm row hr) (hηd row hr)).hasFDerivAt).const_mul _
  refine ⟨ℓ, fderiv ℝ σ θ, H, η, w, Filter.Eventually.of_forall hval, hℓ.differentiableAt, ?_, ?_, hηd, ?_⟩
  · unfold trainValueAndGrad
    rw [hval θ]
    simp only [hstop]
    rfl
  · intro row hr
    refine ⟨(hw row hr).2.2, (hw row hr).1, ?_⟩
    filter_upwards [(hN row hr).2.2] with t ht
    refine ⟨ht, ⟨_, _, ((hN row hr).1 t).1, ((hN row hr).1 t).2.choose_spec⟩, fun i => ⟨hηp row hr t ht i, ?_⟩⟩
    obtain ⟨y, y1, y2⟩ := rowEtas_eq (row := row.1) (hF row hr).1 (H row t) i
    obtain ⟨η', -, -, -, q, -⟩ := C121_loss (hgood row hr).2.1 hc (hF row hr).1 (hF row hr).2.1 (hF row hr).2.2 hk _ ht
    have hy := (q i).symm.trans y1
    rw [q i]
    congr 1
    show (η' i : ℂ) = ((rowEtas A (F row) row.1 (H row t) i : ℝ) : ℂ)
    rw [y2, ← Except.ok.inj hy, Complex.ofReal_re]
  · intro v
    rw [hσ.fderiv, hℓ.fderiv]
    simp only [smul_apply, smul_eq_mul, sum_apply, List.map_map]
    rw [div_eq_inv_mul, ← mul_add]
    congr 1
    rw [← List.sum_map_add]
    congr 1
    refine List.map_congr_left fun row hr => ?_
    have hP := hηp row hr θ (hN row hr).2.2.self_of_nhds
    rw [C82_variance (η row θ) (w row) (hw row hr).2.1 (hm row hr) hP]
    exact (hgr row hr).2 v

end Training

/-- The hypotheses of C147 are met: the row of three points on the Dwork cubic of `training_instance`, and a network
without dropout of which all last biases are shifted by one real parameter. -/
example : ∃ (A : AlgebraicMetric 2) (row : SampleRow 2) (net : HNet) (final : ℝ → DenseParams) (l : ℝ) (G : ℝ →L[ℝ] ℝ),
    row.pts.length = 3 ∧ (∀ t, (final t).bias 0 = (final 0).bias 0 + t) ∧
    trainValueAndGrad A net (fun _ _ _ => true) (fun _ _ => ⟨fun _ _ => 1, fun _ => 0⟩) final [row] 0 = .ok (l, G) := by
  obtain ⟨A, F, row, net, h1, h2, -, h3, h4, h5, h6, h7, h8, h9, h10, h11⟩ := training_instance
  let f0 := finalInit net.sigSuppress net.basisSize 0 fun _ => 0
  obtain ⟨ℓ, G, -, -, -, -, -, h, -⟩ := C147_gradient (E := ℝ) (θ := 0) (A := A) (net := net) (keep := fun _ _ _ => true)
    (params := fun _ _ => ⟨fun _ _ => 1, fun _ => 0⟩) (final := fun t => ⟨f0.kernel, fun j => f0.bias j + t⟩) h7 h8 h9
    (by rw [h10]; exact differentiable_id)
    (fun _ _ _ => differentiableAt_const _) (fun _ _ => differentiableAt_const _) (fun _ _ => differentiableAt_const _)
    (fun _ => differentiableAt_id.const_add _) (count := 3) (by norm_num) h6 [row] (by simp)
    (fun r hr => by
      obtain rfl := List.mem_singleton.1 hr
      exact ⟨h1, h2, F, h3, h4, h5⟩)
    (fun r hr p hp => by
      obtain rfl : r = (row, 0) := by simpa using hr
      simp only [add_zero] at hp
      exact h11 _ _ p hp)
  exact ⟨A, row, net, _, _, G, h2.count_eq, fun t => by simp, h⟩

end Cyjax
