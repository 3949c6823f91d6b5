import Verif.Props.Training
import Verif.Props.HNet

/-! # The loss function of the training script (C122) -/

namespace Cyjax

open Cyjax.Donaldson Cyjax.Spec Cyjax.Projective Cyjax.Variety Cyjax.Differential Cyjax.Ml MvPolynomial
open Cyjax.Polynomial (PyErr Val DworkFactor)
open scoped ComplexOrder Matrix

variable {n : ℕ} {A : AlgebraicMetric (n + 1)}

theorem asH_ok {m : ℕ} (hm : m = A.sections.size) (M : Matrix (Fin m) (Fin m) ℂ) :
    ∃ H : A.H, asH A ⟨m, M⟩ = .ok H ∧ (M.PosDef → H.PosDef) ∧ ∀ i j : Fin A.sections.size,
      H i j = M (i.cast hm.symm) (j.cast hm.symm) := by
  subst hm
  refine ⟨M, ?_, id, fun i j => rfl⟩
  unfold asH
  rw [dif_pos rfl]
  rfl

private theorem output_length (sig : Bool) (m : ℕ) (final : DenseParams) (x : List ℝ) : (output sig m final x).length = m ^ 2 := by
  unfold output dense
  cases sig <;> simp
  omega

private theorem row_ok (net : HNet) (drop : ℕ → ℚ → List ℝ → List ℝ) (params : ℕ → DenseParams) (final : DenseParams)
    (psi : List ℂ) (hpow : ∃ q ∈ net.powers, q ≠ 0)
    (hfeat : net.featureAngle ∨ net.featureAbs ∨ net.featureParts) (hpsi : psi ≠ []) :
    ∃ h, net.row drop params final psi = .ok h ∧ h.length = net.basisSize ^ 2 ∧
      ∃ y, h = output net.sigSuppress net.basisSize final y := by
  obtain ⟨E, -, -, hx⟩ := C83_features net.powers net.featureAngle net.featureAbs net.featureParts psi.get hpow
    (List.length_pos_iff.2 hpsi) hfeat
  rw [List.ofFn_get] at hx
  unfold HNet.row
  rw [hx]
  exact ⟨_, rfl, output_length _ _ _ _, _, rfl⟩

theorem zip_rows {α β : Type*} (l : List α) (f : α × ℕ → β) : (l.zipIdx.map f).zip l = l.zipIdx.map fun x => (f x, x.1) := by
  have h := List.zip_map' (f := f) (g := Prod.fst) (l := l.zipIdx)
  rwa [List.zipIdx_map_fst] at h

/-- The network on the moduli of a sample, from the rows. -/
theorem apply_batch {net : HNet} {keep : ℕ → ℕ → ℕ → Bool} {params : ℕ → DenseParams} {final : DenseParams}
    {sample : List (SampleRow (n + 1))} {p : SampleRow (n + 1) × ℕ → List ℝ}
    (h : ∀ x ∈ sample.zipIdx, net.row (dropout false keep x.2) params final x.1.params = .ok (p x)) :
    net.apply false (some keep) params final (.batch (sample.map SampleRow.params)) = .ok (.batch (sample.zipIdx.map p)) := by
  have e1 : (sample.map SampleRow.params).zipIdx.mapM (fun x => net.row (dropout false keep x.2) params final x.1) =
      .ok (sample.zipIdx.map p) := by
    rw [List.zipIdx_map, List.mapM_map]
    exact mapM_ok h
  simp only [HNet.apply, HNet.call, e1]

section Loss

variable (net : HNet) (keep : ℕ → ℕ → ℕ → Bool) (params : ℕ → DenseParams) (final : DenseParams)
  (hsize : net.basisSize = A.sections.size) (hpow : ∃ q ∈ net.powers, q ≠ 0)
  (hfeat : net.featureAngle ∨ net.featureAbs ∨ net.featureParts) {e count : ℕ} (hc : count ≠ 0)
  (hk : A.sections.degree ≠ 0) (sample : List (SampleRow (n + 1)))
  (hgood : ∀ row ∈ sample, row.params ≠ [] ∧ GoodRow A.variety count row ∧ ∃ F : MvPolynomial (Fin (n + 2)) ℂ,
    Hypersurface A.variety (.vec row.params) (n + 1) e F ∧ SmoothHypersurface F ∧
    SpansModulo F A.sections.degree A.sections.rows)

include hsize hpow hfeat hc hk hgood

omit hsize hpow hfeat in
/-- The loss from the matrices, if they are positive definite. -/
theorem loss_rows (H : SampleRow (n + 1) × ℕ → A.H) (hH : ∀ x ∈ sample.zipIdx, (H x).PosDef)
    (hrow : ∀ x ∈ sample.zipIdx, ∃ p M, net.row (dropout false keep x.2) params final x.1.params = .ok p ∧
      choleskyFromParam p = .ok M ∧ asH A M = .ok (H x)) :
    ∃ L : SampleRow (n + 1) × ℕ → ℝ, (∀ x ∈ sample.zipIdx, varianceEtaLossRow A (H x) x.1 = .ok (L x) ∧ 0 ≤ L x) ∧
      lossFunction A net keep params final sample = .ok (listMean (sample.zipIdx.map L)) := by
  have hL : ∀ x : SampleRow (n + 1) × ℕ, ∃ L : ℝ, x ∈ sample.zipIdx →
      varianceEtaLossRow A (H x) x.1 = .ok L ∧ 0 ≤ L := by
    intro x
    by_cases hr : x ∈ sample.zipIdx
    · obtain ⟨-, g1, F, g2, g3, g4⟩ := hgood x.1 (List.fst_mem_of_mem_zipIdx hr)
      obtain ⟨η, w, L, -, -, -, p4, -, p6, -⟩ := C121_loss g1 hc g2 g3 g4 hk (H x) (hH x hr)
      exact ⟨L, fun _ => ⟨p4, p6⟩⟩
    · exact ⟨0, fun h => absurd h hr⟩
  choose L hL using hL
  have hp : ∀ x : SampleRow (n + 1) × ℕ, ∃ p : List ℝ, x ∈ sample.zipIdx → ∃ M,
      net.row (dropout false keep x.2) params final x.1.params = .ok p ∧ choleskyFromParam p = .ok M ∧
      asH A M = .ok (H x) := by
    intro x
    by_cases hr : x ∈ sample.zipIdx
    · obtain ⟨p, M, h⟩ := hrow x hr
      exact ⟨p, fun _ => ⟨M, h⟩⟩
    · exact ⟨[], fun h => absurd h hr⟩
  choose p hp using hp
  refine ⟨L, hL, ?_⟩
  unfold lossFunction
  have e2 := apply_batch (net := net) (keep := keep) (params := params) (final := final)
    fun x hr => (hp x hr).choose_spec.1
  rw [e2]
  simp only [bind, Except.bind]
  have e3 : (sample.zipIdx.map p).mapM (fun h => (choleskyFromParam h).bind fun M => asH A M) = .ok (sample.zipIdx.map H) := by
    rw [List.mapM_map]
    refine mapM_ok fun row hr => ?_
    obtain ⟨M, h1, h2, h3⟩ := hp row hr
    simp only [Function.comp_apply, h2, Except.bind, h3]
  have e4 : ((sample.zipIdx.map H).zip sample).mapM (fun x => varianceEtaLossRow A x.1 x.2) = .ok (sample.zipIdx.map L) := by
    rw [zip_rows, List.mapM_map]
    exact mapM_ok fun row hr => (hL row hr).1
  simp only [Except.bind] at e3
  rw [e3]
  simp only
  rw [e4]
  rfl

/-- **C122.** For a network with the basis size of the metric and a training sample on smooth members, the loss function is
defined as soon as none of the decoded triangular matrices has a zero on its diagonal. It is the mean, over the moduli of the sample, of
the losses of the positive definite matrices that the network gives for them; none of these is negative. A pair `x` is a row
of the sample with its position, which determines the dropout. -/
theorem C122_loss (_hne : sample ≠ []) (hdiag : ∀ x ∈ sample.zipIdx, ∀ h,
      net.row (dropout false keep x.2) params final x.1.params = .ok h → ∀ i < net.basisSize, h.getD i 0 ≠ 0) :
    ∃ (H : SampleRow (n + 1) × ℕ → A.H) (L : SampleRow (n + 1) × ℕ → ℝ),
      (∀ x ∈ sample.zipIdx, (H x).PosDef ∧ (∃ p M, net.row (dropout false keep x.2) params final x.1.params = .ok p ∧
        choleskyFromParam p = .ok M ∧ asH A M = .ok (H x)) ∧
        varianceEtaLossRow A (H x) x.1 = .ok (L x) ∧ 0 ≤ L x) ∧
      lossFunction A net keep params final sample = .ok (listMean (sample.zipIdx.map L)) := by
  have hH : ∀ x : SampleRow (n + 1) × ℕ, ∃ H : A.H, x ∈ sample.zipIdx → H.PosDef ∧ ∃ p M,
      net.row (dropout false keep x.2) params final x.1.params = .ok p ∧ choleskyFromParam p = .ok M ∧ asH A M = .ok H := by
    intro row
    by_cases hr : row ∈ sample.zipIdx
    · obtain ⟨h, h1, h2, -⟩ := row_ok net (dropout false keep row.2) params final row.1.params hpow hfeat
        (hgood row.1 (List.fst_mem_of_mem_zipIdx hr)).1
      obtain ⟨M, m1, m2, -, -, m5⟩ := C78_blocks h h2
      obtain ⟨H, a1, a2, -⟩ := asH_ok hsize (M * Mᴴ)
      refine ⟨H, fun _ => ⟨a2 ?_, h, _, h1, m5, a1⟩⟩
      rw [posDef_mul_iff, det_upper (d := fun i => h.getD i 0) ⟨m1, m2⟩, Finset.prod_ne_zero_iff]
      intro i _
      exact Complex.ofReal_ne_zero.2 (hdiag row hr h h1 i i.2)
    · exact ⟨1, fun h => absurd h hr⟩
  choose H hH using hH
  obtain ⟨L, l1, l2⟩ := loss_rows net keep params final hc hk sample hgood H (fun row hr => (hH row hr).1)
    fun row hr => (hH row hr).2
  exact ⟨H, L, fun row hr => ⟨(hH row hr).1, (hH row hr).2, l1 row hr⟩, l2⟩

/-- **C122.** The loss function is not negative, and zero exactly if the loss of every set of moduli is. Pairs as in `C122_loss`. -/
theorem C122_nonneg (hne : sample ≠ []) (hdiag : ∀ x ∈ sample.zipIdx, ∀ h,
      net.row (dropout false keep x.2) params final x.1.params = .ok h → ∀ i < net.basisSize, h.getD i 0 ≠ 0) :
    ∃ l, lossFunction A net keep params final sample = .ok l ∧ 0 ≤ l ∧
      (l = 0 ↔ ∀ x ∈ sample.zipIdx, ∀ p M H, net.row (dropout false keep x.2) params final x.1.params = .ok p →
        choleskyFromParam p = .ok M → asH A M = .ok H → varianceEtaLossRow A H x.1 = .ok 0) := by
  obtain ⟨H, L, h1, h2⟩ := C122_loss net keep params final hsize hpow hfeat hc hk sample hgood hne hdiag
  have hlen : (0 : ℝ) < (sample.zipIdx.map L).length := by
    rw [List.length_map, List.length_zipIdx]
    exact_mod_cast List.length_pos_iff.2 hne
  have h0 : ∀ x ∈ sample.zipIdx.map L, 0 ≤ x := by
    intro x hx
    obtain ⟨row, hr, rfl⟩ := List.mem_map.1 hx
    exact (h1 row hr).2.2.2
  refine ⟨_, h2, div_nonneg (List.sum_nonneg h0) hlen.le, ?_⟩
  unfold listMean
  rw [div_eq_zero_iff, or_iff_left hlen.ne']
  have hzero : (sample.zipIdx.map L).sum = 0 ↔ ∀ row ∈ sample.zipIdx, L row = 0 := by
    constructor
    · intro h row hr
      refine le_antisymm ?_ ((h1 row hr).2.2.2)
      rw [← h]
      exact List.single_le_sum h0 _ (List.mem_map_of_mem hr)
    · intro h
      refine List.sum_eq_zero fun x hx => ?_
      obtain ⟨row, hr, rfl⟩ := List.mem_map.1 hx
      exact h row hr
  rw [hzero]
  constructor
  · intro h row hr p M H' p1 p2 p3
    obtain ⟨-, ⟨q, N, q1, q2, q3⟩, l1, -⟩ := h1 row hr
    obtain rfl : p = q := Except.ok.inj (p1.symm.trans q1)
    obtain rfl : M = N := Except.ok.inj (p2.symm.trans q2)
    obtain rfl : H' = H row := Except.ok.inj (p3.symm.trans q3)
    rw [l1, h row hr]
  · intro h row hr
    obtain ⟨-, ⟨q, N, q1, q2, q3⟩, l1, -⟩ := h1 row hr
    exact Except.ok.inj (l1.symm.trans (h row hr q N _ q1 q2 q3))

omit final in
/-- **C122, start of the training.** With initial parameters and fluctuation zero, the loss is the mean of the losses of the
identity matrix, with or without suppression, for any hidden layers and dropout. -/
theorem C122_init (_hne : sample ≠ []) (noise : ℕ → ℝ) :
    ∃ L : SampleRow (n + 1) → ℝ, (∀ row ∈ sample, varianceEtaLossRow A (1 : A.H) row = .ok (L row)) ∧
      lossFunction A net keep params (finalInit net.sigSuppress net.basisSize 0 noise) sample =
        .ok (listMean (sample.map L)) := by
  suffices h : ∃ L : SampleRow (n + 1) × ℕ → ℝ, (∀ x ∈ sample.zipIdx, varianceEtaLossRow A (1 : A.H) x.1 = .ok (L x)) ∧
      lossFunction A net keep params (finalInit net.sigSuppress net.basisSize 0 noise) sample =
        .ok (listMean (sample.zipIdx.map L)) by
    obtain ⟨L, l1, l2⟩ := h
    obtain ⟨L', hL'⟩ : ∃ L' : SampleRow (n + 1) → ℝ, ∀ x ∈ sample.zipIdx, L x = L' x.1 :=
      ⟨fun row => match varianceEtaLossRow A (1 : A.H) row with | .ok l => l | .error _ => 0, fun x hx => by
        simp only [l1 x hx]⟩
    refine ⟨L', fun row hr => ?_, ?_⟩
    · obtain ⟨i, hi⟩ := List.getElem?_of_mem hr
      have hx : (row, i) ∈ sample.zipIdx := List.mk_mem_zipIdx_iff_getElem?.2 hi
      exact (l1 _ hx).trans (congrArg Except.ok (hL' _ hx))
    · have hm := List.map_map (g := L') (f := Prod.fst) (l := sample.zipIdx)
      rw [List.zipIdx_map_fst] at hm
      rw [l2, List.map_congr_left hL', hm]
      rfl
  set final := finalInit net.sigSuppress net.basisSize 0 noise with hfin
  have hcall : ∀ x ∈ sample.zipIdx, ∃ p, net.row (dropout false keep x.2) params final x.1.params = .ok p ∧
      net.call (fun _ => dropout false keep x.2) params final (.single x.1.params) = .ok (.single p) := by
    intro x hr
    obtain ⟨h, h1, -⟩ := row_ok net (dropout false keep x.2) params final x.1.params hpow hfeat
      (hgood x.1 (List.fst_mem_of_mem_zipIdx hr)).1
    exact ⟨h, h1, by simp only [HNet.call, h1]⟩
  cases hs : net.sigSuppress with
  | false =>
    obtain ⟨L, l1, l2⟩ := loss_rows net keep params final hc hk sample hgood (fun _ => 1)
      (fun _ _ => Matrix.PosDef.one) (fun row hr => by
        obtain ⟨p, p1, p2⟩ := hcall row hr
        have := (C84_identity_partial net _ params 0 noise _ _ hs p2 p (by simp [outRows])).2 rfl
        obtain ⟨H, a1, -, a3⟩ := asH_ok (A := A) hsize 1
        refine ⟨p, _, p1, this, a1.trans ?_⟩
        congr 1
        ext i j
        rw [a3, Matrix.one_apply, Matrix.one_apply]
        simp)
    exact ⟨L, fun row hr => (l1 row hr).1, l2⟩
  | true =>
    have hq : (0 : ℝ) < 1 / 4 := by norm_num
    obtain ⟨L, l1, l2⟩ := loss_rows net keep params final hc hk sample hgood
      (fun _ => (((1 / 4 : ℝ)) : ℂ) • (1 : A.H))
      (fun _ _ => Matrix.PosDef.one.smul (by exact_mod_cast hq)) (fun row hr => by
        obtain ⟨p, p1, p2⟩ := hcall row hr
        have := (C84_suppressed net _ params 0 noise _ _ hs p2 p (by simp [outRows])).2 rfl
        obtain ⟨H, a1, -, a3⟩ := asH_ok (A := A) hsize ((1 / 4 : ℂ) • 1)
        refine ⟨p, _, p1, this, a1.trans ?_⟩
        congr 1
        ext i j
        rw [a3, Matrix.smul_apply, Matrix.smul_apply, Matrix.one_apply, Matrix.one_apply]
        simp)
    refine ⟨L, fun row hr => ?_, l2⟩
    obtain ⟨-, g1, F, g2, g3, g4⟩ := hgood row.1 (List.fst_mem_of_mem_zipIdx hr)
    rw [← C121_scale g1 g2 g4 (1 : A.H) Matrix.PosDef.one (1 / 4) hq]
    exact (l1 row hr).1

end Loss

/-- The hypotheses of C121 and C122 together: the Dwork cubic at `psi = 0`, linear sections, a line that gives a row of three
points, and a network whose parameters decode to the identity. -/
theorem training_instance : ∃ (A : AlgebraicMetric 2) (F : MvPolynomial (Fin 3) ℂ) (row : SampleRow 2) (net : HNet),
    row.params ≠ [] ∧ GoodRow A.variety 3 row ∧ Samplable A.variety 2 3 row.params ∧
    Hypersurface A.variety (.vec row.params) 2 3 F ∧ SmoothHypersurface F ∧ SpansModulo F A.sections.degree A.sections.rows ∧
    A.sections.degree ≠ 0 ∧ net.basisSize = A.sections.size ∧ (∃ q ∈ net.powers, q ≠ 0) ∧
    (net.featureAngle ∨ net.featureAbs ∨ net.featureParts) ∧ net.activation = id ∧
    ∀ drop params h, net.row drop params (finalInit net.sigSuppress net.basisSize 0 fun _ => 0) row.params = .ok h →
      ∀ i < net.basisSize, h.getD i 0 ≠ 0 := by
  have hyp := hypersurface_dwork_explicit 2 (.flag true) 0 []
  have hsm := (smooth_dwork (m := 2) ((DworkFactor.flag true).value * 0)).2 (by norm_num)
  have hS : Samplable (.dwork 3 (.flag true)) 2 3 [0] := .dwork 2 (.flag true) (by simp [DworkFactor.value]) 0
  obtain ⟨Zs, -, -, -, hrow⟩ := sampleRow_ok hS hyp hsm someOrder_valid someRoots_exact
    (fun _ : Unit => [(![1, 0, 0], ![0, 1, 1])]) 3 () (by
      intro x hx
      obtain rfl := List.mem_singleton.1 hx
      refine ⟨?_, ?_⟩
      · rw [LinearIndependent.pair_iff]
        intro s t h
        have h0 := congrFun h 0
        have h1 := congrFun h 1
        simp at h0 h1
        exact ⟨h0, h1⟩
      · simp [Fin.sum_univ_three, Fin.prod_univ_three])
  let A : AlgebraicMetric 2 := ⟨.dwork 3 (.flag true), monomialBasisFull 2 1⟩
  refine ⟨A, _, _, { exampleNet false with basisSize := A.sections.size }, ?_, hrow, hS, hyp, hsm, (C105_sections _ 1).1,
    one_ne_zero, rfl, ⟨1, by simp [exampleNet], one_ne_zero⟩, Or.inl rfl, rfl, ?_⟩
  · simp
  · intro drop params h hh i hi
    simp only [HNet.row] at hh
    split at hh
    · cases hh
    · obtain rfl := Except.ok.inj hh
      rw [final_dense]
      simp only [exampleNet, Bool.false_eq_true, if_false]
      unfold hermitianParamInit
      rw [List.getD_eq_getElem?_getD, List.getElem?_append_left (by simpa using hi)]
      simp [hi]

end Cyjax
