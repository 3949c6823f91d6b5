import Verif.Lemmas.StepGradient
import Verif.Props.GradientLimit
import Verif.Props.LossTraining
import Verif.Lemmas.AllCounts

/-! # C193: the gradient of a training step approaches the gradient of its loss -/

namespace Cyjax

open MeasureTheory ProbabilityTheory MvPolynomial Cyjax.Spec Cyjax.Polynomial Cyjax.Variety Cyjax.Donaldson Cyjax.Projective Cyjax.Ml Set
  Filter Topology
open scoped ENNReal ComplexOrder

universe u

section Main

variable {n : ℕ} {A : AlgebraicMetric (n + 1)} {o : SymOrder} (ho : o.Valid) {roots : List ℂ → List ℂ} (hr : CompleteRoots roots)
  (hn : n ≠ 0) (p : Fin (n + 2)) (d : Fin (n + 1)) (hk : A.sections.degree ≠ 0)
  {N : ℕ} (hN : N ≠ 0) (mods : Fin N → List ℂ) (hmods : ∀ i, mods i ≠ []) (F : Fin N → MvPolynomial (Fin (n + 2)) ℂ)
  (hsm : ∀ i, SmoothHypersurface (F i)) (hS : ∀ i, Samplable A.variety (n + 1) (n + 2) (mods i))
  (hF : ∀ i, Hypersurface A.variety (.vec (mods i)) (n + 1) (n + 2) (F i))
  (hB : ∀ i, SpansModulo (F i) A.sections.degree A.sections.rows)
  {E : Type*} [NormedAddCommGroup E] [NormedSpace ℝ E] {θ : E}
  {net : HNet} {keep : ℕ → ℕ → ℕ → Bool} {params : E → ℕ → DenseParams} {final : E → DenseParams}
  (hsize : net.basisSize = A.sections.size) (hpow : ∃ q ∈ net.powers, q ≠ 0)
  (hfeat : net.featureAngle ∨ net.featureAbs ∨ net.featureParts) (hact : ContDiff ℝ 1 net.activation)
  (hpk : ∀ l i j, ContDiffAt ℝ 1 (fun t => (params t l).kernel i j) θ)
  (hpb : ∀ l j, ContDiffAt ℝ 1 (fun t => (params t l).bias j) θ)
  (hfk : ∀ i j, ContDiffAt ℝ 1 (fun t => (final t).kernel i j) θ)
  (hfb : ∀ j, ContDiffAt ℝ 1 (fun t => (final t).bias j) θ)
  (hdiag : ∀ (i : Fin N) (h : List ℝ), net.row (dropout false keep i) (params θ) (final θ) (mods i) = .ok h →
    ∀ j < net.basisSize, h.getD j 0 ≠ 0)
  {Key : Type} (split : Key → Key × Key) (splitN : Key → ℕ → List Key) (paramsSampler : Key → ℕ → List (List ℂ)) (key : Key)
  (keys : Fin N → Key) (hkeys : splitN (split key).2 N = List.ofFn keys) (hps : paramsSampler (split key).1 N = List.ofFn mods)

/-- One of the terms of a mean is as large as the mean. -/
private theorem mean_large (hN : N ≠ 0) (a : Fin N → ℝ) {ε : ℝ} (h : ε ≤ |(∑ i, a i) / N|) : ∃ i, ε ≤ |a i| := by
  by_contra hcon
  push Not at hcon
  have hN' : (0 : ℝ) < N := by exact_mod_cast Nat.pos_of_ne_zero hN
  have : Nonempty (Fin N) := ⟨⟨0, Nat.pos_of_ne_zero hN⟩⟩
  rw [abs_div, abs_of_pos hN', le_div_iff₀ hN'] at h
  have h1 : |∑ i, a i| < ∑ _ : Fin N, ε :=
    (Finset.abs_sum_le_sum_abs _ _).trans_lt (Finset.sum_lt_sum_of_nonempty Finset.univ_nonempty fun i _ => hcon i)
  rw [Finset.sum_const, Finset.card_univ, Fintype.card_fin, nsmul_eq_mul] at h1
  linarith

include ho hr hn hk hN hmods hsm hS hF hB hsize hpow hfeat hact hpk hpb hfk hfb hdiag hkeys hps

/-- **C193.** Let the parameters of the network be continuously differentiable functions of a vector, with a continuously differentiable
activation function, at parameters `θ` for which the decoded triangular matrices have no zero on the diagonal. Let `H i` be the matrix
from the network for the set `i` of moduli of a training step. With probability one, the sample exists, the loss `ℓ` on the
sample is defined and differentiable, and the step computes a gradient `G`. In any direction `v`, the probability that
`G` differs from the derivative of `ℓ` by at least `ε`, and the probability that it differs from the derivative of the mean over the
moduli of the limits of the loss, are at most `C / (count ε²)`. -/
theorem C193_gradient (v : E) : ∃ (H : Fin N → E → A.H) (C : ℝ),
    (∀ (i : Fin N) t, ∃ q M, net.row (dropout false keep i) (params t) (final t) (mods i) = .ok q ∧ choleskyFromParam q = .ok M ∧
      asH A M = .ok (H i t)) ∧
    LineDifferentiableAt ℝ (fun t => (∑ i, limitLoss p d (F i) A (mods i) (H i t)) / N) θ v ∧
    ∀ {Ω : Type u} [MeasurableSpace Ω] {P : Measure Ω} (count : ℕ), count ≠ 0 →
      ∀ X : Key → Ω → Fin 2 → Fin (sampleCount count (n + 2)) → Fin (2 * (n + 2)) → ℝ,
      (∀ i, HasLaw (X (keys i)) (normalsLaw (n + 2) (sampleCount count (n + 2))) P) →
      (∀ᵐ ω ∂P, ∃ sample ℓ G, sampleBatch n A.variety o roots split splitN paramsSampler (fun k => asLists (lineDraws (X k ω))) N count key =
          .ok sample ∧ (∀ t, lossFunction A net keep (params t) (final t) sample = .ok (ℓ t)) ∧ DifferentiableAt ℝ ℓ θ ∧
          trainValueAndGrad A net keep params final sample θ = .ok (ℓ θ, G)) ∧
      ∀ ε > 0,
        P {ω | ∃ sample ℓ G, sampleBatch n A.variety o roots split splitN paramsSampler (fun k => asLists (lineDraws (X k ω))) N count key =
            .ok sample ∧ (∀ t, lossFunction A net keep (params t) (final t) sample = .ok (ℓ t)) ∧
            trainValueAndGrad A net keep params final sample θ = .ok (ℓ θ, G) ∧ ε ≤ |G v - fderiv ℝ ℓ θ v|} ≤
          ENNReal.ofReal (C / (count * ε ^ 2)) ∧
        P {ω | ∃ sample l G, sampleBatch n A.variety o roots split splitN paramsSampler (fun k => asLists (lineDraws (X k ω))) N count key =
            .ok sample ∧ trainValueAndGrad A net keep params final sample θ = .ok (l, G) ∧
            ε ≤ |G v - lineDeriv ℝ (fun t => (∑ i, limitLoss p d (F i) A (mods i) (H i t)) / N) θ v|} ≤
          ENNReal.ofReal (C / (count * ε ^ 2)) := by
  have hmat := fun i : Fin N => network_matrix_smooth (A := A) hsize hpow hfeat hact (isMask_dropout false keep i) hpk hpb hfk hfb (mods i)
    (hmods i) (hdiag i)
  choose q H h1 h2 h3 using hmat
  have hnet : ∀ i t, ∃ q M, net.row (dropout false keep (i : Fin N)) (params t) (final t) (mods i) = .ok q ∧
      choleskyFromParam q = .ok M ∧ asH A M = .ok (H i t) := fun i t =>
    ⟨_, _, (h1 i t).1, (h1 i t).2.choose_spec⟩
  -- the curves of matrices along the line
  have hline : ContDiff ℝ 1 (fun t : ℝ => θ + t • v) := contDiff_const.add (contDiff_id.smul contDiff_const)
  have h0 : θ + (0 : ℝ) • v = θ := by simp
  have hcd : ∀ i a b, ContDiffAt ℝ 1 (fun t : ℝ => H i (θ + t • v) a b) 0 := fun i a b =>
    ContDiffAt.comp (g := fun t => H i t a b) (f := fun t : ℝ => θ + t • v) 0 (by rw [h0]; exact h2 i a b) hline.contDiffAt
  have hcp : ∀ i, ∀ᶠ t in 𝓝 (0 : ℝ), (H i (θ + t • v)).PosDef := fun i => by
    have : Tendsto (fun t : ℝ => θ + t • v) (𝓝 0) (𝓝 θ) := by
      have := hline.continuous.tendsto (0 : ℝ)
      rwa [h0] at this
    exact this.eventually (h3 i)
  choose C₁ hC₁ using fun i => C192_gradient ho hr (hsm i) hn (hS i) (hF i) (hB i) hk (hcd i) (hcp i)
  have hlim := fun i => C192_limit ho hr (hsm i) hn p d (hS i) (hF i) (hB i) hk (hcd i) (hcp i)
  choose C₂ hC₂ using fun i => (hlim i).2
  have hΛ : HasDerivAt (fun t : ℝ => (∑ i, limitLoss p d (F i) A (mods i) (H i (θ + t • v))) / N)
      ((∑ i, deriv (fun t : ℝ => limitLoss p d (F i) A (mods i) (H i (θ + t • v))) 0) / N) 0 :=
    (HasDerivAt.fun_sum fun i _ => (hlim i).1.hasDerivAt).div_const (N : ℝ)
  refine ⟨H, ∑ i, (max (C₁ i) 0 + max (C₂ i) 0), hnet, hΛ.differentiableAt, fun {Ω} _ P count hc X hX => ?_⟩
  have hL : count ≤ sampleCount count (n + 2) * (n + 2) := (sampleCount_near n hc).2.1
  have hstep : ∀ᵐ ω ∂P, ∃ sample ℓ G, sampleBatch n A.variety o roots split splitN paramsSampler (fun k => asLists (lineDraws (X k ω))) N
        count key = .ok sample ∧ (∀ t, lossFunction A net keep (params t) (final t) sample = .ok (ℓ t)) ∧ DifferentiableAt ℝ ℓ θ ∧
        trainValueAndGrad A net keep params final sample θ = .ok (ℓ θ, G) ∧
        G v = (∑ i, trainingSlope A o roots (mods i) count (X (keys i) ω) fun t => H i (θ + t • v)) / N ∧
        fderiv ℝ ℓ θ v = (∑ i, lossSlope A o roots (mods i) count (X (keys i) ω) fun t => H i (θ + t • v)) / N := by
    have hadm : ∀ᵐ ω ∂P, ∀ i, ∀ y ∈ lineDraws (X (keys i) ω), Admissible (F i) y := by
      rw [ae_all_iff]
      intro i
      have had := ae_admissible (count := sampleCount count (n + 2)) (F i) (smooth_ne_zero (hsm i)) (hF i).homogeneous
      rw [← (hX i).map_eq] at had
      filter_upwards [ae_of_ae_map (hX i).aemeasurable had] with ω hω
      exact hω.2
    filter_upwards [hadm] with ω hω
    have hrows : ∀ i, ∃ row : SampleRow (n + 1), sampleRow n A.variety o roots (fun k => asLists (lineDraws (X k ω))) count (keys i) (mods i) =
        .ok row ∧ row.params = mods i ∧ GoodRow A.variety count row := by
      intro i
      obtain ⟨Zs, -, -, a1, a2⟩ := sampleRow_ok (hS i) (hF i) (hsm i) ho hr.exact (fun k => lineDraws (X k ω)) count (keys i) (hω i)
      have hl : (lineDraws (X (keys i) ω)).length = sampleCount count (n + 2) := by rw [lineDraws, List.length_ofFn]
      rw [hl, min_eq_left hL] at a2
      exact ⟨_, a1, rfl, a2⟩
    choose row r1 r2 r3 using hrows
    have hbatch : sampleBatch n A.variety o roots split splitN paramsSampler (fun k => asLists (lineDraws (X k ω))) N count key =
        .ok (List.ofFn row) := by
      unfold sampleBatch
      simp only
      rw [hkeys, hps, if_pos (by rw [List.length_ofFn, List.length_ofFn])]
      have hz : (List.ofFn keys).zip (List.ofFn mods) = List.ofFn fun i => (keys i, mods i) := by
        rw [List.ofFn_eq_map, List.ofFn_eq_map, List.zip_map', ← List.ofFn_eq_map]
      rw [hz]
      exact mapM_ofFn fun i => r1 i
    obtain ⟨ℓ, G, g1, g2, g3, g4⟩ := step_gradients (θ := θ) (net := net) (keep := keep) (params := params) (final := final) (H := H) (F := F) r3
      (fun i => by rw [r2 i]; exact hF i) (fun i t => by rw [r2 i]; exact hnet i t) hc hsm hB hk
      (fun i a b => (h2 i a b).differentiableAt one_ne_zero) fun i => (h3 i).self_of_nhds
    have hr' : ∀ i, sampleRow n A.variety o roots (fun _ : Unit => asLists (lineDraws (X (keys i) ω))) count () (mods i) = .ok (row i) :=
      fun i => r1 i
    refine ⟨_, ℓ, G, hbatch, g1, g3, g2, ?_, ?_⟩
    · rw [(g4 v).1]
      congr 1
      refine Finset.sum_congr rfl fun i _ => ?_
      unfold trainingSlope sampledStopped
      simp only [hr', h0]
      rfl
    · rw [(g4 v).2]
      congr 1
      refine Finset.sum_congr rfl fun i _ => ?_
      unfold lossSlope sampledLoss
      simp only [hr']
      rfl
  refine ⟨?_, fun ε hε => ?_⟩
  · filter_upwards [hstep] with ω hω
    obtain ⟨sample, ℓ, G, a1, a2, a3, a4, -⟩ := hω
    exact ⟨sample, ℓ, G, a1, a2, a3, a4⟩
  have hct : (0 : ℝ) < count := by exact_mod_cast Nat.pos_of_ne_zero hc
  have bound : ∀ (S : Set Ω) (B : (i : Fin N) → Set (Fin 2 → Fin (sampleCount count (n + 2)) → Fin (2 * (n + 2)) → ℝ)) (C : Fin N → ℝ),
      (∀ i, C i ≤ max (C₁ i) 0 + max (C₂ i) 0) →
      (∀ i, normalsLaw (n + 2) (sampleCount count (n + 2)) (B i) ≤ ENNReal.ofReal (C i / (count * ε ^ 2))) →
      (∀ᵐ ω ∂P, ω ∈ S → ∃ i, X (keys i) ω ∈ B i) →
      P S ≤ ENNReal.ofReal ((∑ i, (max (C₁ i) 0 + max (C₂ i) 0)) / (count * ε ^ 2)) := by
    intro S B C hC hB' hcov
    have h1 : P S ≤ P (⋃ i, X (keys i) ⁻¹' B i) := by
      refine measure_mono_ae ?_
      filter_upwards [hcov] with ω hω hS
      exact mem_iUnion.2 (hω hS)
    rw [Finset.sum_div, ENNReal.ofReal_sum_of_nonneg fun i _ => by positivity]
    refine h1.trans ((measure_iUnion_fintype_le _ _).trans (Finset.sum_le_sum fun i _ => ?_))
    refine (Measure.le_map_apply (hX i).aemeasurable _).trans ?_
    rw [(hX i).map_eq]
    refine (hB' i).trans (ENNReal.ofReal_le_ofReal ?_)
    exact div_le_div_of_nonneg_right (hC i) (by positivity)
  constructor
  · refine bound _ _ C₁ (fun i => (le_max_left _ _).trans (le_add_of_nonneg_right (le_max_right _ _)))
      (fun i => (hC₁ i count hc).2 ε hε) ?_
    filter_upwards [hstep] with ω hω hbad
    obtain ⟨sample, ℓ, G, a1, a2, a3, a4, a5, a6⟩ := hω
    obtain ⟨sample', ℓ', G', b1, b2, b3, b4⟩ := hbad
    obtain rfl := Except.ok.inj (a1.symm.trans b1)
    obtain rfl : ℓ = ℓ' := funext fun t => Except.ok.inj ((a2 t).symm.trans (b2 t))
    obtain rfl : G = G' := (Prod.mk.inj (Except.ok.inj (a4.symm.trans b3))).2
    rw [a5, a6, ← sub_div, ← Finset.sum_sub_distrib] at b4
    exact mean_large hN _ b4
  · refine bound _ _ C₂ (fun i => (le_max_left _ _).trans (le_add_of_nonneg_left (le_max_right _ _)))
      (fun i => (hC₂ i count hc ε hε).1) ?_
    filter_upwards [hstep] with ω hω hbad
    obtain ⟨sample, ℓ, G, a1, a2, a3, a4, a5, a6⟩ := hω
    obtain ⟨sample', l, G', b1, b3, b4⟩ := hbad
    obtain rfl := Except.ok.inj (a1.symm.trans b1)
    obtain rfl : G = G' := (Prod.mk.inj (Except.ok.inj (a4.symm.trans b3))).2
    have hld : lineDeriv ℝ (fun t => (∑ i, limitLoss p d (F i) A (mods i) (H i t)) / N) θ v =
      (∑ i, deriv (fun t : ℝ => limitLoss p d (F i) A (mods i) (H i (θ + t • v))) 0) / N := hΛ.deriv
    rw [a5, hld, ← sub_div, ← Finset.sum_sub_distrib] at b4
    exact mean_large hN _ b4

end Main

/-- The hypotheses of C193 hold for the Dwork cubic and a network of which all last biases are shifted by one real parameter, with two
sets of moduli and two keys. -/
example : ∃ (A : AlgebraicMetric 2) (ps : List ℂ) (net : HNet) (final : ℝ → DenseParams) (C : ℝ),
    (∀ t, (final t).bias 0 = (final 0).bias 0 + t) ∧ ∀ count : ℕ, count ≠ 0 → ∀ ε > 0,
    (Measure.pi fun _ : Fin 2 => normalsLaw 3 (sampleCount count 3))
      {x | ∃ sample ℓ G, sampleBatch 1 A.variety someOrder someRoots (fun k : Fin 2 => (k, k)) (fun _ _ => [0, 1])
          (fun _ _ => [ps, ps]) (fun k => asLists (lineDraws (x k))) 2 count 0 = .ok sample ∧
        (∀ t, lossFunction A net (fun _ _ _ => true) (fun _ => ⟨fun _ _ => 1, fun _ => 0⟩) (final t) sample = .ok (ℓ t)) ∧
        trainValueAndGrad A net (fun _ _ _ => true) (fun _ _ => ⟨fun _ _ => 1, fun _ => 0⟩) final sample 0 = .ok (ℓ 0, G) ∧
        ε ≤ |G 1 - fderiv ℝ ℓ 0 1|} ≤ ENNReal.ofReal (C / (count * ε ^ 2)) := by
  obtain ⟨A, F, row, net, h1, h2, h3, h4, h5, h6, h7, h8, h9, h10, h11, h12⟩ := training_instance
  let f0 := finalInit net.sigSuppress net.basisSize 0 fun _ => 0
  obtain ⟨_, C, -, -, hC⟩ := C193_gradient.{0} (n := 1) (A := A) someOrder_valid someRoots_complete one_ne_zero 0 0 h7 (N := 2) two_ne_zero
    (fun _ => row.params) (fun _ => h1) (fun _ => F) (fun _ => h5) (fun _ => h3) (fun _ => h4) (fun _ => h6)
    (E := ℝ) (θ := 0) (net := net) (keep := fun _ _ _ => true)
    (params := fun _ _ => ⟨fun _ _ => 1, fun _ => 0⟩) (final := fun t => ⟨f0.kernel, fun j => f0.bias j + t⟩) h8 h9 h10
    (by rw [h11]; exact contDiff_id)
    (fun _ _ _ => contDiffAt_const) (fun _ _ => contDiffAt_const) (fun _ _ => contDiffAt_const)
    (fun _ => contDiffAt_const.add contDiffAt_id)
    (fun i q hq => by
      simp only [add_zero] at hq
      exact h12 _ _ q hq)
    (fun k : Fin 2 => (k, k)) (fun _ _ => [0, 1]) (fun _ _ => [row.params, row.params]) 0 (fun i => i) (by simp) (by simp) 1
  refine ⟨A, row.params, net, fun t => ⟨f0.kernel, fun j => f0.bias j + t⟩, C, fun t => by simp, fun count hc ε hε => ((hC (P := Measure.pi fun _ : Fin 2 =>
    normalsLaw 3 (sampleCount count 3)) count hc (fun k x => x k) fun i => ?_).2 ε hε).1⟩
  exact (measurePreserving_eval (fun _ : Fin 2 => normalsLaw 3 (sampleCount count 3)) i).hasLaw

end Cyjax
