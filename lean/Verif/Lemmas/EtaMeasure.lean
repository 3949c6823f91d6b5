import Verif.Spec.AccuracyLimit
import Verif.Props.Accuracy
import Mathlib.MeasureTheory.Constructions.BorelSpace.Complex
import Mathlib.Topology.Instances.Matrix
import Mathlib.Topology.Algebra.MvPolynomial

/-! # `eta` as a function on the hypersurface: measurable, invariant, bounded -/

namespace Cyjax

open MeasureTheory Cyjax.Donaldson Cyjax.Spec Cyjax.Projective Cyjax.Variety Cyjax.Differential MvPolynomial
open scoped ComplexOrder Topology ComplexConjugate

theorem measurable_argmax {X : Type*} [MeasurableSpace X] {m : ℕ} {v : Fin (m + 1) → X → ℝ} (hv : ∀ i, Measurable (v i)) :
    Measurable fun x => argmax fun i => v i x := by
  refine measurable_to_countable' fun j => ?_
  have : (fun x => argmax fun i => v i x) ⁻¹' {j} =
      (⋂ i, {x | v i x ≤ v j x}) ∩ ⋂ i, ⋂ (_ : i < j), {x | v i x < v j x} := by
    ext x
    simp only [Set.mem_preimage, Set.mem_singleton_iff, Set.mem_inter_iff, Set.mem_iInter, Set.mem_ofPred_eq]
    obtain ⟨h1, h2⟩ := argmax_spec fun i => v i x
    constructor
    · rintro rfl
      exact ⟨h1, h2⟩
    · rintro ⟨g1, g2⟩
      rcases lt_trichotomy (argmax fun i => v i x) j with h | h | h
      · exact absurd (h1 j) (not_le.2 (g2 _ h))
      · exact h
      · exact absurd (g1 _) (not_le.2 (h2 _ h))
  rw [this]
  refine (MeasurableSet.iInter fun i => measurableSet_le (hv i) (hv j)).inter
    (MeasurableSet.iInter fun i => MeasurableSet.iInter fun _ => measurableSet_lt (hv i) (hv j))

theorem measurable_select {X ι : Type*} [MeasurableSpace X] [MeasurableSpace ι] [Countable ι] [MeasurableSingletonClass ι]
    {g : ι → X → ℝ} (hg : ∀ i, Measurable (g i)) {i : X → ι} (hi : Measurable i) : Measurable fun x => g (i x) x := by
  have h : Measurable fun y : ι × X => g y.1 y.2 := measurable_from_prod_countable_right hg
  exact h.comp (hi.prodMk measurable_id)

section Eta

variable {N n : ℕ} (H : Matrix (Fin N) (Fin N) ℂ) (k : ℕ) (P : Fin N → MvPolynomial (Fin (n + 1)) ℂ)
  (f : MvPolynomial (Fin (n + 1)) ℂ) (d : Fin (n + 1))

/-- `eta` with fixed dependent coordinate, sections and defining function given by polynomials. -/
noncomputable def polyEta (z : Fin (n + 1) → ℂ) : ℂ :=
  Graph.eta (.full H) k (polyJet P z) ⟨fun i => eval z (pderiv i f), ((d : ℕ) : ℤ), fun _ _ _ => 0⟩

theorem measurable_polyEta : Measurable (polyEta H k P f d) := by
  have hev : ∀ q : MvPolynomial (Fin (n + 1)) ℂ, Measurable fun z : Fin (n + 1) → ℂ => eval z q := fun q =>
    (MvPolynomial.continuous_eval q).measurable
  have hc : ∀ g : (Fin (n + 1) → ℂ) → ℂ, Measurable g → Measurable fun z => conj (g z) := fun g hg =>
    Complex.continuous_conj.measurable.comp hg
  have hJ : ∀ r i, Measurable fun z : Fin (n + 1) → ℂ =>
      jacobianEmbed (fun i => eval z (pderiv i f)) ((d : ℕ) : ℤ) r i := by
    intro r i
    rcases eq_or_ne i d with rfl | hi
    · simp only [jacobianEmbed_dep]
      exact (hev _).neg.div (hev _)
    · obtain ⟨l, rfl⟩ := Fin.exists_succAbove_eq hi
      simp only [jacobianEmbed_indep]
      exact measurable_const
  have hψ : Measurable fun z => Graph.psi (.full H) (polyJet P z) := by
    change Measurable fun z : Fin (n + 1) → ℂ => ∑ i, ∑ j, eval z (P i) * H i j * conj (eval z (P j))
    refine Finset.measurable_fun_sum _ fun i _ => Finset.measurable_fun_sum _ fun j _ => ?_
    exact ((hev _).mul_const _).mul (hc _ (hev _))
  have hψH : ∀ a, Measurable fun z => Graph.psiH (.full H) (polyJet P z) a := by
    intro a
    change Measurable fun z : Fin (n + 1) → ℂ => ∑ i, ∑ j, eval z (pderiv a (P i)) * H i j * conj (eval z (P j))
    refine Finset.measurable_fun_sum _ fun i _ => Finset.measurable_fun_sum _ fun j _ => ?_
    exact ((hev _).mul_const _).mul (hc _ (hev _))
  have hψHA : ∀ a b, Measurable fun z => Graph.psiHA (.full H) (polyJet P z) a b := by
    intro a b
    change Measurable fun z : Fin (n + 1) → ℂ => ∑ i, ∑ j, eval z (pderiv a (P i)) * H i j * conj (eval z (pderiv b (P j)))
    refine Finset.measurable_fun_sum _ fun i _ => Finset.measurable_fun_sum _ fun j _ => ?_
    exact ((hev _).mul_const _).mul (hc _ (hev _))
  have hg : ∀ i j, Measurable fun z => Graph.gProj (.full H) (polyJet P z) k i j := by
    intro i j
    exact (((hψHA i j).div hψ).sub (((hψH i).mul (hc _ (hψH j))).div (hψ.pow_const 2))).div_const _
  unfold polyEta Graph.eta Donaldson.eta
  simp only [jget_nat, Matrix.det_apply]
  refine Measurable.mul (Finset.measurable_fun_sum _ fun σ _ => Measurable.const_smul ?_ _) ?_
  · refine Finset.measurable_fun_prod _ fun i _ => ?_
    change Measurable fun z : Fin (n + 1) → ℂ => ∑ a, ∑ b, (jacobianEmbed (fun i => eval z (pderiv i f)) ((d : ℕ) : ℤ) (σ i) a * Graph.gProj (.full H) (polyJet P z) k a b *
      conj (jacobianEmbed (fun i => eval z (pderiv i f)) ((d : ℕ) : ℤ) i b))
    refine Finset.measurable_fun_sum _ fun a _ => Finset.measurable_fun_sum _ fun b _ => ?_
    exact ((hJ _ _).mul (hg _ _)).mul (hc _ (hJ _ _))
  · exact (Complex.measurable_ofReal.comp (hev _).norm).pow_const 2

theorem continuousAt_polyEta {z : Fin (n + 1) → ℂ} (hψ0 : Graph.psi (.full H) (polyJet P z) ≠ 0)
    (hd : eval z (pderiv d f) ≠ 0) : ContinuousAt (polyEta H k P f d) z := by
  have hev : ∀ q : MvPolynomial (Fin (n + 1)) ℂ, ContinuousAt (fun z : Fin (n + 1) → ℂ => eval z q) z := fun q =>
    (MvPolynomial.continuous_eval q).continuousAt
  have hc : ∀ g : (Fin (n + 1) → ℂ) → ℂ, ContinuousAt g z → ContinuousAt (fun z => conj (g z)) z := fun g hg =>
    Complex.continuous_conj.continuousAt.comp hg
  have hJ : ∀ r i, ContinuousAt (fun z : Fin (n + 1) → ℂ =>
      jacobianEmbed (fun i => eval z (pderiv i f)) ((d : ℕ) : ℤ) r i) z := by
    intro r i
    rcases eq_or_ne i d with rfl | hi
    · simp only [jacobianEmbed_dep]
      exact (hev _).neg.div₀ (hev _) hd
    · obtain ⟨l, rfl⟩ := Fin.exists_succAbove_eq hi
      simp only [jacobianEmbed_indep]
      exact continuousAt_const
  have hψ : ContinuousAt (fun z => Graph.psi (.full H) (polyJet P z)) z := by
    change ContinuousAt (fun z : Fin (n + 1) → ℂ => ∑ i, ∑ j, eval z (P i) * H i j * conj (eval z (P j))) z
    refine tendsto_finsetSum _ fun i _ => tendsto_finsetSum _ fun j _ => ?_
    exact ((hev _).mul continuousAt_const).mul (hc _ (hev _))
  have hψH : ∀ a, ContinuousAt (fun z => Graph.psiH (.full H) (polyJet P z) a) z := by
    intro a
    change ContinuousAt (fun z : Fin (n + 1) → ℂ => ∑ i, ∑ j, eval z (pderiv a (P i)) * H i j * conj (eval z (P j))) z
    refine tendsto_finsetSum _ fun i _ => tendsto_finsetSum _ fun j _ => ?_
    exact ((hev _).mul continuousAt_const).mul (hc _ (hev _))
  have hψHA : ∀ a b, ContinuousAt (fun z => Graph.psiHA (.full H) (polyJet P z) a b) z := by
    intro a b
    change ContinuousAt (fun z : Fin (n + 1) → ℂ => ∑ i, ∑ j, eval z (pderiv a (P i)) * H i j * conj (eval z (pderiv b (P j)))) z
    refine tendsto_finsetSum _ fun i _ => tendsto_finsetSum _ fun j _ => ?_
    exact ((hev _).mul continuousAt_const).mul (hc _ (hev _))
  have hg : ∀ i j, ContinuousAt (fun z => Graph.gProj (.full H) (polyJet P z) k i j) z := by
    intro i j
    have h1 := (hψHA i j).div₀ hψ hψ0
    have h2 := ((hψH i).mul (hc _ (hψH j))).div₀ (hψ.pow 2) (pow_ne_zero 2 hψ0)
    exact (h1.sub h2).div_const _
  unfold polyEta Graph.eta Donaldson.eta
  simp only [jget_nat, Matrix.det_apply]
  refine ContinuousAt.mul (tendsto_finsetSum _ fun σ _ => ContinuousAt.const_smul ?_ _) ?_
  · refine tendsto_finsetProd _ fun i _ => ?_
    change ContinuousAt (fun z : Fin (n + 1) → ℂ => ∑ a, ∑ b, (jacobianEmbed (fun i => eval z (pderiv i f)) ((d : ℕ) : ℤ) (σ i) a * Graph.gProj (.full H) (polyJet P z) k a b *
      conj (jacobianEmbed (fun i => eval z (pderiv i f)) ((d : ℕ) : ℤ) i b))) z
    refine tendsto_finsetSum _ fun a _ => tendsto_finsetSum _ fun b _ => ?_
    exact ((hJ _ _).mul (hg _ _)).mul (hc _ (hJ _ _))
  · exact (Complex.continuous_ofReal.continuousAt.comp (hev _).norm).pow 2

end Eta

section Metric

variable {n : ℕ} {A : AlgebraicMetric (n + 1)} {ps : List ℂ} {e : ℕ} {F : MvPolynomial (Fin (n + 2)) ℂ}
  (hF : Hypersurface A.variety (.vec ps) (n + 1) e F) (h : A.H) (hB : SpansModulo F A.sections.degree A.sections.rows)

include hF in
theorem etaAt_smul (c : ℂ) (hc : c ≠ 0) (Z : Fin (n + 2) → ℂ) : etaAt A h ps (c • Z) = etaAt A h ps Z := by
  unfold etaAt
  exact congrArg (fun r => (onOk id r).re) (C103_scale A hF.dim h (.vec ps) none none Z c hc).2.2.1

include hF hB in
theorem etaAt_eq (Z : Fin (n + 2) → ℂ) :
    let p := (homToAffineAuto Z).2
    let z := homToAffine Z (p : ℕ)
    etaAt A h ps Z = (polyEta h A.degree (affineSection A.sections p) (dehom p F)
      (argmax fun k => ‖eval z (pderiv k (dehom p F))‖) z).re := by
  intro p z
  unfold etaAt
  rw [(C103_homogeneous A hF.dim h (.vec ps) none none Z).2.2.1, eta_val hF, sectionsJet_eq _ (spans_le hB)]
  rfl

theorem measurable_homToAffine (p : Fin (n + 2)) : Measurable fun Z : Fin (n + 2) → ℂ => homToAffine Z (p : ℕ) := by
  refine measurable_pi_lambda _ fun k => ?_
  simp only [homToAffine_apply]
  fun_prop

include hF hB in
theorem measurable_etaAt : Measurable (etaAt A h ps) := by
  have hp : Measurable fun Z : Fin (n + 2) → ℂ => (homToAffineAuto Z).2 := measurable_argmax fun i => by fun_prop
  have hE : ∀ p : Fin (n + 2), Measurable fun Z : Fin (n + 2) → ℂ =>
      (polyEta h A.degree (affineSection A.sections p) (dehom p F)
        (argmax fun k => ‖eval (homToAffine Z (p : ℕ)) (pderiv k (dehom p F))‖) (homToAffine Z (p : ℕ))).re := by
    intro p
    have hz := measurable_homToAffine p
    have hd : Measurable fun Z : Fin (n + 2) → ℂ =>
        argmax fun k => ‖eval (homToAffine Z (p : ℕ)) (pderiv k (dehom p F))‖ :=
      measurable_argmax fun k => (((MvPolynomial.continuous_eval _).measurable).comp hz).norm
    exact measurable_select (g := fun d Z => (polyEta h A.degree (affineSection A.sections p) (dehom p F) d
      (homToAffine Z (p : ℕ))).re) (fun d => Complex.measurable_re.comp ((measurable_polyEta _ _ _ _ _).comp hz)) hd
  rw [show etaAt A h ps = _ from funext fun Z => etaAt_eq hF h hB Z]
  exact measurable_select hE hp

variable (hh : h.PosDef) (hsm : SmoothHypersurface F) (hk : A.sections.degree ≠ 0)

include hF hB hh hsm hk in
theorem etaAt_pos (Z : Fin (n + 2) → ℂ) (hZ : Z ≠ 0) (h0 : eval Z F = 0) :
    0 < etaAt A h ps Z ∧ A.eta h (List.ofFn Z) (.vec ps) none none none = .ok (etaAt A h ps Z : ℂ) := by
  obtain ⟨η, w, h1, -, h2, -⟩ := point_values hF h hh hB hk Z hZ h0 (hsm Z hZ h0)
  unfold etaAt
  rw [h2]
  simpa [onOk] using h1

include hF hB hh hsm in
theorem etaAt_bounded : ∃ M : ℝ, ∀ Z : Fin (n + 2) → ℂ, Z ≠ 0 → eval Z F = 0 → |etaAt A h ps Z| ≤ M := by
  have hbd : ∀ p : Fin (n + 2), ∃ M : ℝ, ∀ z : Fin (n + 1) → ℂ, ‖z‖ ≤ 1 → eval z (dehom p F) = 0 →
      ‖polyEta h A.degree (affineSection A.sections p) (dehom p F)
        (argmax fun k => ‖eval z (pderiv k (dehom p F))‖) z‖ ≤ M := by
    intro p
    have hK : IsCompact (Metric.closedBall (0 : Fin (n + 1) → ℂ) 1 ∩ {z | eval z (dehom p F) = 0}) :=
      (isCompact_closedBall _ _).inter_right (isClosed_singleton.preimage (MvPolynomial.continuous_eval _))
    have hcont : ContinuousOn (fun z => polyEta h A.degree (affineSection A.sections p) (dehom p F)
        (argmax fun k => ‖eval z (pderiv k (dehom p F))‖) z)
        (Metric.closedBall (0 : Fin (n + 1) → ℂ) 1 ∩ {z | eval z (dehom p F) = 0}) := by
      rintro z ⟨-, hz⟩
      have h0 : eval (affineToHom z (p : ℕ)) F = 0 := by
        rw [← eval_dehom]
        exact hz
      have hne : affineToHom z (p : ℕ) ≠ 0 := fun h => by simpa using congrFun h p
      have hpz : affineToHom z (p : ℕ) p ≠ 0 := by simp
      obtain ⟨d, hd⟩ := smooth_affine hF.homogeneous _ h0 (hsm _ hne h0) p hpz
      have hψ : Graph.psi (.full h) (polyJet (affineSection A.sections p) z) ≠ 0 := by
        have := psi_pos h hh hB p z h0
        rw [sectionsJet_eq _ (spans_le hB)] at this
        exact this.ne'
      have hd' : eval z (pderiv d (dehom p F)) ≠ 0 := by
        rwa [C15_roundtrip] at hd
      refine ContinuousAt.continuousWithinAt ?_
      refine (continuousAt_polyEta h A.degree _ _ d hψ hd').congr ?_
      have hop : ∀ᶠ y in 𝓝 z, eval y (pderiv d (dehom p F)) ≠ 0 :=
        (MvPolynomial.continuous_eval _).continuousAt.eventually_ne hd'
      filter_upwards [hop] with y hy
      exact C70_dependent (.full h) A.degree _ _ d _ hy (argmax_ne (G := fun k => eval y (pderiv k (dehom p F))) hy) _ _
    obtain ⟨M, hM⟩ := hK.exists_bound_of_continuousOn hcont
    exact ⟨M, fun z hz h0 => hM z ⟨by simpa using hz, h0⟩⟩
  choose M hM using hbd
  refine ⟨∑ p, |M p|, fun Z hZ h0 => ?_⟩
  obtain ⟨-, -, h3⟩ := C17_patch Z
  have hp0 : Z (homToAffineAuto Z).2 ≠ 0 := (C17_bounded Z hZ 0).1
  rw [etaAt_eq hF h hB Z]
  refine ((Complex.abs_re_le_norm _).trans (hM _ _ ?_ ?_)).trans ((le_abs_self _).trans
    (Finset.single_le_sum (f := fun p => |M p|) (fun _ _ => abs_nonneg _) (Finset.mem_univ _)))
  · rw [← h3]
    exact (pi_norm_le_iff_of_nonneg zero_le_one).2 fun i => (C17_bounded Z hZ i).2
  · rw [eval_dehom, C16_roundtrip Z _ hp0, show (fun i => Z i / Z (homToAffineAuto Z).2) =
      fun i => (Z (homToAffineAuto Z).2)⁻¹ * Z i from funext fun i => by ring, eval_smul_homogeneous hF.homogeneous, h0,
      mul_zero]

end Metric

end Cyjax
