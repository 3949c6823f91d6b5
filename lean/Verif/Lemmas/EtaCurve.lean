import Verif.Lemmas.LocalCoordinates
import Verif.Lemmas.TrainDiff
import Verif.Lemmas.UniformLoss

/-! # `eta` along a curve of matrices -/

namespace Cyjax

open MeasureTheory ProbabilityTheory MvPolynomial Cyjax.Spec Cyjax.Polynomial Cyjax.Variety Cyjax.Donaldson Cyjax.Projective Cyjax.Ml Set
  Filter Topology Cyjax.Differential
open scoped ENNReal NNReal ComplexOrder ComplexConjugate

section Joint

variable {N n : ℕ} (k : ℕ) (P : Fin N → MvPolynomial (Fin (n + 1)) ℂ) (f : MvPolynomial (Fin (n + 1)) ℂ) (d : Fin (n + 1))
  {h : ℝ → Matrix (Fin N) (Fin N) ℂ} (hh : ∀ a b, ContDiffAt ℝ 1 (fun t => h t a b) 0)

include hh in
theorem contDiffAt_polyEta_curve {z : Fin (n + 1) → ℂ} (hψ0 : Graph.psi (.full (h 0)) (polyJet P z) ≠ 0)
    (hd : eval z (pderiv d f) ≠ 0) :
    ContDiffAt ℝ 1 (fun y : ℝ × (Fin (n + 1) → ℂ) => polyEta (h y.1) k P f d y.2) (0, z) := by
  have hev : ∀ q : MvPolynomial (Fin (n + 1)) ℂ,
      ContDiffAt ℝ 1 (fun y : ℝ × (Fin (n + 1) → ℂ) => eval y.2 q) (0, z) := fun q =>
    ((eval_contDiffR q 1).comp contDiff_snd).contDiffAt
  have hH : ∀ i j, ContDiffAt ℝ 1 (fun y : ℝ × (Fin (n + 1) → ℂ) => h y.1 i j) (0, z) := fun i j =>
    ContDiffAt.comp (g := fun t => h t i j) (f := Prod.fst) (0, z) (hh i j) contDiff_fst.contDiffAt
  have hc : ∀ g : ℝ × (Fin (n + 1) → ℂ) → ℂ, ContDiffAt ℝ 1 g (0, z) →
      ContDiffAt ℝ 1 (fun y => conj (g y)) (0, z) := fun g hg => Complex.conjCLE.contDiff.contDiffAt.comp _ hg
  have hdiv : ∀ g g' : ℝ × (Fin (n + 1) → ℂ) → ℂ, ContDiffAt ℝ 1 g (0, z) → ContDiffAt ℝ 1 g' (0, z) → g' (0, z) ≠ 0 →
      ContDiffAt ℝ 1 (fun y => g y / g' y) (0, z) := fun g g' hg hg' h0 => by
    simp only [div_eq_mul_inv]
    exact hg.mul (hg'.inv h0)
  have hJ : ∀ r i, ContDiffAt ℝ 1 (fun y : ℝ × (Fin (n + 1) → ℂ) =>
      jacobianEmbed (fun i => eval y.2 (pderiv i f)) ((d : ℕ) : ℤ) r i) (0, z) := by
    intro r i
    rcases eq_or_ne i d with rfl | hi
    · simp only [jacobianEmbed_dep]
      exact hdiv _ _ (hev _).neg (hev _) hd
    · obtain ⟨l, rfl⟩ := Fin.exists_succAbove_eq hi
      simp only [jacobianEmbed_indep]
      exact contDiffAt_const
  have hψ : ContDiffAt ℝ 1 (fun y : ℝ × (Fin (n + 1) → ℂ) => Graph.psi (.full (h y.1)) (polyJet P y.2)) (0, z) := by
    change ContDiffAt ℝ 1 (fun y : ℝ × (Fin (n + 1) → ℂ) =>
      ∑ i, ∑ j, eval y.2 (P i) * h y.1 i j * conj (eval y.2 (P j))) (0, z)
    refine ContDiffAt.sum fun i _ => ContDiffAt.sum fun j _ => ?_
    exact ((hev _).mul (hH i j)).mul (hc _ (hev _))
  have hψH : ∀ a, ContDiffAt ℝ 1 (fun y : ℝ × (Fin (n + 1) → ℂ) =>
      Graph.psiH (.full (h y.1)) (polyJet P y.2) a) (0, z) := by
    intro a
    change ContDiffAt ℝ 1 (fun y : ℝ × (Fin (n + 1) → ℂ) =>
      ∑ i, ∑ j, eval y.2 (pderiv a (P i)) * h y.1 i j * conj (eval y.2 (P j))) (0, z)
    refine ContDiffAt.sum fun i _ => ContDiffAt.sum fun j _ => ?_
    exact ((hev _).mul (hH i j)).mul (hc _ (hev _))
  have hψHA : ∀ a b, ContDiffAt ℝ 1 (fun y : ℝ × (Fin (n + 1) → ℂ) =>
      Graph.psiHA (.full (h y.1)) (polyJet P y.2) a b) (0, z) := by
    intro a b
    change ContDiffAt ℝ 1 (fun y : ℝ × (Fin (n + 1) → ℂ) =>
      ∑ i, ∑ j, eval y.2 (pderiv a (P i)) * h y.1 i j * conj (eval y.2 (pderiv b (P j)))) (0, z)
    refine ContDiffAt.sum fun i _ => ContDiffAt.sum fun j _ => ?_
    exact ((hev _).mul (hH i j)).mul (hc _ (hev _))
  have hg : ∀ i j, ContDiffAt ℝ 1 (fun y : ℝ × (Fin (n + 1) → ℂ) =>
      Graph.gProj (.full (h y.1)) (polyJet P y.2) k i j) (0, z) := by
    intro i j
    have h1 := hdiv _ _ (hψHA i j) hψ hψ0
    have h2 := hdiv _ _ ((hψH i).mul (hc _ (hψH j))) (hψ.pow 2) (pow_ne_zero 2 hψ0)
    have h3 := (h1.sub h2).mul (contDiffAt_const (c := ((k : ℂ) * (Real.pi : ℂ))⁻¹))
    simp only [← div_eq_mul_inv] at h3
    exact h3
  unfold polyEta Graph.eta Donaldson.eta
  simp only [jget_nat, Matrix.det_apply]
  refine ContDiffAt.mul (ContDiffAt.sum fun σ _ => ContDiffAt.const_smul _ ?_) ?_
  · refine contDiffAt_prod fun i _ => ?_
    change ContDiffAt ℝ 1 (fun y : ℝ × (Fin (n + 1) → ℂ) =>
      ∑ a, ∑ b, (jacobianEmbed (fun i => eval y.2 (pderiv i f)) ((d : ℕ) : ℤ) (σ i) a * Graph.gProj (.full (h y.1)) (polyJet P y.2) k a b *
      conj (jacobianEmbed (fun i => eval y.2 (pderiv i f)) ((d : ℕ) : ℤ) i b))) (0, z)
    refine ContDiffAt.sum fun a _ => ContDiffAt.sum fun b _ => ?_
    exact ((hJ _ _).mul (hg _ _)).mul (hc _ (hJ _ _))
  · refine ((hev (pderiv d f)).mul (hc _ (hev (pderiv d f)))).congr_of_eventuallyEq (Eventually.of_forall fun y => ?_)
    simp only
    rw [Complex.mul_conj, Complex.normSq_eq_norm_sq]
    push_cast
    rfl

end Joint

section Curve

variable {n : ℕ} {F : MvPolynomial (Fin (n + 2)) ℂ} {A : AlgebraicMetric (n + 1)} {ps : List ℂ} (hsm : SmoothHypersurface F)
  {e : ℕ} (hF : Hypersurface A.variety (.vec ps) (n + 1) e F) (hB : SpansModulo F A.sections.degree A.sections.rows)
  {h : ℝ → A.H} (hd : ∀ a b, ContDiffAt ℝ 1 (fun t => h t a b) 0) (hh : (h 0).PosDef)

include hsm hF hB hd hh

/-- Along a differentiable curve of matrices `eta` changes at most linearly, for all points at once. -/
theorem etaAt_curve_lipschitz : ∃ M : ℝ, ∀ᶠ t : ℝ in 𝓝 0, ∀ Z : Fin (n + 2) → ℂ, Z ≠ 0 → eval Z F = 0 →
    |etaAt A (h t) ps Z - etaAt A (h 0) ps Z| ≤ M * |t| := by
  have hpatch : ∀ p : Fin (n + 2), ∃ M : ℝ, ∀ᶠ t : ℝ in 𝓝 0,
      ∀ z ∈ Metric.closedBall (0 : Fin (n + 1) → ℂ) 1 ∩ {z | eval z (dehom p F) = 0},
      ‖polyEta (h t) A.degree (affineSection A.sections p) (dehom p F) (argmax fun k => ‖eval z (pderiv k (dehom p F))‖) z -
        polyEta (h 0) A.degree (affineSection A.sections p) (dehom p F) (argmax fun k => ‖eval z (pderiv k (dehom p F))‖) z‖ ≤ M * |t| := by
    intro p
    have hK : IsCompact (Metric.closedBall (0 : Fin (n + 1) → ℂ) 1 ∩ {z | eval z (dehom p F) = 0}) :=
      (isCompact_closedBall _ _).inter_right (isClosed_singleton.preimage (MvPolynomial.continuous_eval _))
    refine hK.induction_on (p := fun s => ∃ M : ℝ, ∀ᶠ t : ℝ in 𝓝 0, ∀ z ∈ s,
      ‖polyEta (h t) A.degree (affineSection A.sections p) (dehom p F) (argmax fun k => ‖eval z (pderiv k (dehom p F))‖) z -
        polyEta (h 0) A.degree (affineSection A.sections p) (dehom p F) (argmax fun k => ‖eval z (pderiv k (dehom p F))‖) z‖ ≤ M * |t|)
      ⟨0, by simp⟩ (fun s t hst ⟨M, hM⟩ => ⟨M, hM.mono fun u hu z hz => hu z (hst hz)⟩) ?_ ?_
    · rintro s t ⟨M, hM⟩ ⟨M', hM'⟩
      refine ⟨max M M', ?_⟩
      filter_upwards [hM, hM'] with u h1 h2 z hz
      rcases hz with hz | hz
      · exact (h1 z hz).trans (mul_le_mul_of_nonneg_right (le_max_left _ _) (abs_nonneg _))
      · exact (h2 z hz).trans (mul_le_mul_of_nonneg_right (le_max_right _ _) (abs_nonneg _))
    rintro z ⟨-, hz⟩
    have h0 : eval (affineToHom z (p : ℕ)) F = 0 := by
      rw [← eval_dehom]
      exact hz
    have hne : affineToHom z (p : ℕ) ≠ 0 := fun h => by simpa using congrFun h p
    have hpz : affineToHom z (p : ℕ) p ≠ 0 := by simp
    obtain ⟨d, hd'⟩ := smooth_affine hF.homogeneous _ h0 (hsm _ hne h0) p hpz
    have hψ : Graph.psi (.full (h 0)) (polyJet (affineSection A.sections p) z) ≠ 0 := by
      have := psi_pos (h 0) hh hB p z h0
      rw [sectionsJet_eq _ (spans_le hB)] at this
      exact this.ne'
    rw [C15_roundtrip] at hd'
    have hc := contDiffAt_polyEta_curve A.degree (affineSection A.sections p) (dehom p F) d hd hψ hd'
    obtain ⟨C, U, hU, hL⟩ := hc.exists_lipschitzOnWith
    have hop : ∀ᶠ y in 𝓝 z, eval y (pderiv d (dehom p F)) ≠ 0 :=
      (MvPolynomial.continuous_eval _).continuousAt.eventually_ne hd'
    rw [nhds_prod_eq] at hU
    obtain ⟨U1, hU1, U2, hU2, hU12⟩ := mem_prod_iff.1 hU
    refine ⟨U2 ∩ {y | eval y (pderiv d (dehom p F)) ≠ 0}, mem_nhdsWithin_of_mem_nhds (inter_mem hU2 hop), C, ?_⟩
    filter_upwards [hU1] with t ht y hy
    have hy2 : eval y (pderiv d (dehom p F)) ≠ 0 := hy.2
    have ha := argmax_ne (G := fun k => eval y (pderiv k (dehom p F))) hy2
    have e1 : ∀ H : A.H, polyEta H A.degree (affineSection A.sections p) (dehom p F)
        (argmax fun k => ‖eval y (pderiv k (dehom p F))‖) y =
        polyEta H A.degree (affineSection A.sections p) (dehom p F) d y := fun H =>
      (C70_dependent (.full H) A.degree _ _ d _ hy2 ha _ _).symm
    rw [e1, e1]
    have := hL.norm_sub_le (hU12 (mk_mem_prod ht hy.1)) (hU12 (mk_mem_prod (mem_of_mem_nhds hU1) hy.1))
    refine this.trans (le_of_eq ?_)
    simp [Prod.norm_def]
  choose M hM using hpatch
  refine ⟨∑ p, |M p|, ?_⟩
  filter_upwards [eventually_all.2 hM] with t ht Z hZ h0
  obtain ⟨-, -, h3⟩ := C17_patch Z
  have hp0 : Z (homToAffineAuto Z).2 ≠ 0 := (C17_bounded Z hZ 0).1
  rw [etaAt_eq hF (h t) hB Z, etaAt_eq hF (h 0) hB Z, ← Complex.sub_re]
  refine (Complex.abs_re_le_norm _).trans ((ht (homToAffineAuto Z).2 _ ⟨?_, ?_⟩).trans
    (mul_le_mul_of_nonneg_right ((le_abs_self _).trans (Finset.single_le_sum (f := fun p => |M p|) (fun _ _ => abs_nonneg _)
      (Finset.mem_univ _))) (abs_nonneg _)))
  · rw [mem_closedBall_zero_iff, ← h3]
    exact (pi_norm_le_iff_of_nonneg zero_le_one).2 fun i => (C17_bounded Z hZ i).2
  · change eval _ _ = 0
    rw [eval_dehom, C16_roundtrip Z _ hp0, show (fun i => Z i / Z (homToAffineAuto Z).2) =
      fun i => (Z (homToAffineAuto Z).2)⁻¹ * Z i from funext fun i => by ring, eval_smul_homogeneous hF.homogeneous, h0,
      mul_zero]

omit hsm in
/-- Along a differentiable curve of matrices `eta` is differentiable at every point of the hypersurface. -/
theorem etaAt_curve_differentiable (Z : Fin (n + 2) → ℂ) (hZ : Z ≠ 0) (h0 : eval Z F = 0) :
    DifferentiableAt ℝ (fun t => etaAt A (h t) ps Z) 0 := by
  have hp0 : Z (homToAffineAuto Z).2 ≠ 0 := (C17_bounded Z hZ 0).1
  have hz : eval (affineToHom (homToAffine Z ((homToAffineAuto Z).2 : ℕ)) ((homToAffineAuto Z).2 : ℕ)) F = 0 := by
    rw [C16_roundtrip Z _ hp0, show (fun i => Z i / Z (homToAffineAuto Z).2) =
      fun i => (Z (homToAffineAuto Z).2)⁻¹ * Z i from funext fun i => by ring, eval_smul_homogeneous hF.homogeneous, h0,
      mul_zero]
  simp only [fun t => etaAt_eq hF (h t) hB Z]
  have hψ := (psi_pos (h 0) hh hB _ _ hz).ne'
  rw [sectionsJet_eq _ (spans_le hB)] at hψ
  exact (Complex.reCLM.differentiableAt).comp 0 (eta_differentiable (fun a b => (hd a b).differentiableAt one_ne_zero) _ _ hψ)

end Curve

end Cyjax
