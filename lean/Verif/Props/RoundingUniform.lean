import Verif.Lemmas.RoundingUniformCompact
import Verif.Spec.RoundingUniform
import Verif.Props.RicciFlat

/-! # Uniform numerical stability near a smooth hypersurface (C168) -/

namespace Cyjax

open Cyjax.Donaldson Cyjax.Variety Cyjax.Projective Cyjax.Differential Cyjax.Fl Cyjax.Spec MvPolynomial
open Cyjax.Polynomial (Val)
open scoped ComplexOrder ComplexConjugate Topology

variable {n : ℕ} {M : AlgebraicMetric (n + 1)} {params : Val} {e : ℕ} {F : MvPolynomial (Fin (n + 2)) ℂ}

/-- **C168.** Let the hypersurface be smooth, `h` positive definite, and let the sections of positive degree span the coordinate ring. There
are constants `C` and `τ₀ > 0` such that in every arithmetic of accuracy `τ ≤ τ₀`, at every point with coordinates of absolute value at
most one in any patch and a value of the defining polynomial of at most `τ₀` (a point on or near the hypersurface), the method `eta` and
the weights have positive exact values and are computed with relative errors of at most `C τ`, whatever the order of the operations. The
matrix used in the computation may have errors of at most `τ` in its entries and need not be Hermitian. -/
theorem C168_uniform (hV : Hypersurface M.variety params (n + 1) e F)
    (hsm : SmoothHypersurface F) (h : M.H) (hh : h.PosDef)
    (hB : SpansModulo F M.sections.degree M.sections.rows) (hk : M.sections.degree ≠ 0) (k : ℕ) :
    ∃ C τ₀ : ℝ, 0 ≤ C ∧ 0 < τ₀ ∧ ∀ (τ : ℝ) (A : Arith) (D : DivAbs), τ ≤ τ₀ → A.Accurate τ → D.Accurate τ →
      ∀ (p : Fin (n + 2)) (z : Fin (n + 1) → ℂ) (v : ℂ) (g : Fin (n + 1) → ℂ), (∀ k, ‖z k‖ ≤ 1) →
        defining M.variety (List.ofFn z) params (some (.index p)) = .ok v → ‖v‖ ≤ τ₀ →
        gradDefining M.variety z params (some (.index p)) = .ok g →
        ∀ c : Evaluation M.sections.size n, c.Accurate k τ h (sectionsJet M.sections (p : ℕ) z) g →
          (∃ η : ℝ, M.eta h (List.ofFn z) params (some (p : ℕ)) none none = .ok (η : ℂ) ∧ 0 < η ∧
            ‖c.eta A D M.sections.degree - η‖ ≤ C * τ * η) ∧
          ∀ vol, ∃ w : ℝ, weight M.variety z params (some (.index p)) none vol = .ok w ∧ 0 < w ∧
            |c.weight A D z vol - w| ≤ C * τ * w := by
  obtain ⟨B, τ₁, hB0, hτ₁, hgood⟩ := good_uniform hV.homogeneous hsm h hh hB hk
  obtain ⟨cc, hcc⟩ : ∃ x : ℝ, x = (B + B ^ 2) / (Real.pi * M.sections.degree) * 9 := ⟨_, rfl⟩
  obtain ⟨C₁, hC₁, hl₁⟩ := (gr_eta n k B cc).linear
  obtain ⟨C₂, hC₂, hl₂⟩ := (gr_weight n k).linear
  have hev := (hl₁.and hl₂).and (((Gr.id_add.mul ((gr_psi k B).pow 2)).lt_two.and (Gr.id_add.pow 2).lt_two).and
    ((Gr.id_add.pow (2 * k + 5)).lt_two.and (gr_prod n k).lt_two))
  obtain ⟨r, hr, hrτ⟩ := Metric.eventually_nhds_iff.1 hev
  -- the accuracy in units of the smallest gradient
  obtain ⟨q, hq⟩ : ∃ x : ℝ, x = 1 + B := ⟨_, rfl⟩
  have hq0 : 0 < q := by rw [hq]; linarith
  have hq1 : 1 ≤ q := by rw [hq]; linarith
  refine ⟨(C₁ + C₂) * q, min τ₁ (min (r / 2) (1 / 20) / q), by positivity, by positivity, ?_⟩
  intro τ A D hτ hA hD p z v g hz hdef hv hgrad c hc
  have h0 := hA.nonneg
  obtain ⟨σ, hσ⟩ : ∃ x : ℝ, x = τ * q := ⟨_, rfl⟩
  have hτσ : τ ≤ σ := by rw [hσ]; nlinarith
  have hσ0 : 0 ≤ σ := h0.trans hτσ
  have hσm : σ ≤ min (r / 2) (1 / 20) := by
    rw [hσ]
    exact (le_div_iff₀ hq0).1 (hτ.trans (min_le_right _ _))
  have hσ20 : σ ≤ 1 / 20 := hσm.trans (min_le_right _ _)
  have hσr : dist σ 0 < r := by
    rw [Real.dist_0_eq_abs, abs_of_nonneg hσ0]
    linarith [hσm.trans (min_le_left _ _)]
  obtain ⟨⟨e1, e2⟩, ⟨e3, e4⟩, e5, e6⟩ := hrτ hσr
  have hGe : g = fun k => eval z (pderiv k (dehom p F)) := by
    have := hgrad.symm.trans (hV.grad p z)
    injection this
  have hve : eval (affineToHom z (p : ℕ)) F = v := by
    have := (hV.defining p z).symm.trans hdef
    injection this
  have hG := hgood p z hz (by rw [hve]; exact hv.trans (min_le_left _ _))
  rw [← hGe] at hG
  -- the size of the gradient
  obtain ⟨i₁, hi₁⟩ := hG.grad
  obtain ⟨i₀, -, hi₀⟩ := Finset.exists_max_image Finset.univ (fun i => ‖g i‖) ⟨0, Finset.mem_univ _⟩
  have ha : 1 / B ≤ ‖g i₀‖ := hi₁.trans (hi₀ i₁ (Finset.mem_univ _))
  have ha0 : 0 < ‖g i₀‖ := (one_div_pos.2 hB0).trans_le ha
  have hA' := hA.mono hτσ
  have hD' := hD.mono hτσ
  have herr : ∀ i, ‖c.grad i - g i‖ ≤ σ * ‖g i₀‖ := by
    intro i
    have h1 : 1 ≤ q * ‖g i₀‖ := by
      rw [div_le_iff₀ hB0] at ha
      rw [hq]
      nlinarith
    calc _ ≤ τ * 1 := by rw [mul_one]; exact hc.grad i
      _ ≤ τ * (q * ‖g i₀‖) := mul_le_mul_of_nonneg_left h1 h0
      _ = _ := by rw [hσ]; ring
  have hsz : ∀ i, ‖g i‖ ≤ ‖g i₀‖ := fun i => hi₀ i (Finset.mem_univ _)
  have hd₀ : g i₀ ≠ 0 := norm_pos_iff.1 ha0
  constructor
  · obtain ⟨d₀, hd₀, hch⟩ : ∃ d₀ : Fin (n + 1), g d₀ ≠ 0 ∧ chooseDep g none = ((d₀ : ℕ) : ℤ) := by
      refine ⟨argmax fun i => ‖g i‖, fun h0 => hd₀ ?_, rfl⟩
      have := (argmax_spec fun i => ‖g i‖).1 i₀
      rw [h0, norm_zero] at this
      simpa using this
    have he := eta_val hV h p z none
    simp only [← hGe, hch] at he
    obtain ⟨η, h1, h2, h3⟩ := etaU_near hA' hD' hσ20 hc.P hc.P1 hc.P2 hc.PJ hh.isHermitian (fun i j => (hc.h i j).trans hτσ) (fun i => (hc.s i).mono hτσ)
      (fun i a => (hc.s1 i a).mono hτσ) hk hB0 hG e3 e4 ha0 herr hsz ⟨i₀, rfl⟩ (hc.det.mono hτσ) d₀ hd₀ fun _ _ _ => 0
    refine ⟨η, ?_, h2, h3.err.trans ?_⟩
    · rw [he, ← h1]
      rfl
    · rw [← hcc]
      refine mul_le_mul_of_nonneg_right ((e1 hσ0).trans ?_) h2.le
      rw [hσ]
      nlinarith [mul_nonneg h0 hq0.le]
  · intro vol
    obtain ⟨w, h1, h2, h3⟩ := weightU_near hA' hD' hσ20 hc.t.1 hc.t.2 ⟨hc.ta, hc.tb, hc.tab⟩ e5 e6 hz ha0 herr hsz ⟨i₀, rfl⟩
      (hc.det.mono hτσ) M.variety params (some (.index p)) hgrad vol
    refine ⟨w, h1, h2, h3.trans (mul_le_mul_of_nonneg_right ((e2 hσ0).trans ?_) h2.le)⟩
    rw [hσ]
    nlinarith [mul_nonneg h0 hq0.le]

/-- **C168, the accuracy.** Under the same assumptions there are `C` and `τ₀ > 0` such that for every number of points on or near the
hypersurface the accuracy `sigma_accuracy` of the computed values of `eta` and of the computed weights differs from that of the exact
ones by at most `C τ`. -/
theorem C168_accuracy (hV : Hypersurface M.variety params (n + 1) e F)
    (hsm : SmoothHypersurface F) (h : M.H) (hh : h.PosDef)
    (hB : SpansModulo F M.sections.degree M.sections.rows) (hk : M.sections.degree ≠ 0) (k : ℕ) :
    ∃ C τ₀ : ℝ, 0 ≤ C ∧ 0 < τ₀ ∧ ∀ (τ : ℝ) (A : Arith) (D : DivAbs), τ ≤ τ₀ → A.Accurate τ → D.Accurate τ →
      ∀ (count : ℕ) (p : Fin count → Fin (n + 2)) (z : Fin count → Fin (n + 1) → ℂ) (v : Fin count → ℂ) (g : Fin count → Fin (n + 1) → ℂ)
        (vol : Option ℝ), (∀ j k, ‖z j k‖ ≤ 1) →
        (∀ j, defining M.variety (List.ofFn (z j)) params (some (.index (p j))) = .ok (v j)) → (∀ j, ‖v j‖ ≤ τ₀) →
        (∀ j, gradDefining M.variety (z j) params (some (.index (p j))) = .ok (g j)) →
        ∀ c : Fin count → Evaluation M.sections.size n,
          (∀ j, (c j).Accurate k τ h (sectionsJet M.sections (p j : ℕ) (z j)) (g j)) →
          ∀ t : RTree (Fin count), t.Covers → t.depth ≤ k →
          ∃ η w : Fin count → ℝ, (∀ j, M.eta h (List.ofFn (z j)) params (some (p j : ℕ)) none none = .ok (η j : ℂ)) ∧
            (∀ j, weight M.variety (z j) params (some (.index (p j))) none vol = .ok (w j)) ∧
            |sigmaAccuracyF A D t (fun j => (c j).eta A D M.sections.degree) (fun j => (c j).weight A D (z j) vol) -
              sigmaAccuracy (fun j => (η j : ℂ)) w| ≤ C * τ := by
  obtain ⟨C, τ₀, hC, hτ₀, H⟩ := C168_uniform hV hsm h hh hB hk k
  -- the growth of the errors of the accuracy
  have grE : Gr fun τ => (1 + τ) ^ (2 * k + 8) * (1 + C * τ) * (1 + C * τ) ^ 2 / (2 - (1 + τ) ^ (k + 2) * ((1 + C * τ) * (1 + C * τ))) /
      (2 - (1 + τ) ^ (k + 1) * (1 + C * τ)) :=
    ((((Gr.id_add.pow _).mul (Gr.one_add C)).mul ((Gr.one_add C).pow 2)).div_two_sub
      ((Gr.id_add.pow _).mul ((Gr.one_add C).mul (Gr.one_add C)))).div_two_sub ((Gr.id_add.pow _).mul (Gr.one_add C))
  obtain ⟨C₁, hC₁, hl₁⟩ := grE.linear
  have hev := hl₁.and (((Gr.id_add.pow (k + 2)).mul ((Gr.one_add C).mul (Gr.one_add C))).lt_two.and
    ((Gr.id_add.pow (k + 1)).mul (Gr.one_add C)).lt_two)
  obtain ⟨r, hr, hrτ⟩ := Metric.eventually_nhds_iff.1 hev
  refine ⟨2 * C₁, min τ₀ (r / 2), by positivity, by positivity, ?_⟩
  intro τ A D hτ hA hD count p z v g vol hz hdef hv hgrad c hc t ht htk
  have h0 := hA.nonneg
  have hτr : dist τ 0 < r := by
    rw [Real.dist_0_eq_abs, abs_of_nonneg h0]
    linarith [hτ.trans (min_le_right _ _)]
  obtain ⟨e1, e2, e3⟩ := hrτ hτr
  have hpt := fun j => H τ A D (hτ.trans (min_le_left _ _)) hA hD (p j) (z j) (v j) (g j) (hz j) (hdef j) ((hv j).trans (min_le_left _ _))
    (hgrad j) (c j) (hc j)
  choose η hη hη0 hηe using fun j => (hpt j).1
  choose w hw hw0 hwe using fun j => (hpt j).2 vol
  refine ⟨η, w, hη, hw, ?_⟩
  have hCτ : 0 ≤ C * τ := by positivity
  have h1τ : 1 ≤ 1 + τ := by linarith
  have hmon : ∀ a b : ℕ, a ≤ b → (1 + τ) ^ a ≤ (1 + τ) ^ b := fun a b hab => pow_le_pow_right₀ h1τ hab
  have hK : (1 + τ) ^ (t.depth + 2) * ((1 + C * τ) * (1 + C * τ)) ≤ (1 + τ) ^ (k + 2) * ((1 + C * τ) * (1 + C * τ)) :=
    mul_le_mul_of_nonneg_right (hmon _ _ (by omega)) (by positivity)
  have hL : (1 + τ) ^ (t.depth + 1) * (1 + C * τ) ≤ (1 + τ) ^ (k + 1) * (1 + C * τ) :=
    mul_le_mul_of_nonneg_right (hmon _ _ (by omega)) (by positivity)
  have hacc := C161_accuracy A D τ hA hD t ht η w hη0 hw0 (fun j => (c j).eta A D M.sections.degree) (fun j => (c j).weight A D (z j) vol)
    (C * τ) (C * τ) hCτ hCτ (fun j => by
      rw [RelErr, Complex.norm_real, Real.norm_of_nonneg (hη0 j).le]
      exact hηe j) (fun j => by
      rw [RelErr, ← Complex.ofReal_sub, Complex.norm_real, Complex.norm_real, Real.norm_of_nonneg (hw0 j).le, Real.norm_eq_abs]
      exact hwe j) (by linarith)
  refine hacc.trans ?_
  have h3 : (1 + τ) ^ (2 * t.depth + 8) * (1 + C * τ) * (1 + C * τ) ^ 2 /
      ((2 - (1 + τ) ^ (t.depth + 2) * ((1 + C * τ) * (1 + C * τ))) * (2 - (1 + τ) ^ (t.depth + 1) * (1 + C * τ))) ≤
      (1 + τ) ^ (2 * k + 8) * (1 + C * τ) * (1 + C * τ) ^ 2 / (2 - (1 + τ) ^ (k + 2) * ((1 + C * τ) * (1 + C * τ))) /
        (2 - (1 + τ) ^ (k + 1) * (1 + C * τ)) := by
    rw [div_div]
    refine div_le_div₀ (by positivity) ?_ (mul_pos (by linarith) (by linarith)) ?_
    · exact mul_le_mul_of_nonneg_right (mul_le_mul_of_nonneg_right (hmon _ _ (by omega)) (by positivity)) (by positivity)
    · exact mul_le_mul (by linarith) (by linarith) (by linarith) (by linarith)
  have := e1 h0
  linarith

theorem exists_tree {ι : Type*} (l : List ι) (hl : l ≠ []) : ∃ t : RTree ι, t.leaves = l ∧ t.depth + 1 ≤ l.length := by
  induction l with
  | nil => exact absurd rfl hl
  | cons a l ih =>
    rcases eq_or_ne l [] with rfl | hne
    · exact ⟨.leaf a, rfl, by simp [RTree.depth]⟩
    · obtain ⟨t, h1, h2⟩ := ih hne
      refine ⟨.node (.leaf a) t, by simp [RTree.leaves, h1], ?_⟩
      simp only [RTree.depth, List.length_cons]
      have : 0 < l.length := List.length_pos_iff.2 hne
      omega

/-- The Dwork quintic with `ψ = 2` and the sections of degree two: the constants exist for sums of at most 40 operations in sequence. There are
accurate evaluations of any accuracy, for example with loops, and double precision is an arithmetic of accuracy `2^(-51)`. -/
example : ∃ (M : AlgebraicMetric 4) (h : M.H), M = ⟨.dwork 5 (.flag true), monomialBasisFull 4 2⟩ ∧
    (∃ C τ₀ : ℝ, 0 ≤ C ∧ 0 < τ₀ ∧ ∀ (τ : ℝ) (A : Arith) (D : DivAbs), τ ≤ τ₀ → A.Accurate τ → D.Accurate τ →
      ∀ (p : Fin 5) (z : Fin 4 → ℂ) (v : ℂ) (g : Fin 4 → ℂ), (∀ k, ‖z k‖ ≤ 1) →
        defining M.variety (List.ofFn z) (.vec [2]) (some (.index p)) = .ok v → ‖v‖ ≤ τ₀ →
        gradDefining M.variety z (.vec [2]) (some (.index p)) = .ok g →
        ∀ c : Evaluation M.sections.size 3, c.Accurate 40 τ h (sectionsJet M.sections (p : ℕ) z) g →
          ∃ η : ℝ, M.eta h (List.ofFn z) (.vec [2]) (some (p : ℕ)) none none = .ok (η : ℂ) ∧ 0 < η ∧
            ‖c.eta A D M.sections.degree - η‖ ≤ C * τ * η) ∧
    (∀ (τ : ℝ), 0 ≤ τ → ∀ (h : Matrix (Fin 15) (Fin 15) ℂ) (S : Jet 15 4) (g : Fin 4 → ℂ), ∃ c : Evaluation 15 3, c.Accurate 40 τ h S g) ∧
    (ofRounding (rnd 53)).Accurate (4 * 2 ^ (-(53 : ℤ))) ∧ (divAbsOfRounding (rnd 53)).Accurate (4 * 2 ^ (-(53 : ℤ))) := by
  obtain ⟨F, hF, hsm⟩ := C114_quintic 2 []
  refine ⟨⟨.dwork 5 (.flag true), monomialBasisFull 4 2⟩, 1, rfl, ?_, ?_, (C159_floats 53 (by norm_num)).2, C161_floats 53⟩
  · obtain ⟨C, τ₀, hC, hτ₀, H⟩ := C168_uniform (n := 3) (M := ⟨.dwork 5 (.flag true), monomialBasisFull 4 2⟩) hF (hsm.2 (by norm_num)) 1
      Matrix.PosDef.one (C105_sections F 2).1 two_ne_zero 40
    exact ⟨C, τ₀, hC, hτ₀, fun τ A D hτ hA hD p z v g hz hd hv hg c hc => (H τ A D hτ hA hD p z v g hz hd hv hg c hc).1⟩
  · intro τ hτ h S g
    obtain ⟨t, ht, htd⟩ := exists_tree (List.finRange 15) (by decide)
    obtain ⟨t', ht', htd'⟩ := exists_tree (List.finRange 4) (by decide)
    rw [List.length_finRange] at htd htd'
    have hc : t.Covers := by unfold RTree.Covers; rw [ht]
    have hc' : t'.Covers := by unfold RTree.Covers; rw [ht']
    refine ⟨⟨h, S.s, S.s1, g, Matrix.det, ⟨true, t, t⟩, ⟨true, t, t⟩, ⟨false, t, t⟩, ⟨true, t', t'⟩, t', t', t'⟩, ?_, ?_, ?_, ?_, ?_,
      ⟨hc, hc, by dsimp only; omega⟩, ⟨hc, hc, by dsimp only; omega⟩, ⟨hc, hc, by dsimp only; omega⟩,
      ⟨hc', hc', by dsimp only; omega⟩, ⟨hc', by dsimp only; omega⟩, hc', hc', by dsimp only; omega⟩
    · intro i j
      rw [sub_self, norm_zero]
      exact hτ
    · intro i
      rw [RelErr, sub_self, norm_zero]
      positivity
    · intro i a
      rw [RelErr, sub_self, norm_zero]
      positivity
    · intro i
      rw [sub_self, norm_zero]
      exact hτ
    · intro X b hb
      exact ⟨0, fun i j => by
        rw [Matrix.zero_apply, norm_zero]
        exact mul_nonneg hτ ((norm_nonneg _).trans (hb i j)), by rw [add_zero]⟩

end Cyjax
