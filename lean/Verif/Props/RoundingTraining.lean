import Verif.Props.RoundingUniform
import Verif.Props.RoundingLoss

/-! # Property C173: the training loss of computed values of eta and of the weights -/

namespace Cyjax

open Cyjax.Variety Cyjax.Donaldson Cyjax.Spec Cyjax.Fl Cyjax.Ml
open scoped ComplexOrder Topology

variable {n e : ℕ} {M : AlgebraicMetric (n + 1)} {params : Cyjax.Polynomial.Val} {F : MvPolynomial (Fin (n + 2)) ℂ}

/-- **C173, the loss of computed values.** Let the hypersurface be smooth, `h` positive definite, and let the sections of positive degree span
the coordinate ring. There are `C` and `τ₀ > 0` such that for every number of points on or near the hypersurface the loss of the computed
values of `eta` and of the computed weights differs from that of the exact ones by at most `C τ` times the loss plus four times the volume. -/
theorem C173_uniform (hV : Hypersurface M.variety params (n + 1) e F)
    (hsm : SmoothHypersurface F) (h : M.H) (hh : h.PosDef)
    (hB : SpansModulo F M.sections.degree M.sections.rows) (hk : M.sections.degree ≠ 0) (k : ℕ) :
    ∃ C τ₀ : ℝ, 0 ≤ C ∧ 0 < τ₀ ∧ ∀ (τ : ℝ) (A : Arith) (D : DivAbs) (lg : ℝ → ℝ), τ ≤ τ₀ → A.Accurate τ → D.Accurate τ →
      A.add 0 1 = 1 → LogAccurate lg τ →
      ∀ (count : ℕ) (p : Fin count → Fin (n + 2)) (z : Fin count → Fin (n + 1) → ℂ) (v : Fin count → ℂ) (g : Fin count → Fin (n + 1) → ℂ)
        (vol : Option ℝ), (∀ j k, ‖z j k‖ ≤ 1) →
        (∀ j, defining M.variety (List.ofFn (z j)) params (some (.index (p j))) = .ok (v j)) → (∀ j, ‖v j‖ ≤ τ₀) →
        (∀ j, gradDefining M.variety (z j) params (some (.index (p j))) = .ok (g j)) →
        ∀ c : Fin count → Evaluation M.sections.size n,
          (∀ j, (c j).Accurate k τ h (sectionsJet M.sections (p j : ℕ) (z j)) (g j)) →
          ∀ t : RTree (Fin count), t.Covers → t.depth ≤ k →
          ∃ η w : Fin count → ℝ, (∀ j, M.eta h (List.ofFn (z j)) params (some (p j : ℕ)) none none = .ok (η j : ℂ)) ∧
            (∀ j, weight M.variety (z j) params (some (.index (p j))) none vol = .ok (w j)) ∧ (∀ j, 0 < η j ∧ 0 < w j) ∧
            |varianceEtaLossF A D lg t (fun j => ((c j).eta A D M.sections.degree).re) (fun j => (c j).weight A D (z j) vol) -
              varianceEtaLoss η w| ≤ C * τ * (varianceEtaLoss η w + 4 * ((∑ j, w j) / count)) := by
  obtain ⟨C, τ₀, hC, hτ₀, H⟩ := C168_uniform hV hsm h hh hB hk k
  have grC : Gr fun τ => (1 + τ) ^ (k + 1) * (1 + C * τ) := (Gr.id_add.pow _).mul (Gr.one_add C)
  have grM : Gr fun τ => (1 + τ) * ((1 + τ) ^ (k + 2) * ((1 + C * τ) * (1 + C * τ)) / (2 - (1 + τ) ^ (k + 1) * (1 + C * τ))) :=
    Gr.id_add.mul (((Gr.id_add.pow _).mul ((Gr.one_add C).mul (Gr.one_add C))).div_two_sub grC)
  have grE : Gr fun τ => (1 + τ) ^ (k + 8) * ((1 + C * τ) / (2 - (1 + τ) * ((1 + τ) ^ (k + 2) * ((1 + C * τ) * (1 + C * τ)) /
      (2 - (1 + τ) ^ (k + 1) * (1 + C * τ))))) ^ 2 * (1 + C * τ) :=
    ((Gr.id_add.pow _).mul (((Gr.one_add C).div_two_sub grM).pow 2)).mul (Gr.one_add C)
  obtain ⟨C₁, hC₁, hl₁⟩ := grE.linear
  have hev := hl₁.and (grC.lt_two.and (grM.lt_two.and (Gr.one_add C).lt_two))
  obtain ⟨r, hr, hrτ⟩ := Metric.eventually_nhds_iff.1 hev
  refine ⟨C₁, min τ₀ (r / 2), hC₁, by positivity, ?_⟩
  intro τ A D lg hτ hA hD h1 hlg count p z v g vol hz hdef hv hgrad c hc t ht htk
  have h0 := hA.nonneg
  have hτr : dist τ 0 < r := by
    rw [Real.dist_0_eq_abs, abs_of_nonneg h0]
    linarith [hτ.trans (min_le_right _ _)]
  obtain ⟨e1, e2, e3, e4⟩ := hrτ hτr
  have hpt := fun j => H τ A D (hτ.trans (min_le_left _ _)) hA hD (p j) (z j) (v j) (g j) (hz j) (hdef j) ((hv j).trans (min_le_left _ _))
    (hgrad j) (c j) (hc j)
  choose η hη hη0 hηe using fun j => (hpt j).1
  choose w hw hw0 hwe using fun j => (hpt j).2 vol
  refine ⟨η, w, hη, hw, fun j => ⟨hη0 j, hw0 j⟩, ?_⟩
  have hCτ : 0 ≤ C * τ := by positivity
  have h1τ : 1 ≤ 1 + τ := by linarith
  have hmon : ∀ a b : ℕ, a ≤ b → (1 + τ) ^ a ≤ (1 + τ) ^ b := fun a b hab => pow_le_pow_right₀ h1τ hab
  obtain ⟨K, hK⟩ : ∃ K, K = (1 + τ) ^ (t.depth + 1) * (1 + C * τ) := ⟨_, rfl⟩
  obtain ⟨L, hL⟩ : ∃ L, L = (1 + τ) * ((1 + τ) ^ (t.depth + 2) * ((1 + C * τ) * (1 + C * τ)) / (2 - K)) := ⟨_, rfl⟩
  have hKk : K ≤ (1 + τ) ^ (k + 1) * (1 + C * τ) := by
    rw [hK]; exact mul_le_mul_of_nonneg_right (hmon _ _ (by omega)) (by positivity)
  have hLk : L ≤ (1 + τ) * ((1 + τ) ^ (k + 2) * ((1 + C * τ) * (1 + C * τ)) / (2 - (1 + τ) ^ (k + 1) * (1 + C * τ))) := by
    rw [hL]
    refine mul_le_mul_of_nonneg_left (div_le_div₀ (by positivity) ?_ (by linarith) (by linarith)) (by linarith)
    exact mul_le_mul_of_nonneg_right (hmon _ _ (by omega)) (by positivity)
  have herr := C173_error A D τ hA hD h1 lg hlg t ht η w (fun j => ((c j).eta A D M.sections.degree).re)
    (fun j => (c j).weight A D (z j) vol) hη0 hw0 (C * τ) (C * τ) hCτ (by linarith) hCτ (fun j => by
      refine le_trans ?_ (hηe j)
      have := Complex.abs_re_le_norm ((c j).eta A D M.sections.degree - η j)
      simpa using this) hwe K L hK (by linarith) hL (by linarith)
  refine herr.trans (mul_le_mul_of_nonneg_right ?_ ?_)
  · have h3 : (1 + τ) ^ (t.depth + 8) * ((1 + C * τ) / (2 - L)) ^ 2 * (1 + C * τ) ≤
        (1 + τ) ^ (k + 8) * ((1 + C * τ) / (2 - (1 + τ) * ((1 + τ) ^ (k + 2) * ((1 + C * τ) * (1 + C * τ)) /
        (2 - (1 + τ) ^ (k + 1) * (1 + C * τ))))) ^ 2 * (1 + C * τ) := by
      refine mul_le_mul_of_nonneg_right (mul_le_mul (hmon _ _ (by omega)) ?_ (by positivity) (by positivity)) (by positivity)
      refine pow_le_pow_left₀ (div_nonneg (by positivity) (by linarith)) ?_ 2
      exact div_le_div_of_nonneg_left (by positivity) (by linarith) (by linarith)
    have := e1 h0
    linarith
  · rw [← show mean w = (∑ i, w i) / count from rfl, ← loss_scale ht.pos η w hη0 hw0]
    exact div_nonneg (Finset.sum_nonneg fun i _ => mul_nonneg (sq_nonneg _) (hw0 i).le) (Nat.cast_nonneg _)

/-- The Dwork quintic with `ψ = 2`, the sections of degree two and the unit matrix meet the assumptions (for accurate evaluations see the
example after `C168_accuracy`). -/
example : ∃ C τ₀ : ℝ, 0 ≤ C ∧ 0 < τ₀ := by
  obtain ⟨F, hF, hsm⟩ := C114_quintic 2 []
  obtain ⟨C, τ₀, hC, hτ₀, -⟩ := C173_uniform (n := 3) (M := ⟨.dwork 5 (.flag true), monomialBasisFull 4 2⟩) hF (hsm.2 (by norm_num)) 1
    Matrix.PosDef.one (C105_sections F 2).1 two_ne_zero 40
  exact ⟨C, τ₀, hC, hτ₀⟩

end Cyjax
