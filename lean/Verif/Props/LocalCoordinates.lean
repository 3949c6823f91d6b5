import Verif.Lemmas.HypersurfaceSmooth

/-! # Property C108: metric and curvature in local holomorphic coordinates of the variety -/

namespace Cyjax

open Cyjax.Donaldson Cyjax.Spec Cyjax.Projective Cyjax.Variety Cyjax.Differential
open Cyjax.Polynomial (PyErr Val PolyObj DworkFactor)
open MvPolynomial (eval pderiv)
open scoped ComplexConjugate ComplexOrder Topology

section Coordinates

variable {n : ℕ} {A : AlgebraicMetric (n + 1)} {params : Val} {e : ℕ} {F : MvPolynomial (Fin (n + 2)) ℂ}
  (hV : Hypersurface A.variety params (n + 1) e F)

include hV

/-- **C108.** Around every smooth point the variety has such coordinates, and they reach every nearby point of it. -/
theorem C108_exists (p : Fin (n + 2)) (z : Fin (n + 1) → ℂ) (d : Fin (n + 1)) (G : Fin (n + 1) → ℂ)
    (hG : gradDefining A.variety z params (some (.index p)) = .ok G)
    (h0 : defining A.variety (List.ofFn z) params (some (.index p)) = .ok 0) (hd : G d ≠ 0) :
    ∃ φ x, LocalCoordinates A.variety params (p : ℕ) d φ x ∧ φ x = z ∧
      ∀ᶠ w in 𝓝 z, defining A.variety (List.ofFn w) params (some (.index p)) = .ok 0 → w ∈ Set.range φ := by
  have hdef : ∀ w, defining A.variety (List.ofFn w) params (some (.index p)) = .ok 0 ↔ eval w (dehom p F) = 0 := by
    intro w
    rw [hV.defining p, eval_dehom]
    exact ⟨fun h => by injection h, fun h => by rw [h]⟩
  have hGe : G = fun k => eval z (pderiv k (dehom p F)) := by
    have := hG.symm.trans (hV.grad p z)
    injection this
  obtain ⟨φ, h1, -, h2, h3⟩ := parametrises_exists (dehom p F) d z ((hdef z).1 h0) (by rw [hGe] at hd; exact hd)
  refine ⟨φ, _, h1.mono fun y hy => ⟨hy.1, hy.2.1, (hdef _).2 hy.2.2⟩, h2, ?_⟩
  filter_upwards [h3] with w hw h0w
  exact ⟨_, hw ((hdef w).1 h0w)⟩

variable (h : A.H) (hh : h.PosDef) (hB : SpansModulo F A.sections.degree A.sections.rows)
  (hk : A.sections.degree ≠ 0) (p : Fin (n + 2)) (d : Fin (n + 1)) (φ : (Fin n → ℂ) → Fin (n + 1) → ℂ) (x : Fin n → ℂ)
  (hφ : LocalCoordinates A.variety params (p : ℕ) d φ x) (G : Fin (n + 1) → ℂ)
  (hG : gradDefining A.variety (φ x) params (some (.index p)) = .ok G) (hd : G d ≠ 0)

include hh hB hk hφ hG hd

/-- **C108.** In these coordinates the matrix returned by `metric` is `∂_r ∂̄_s` of the Kahler potential of the points of
the variety. -/
theorem C108_metric :
    ∃ g, A.metric h (List.ofFn (φ x)) params (some (p : ℕ)) (some (d : ℕ)) none = .ok (g, (p : ℕ), ((d : ℕ) : ℤ)) ∧
      ∀ r s, g r s = dzbar (fun v => dz (fun y =>
          onOk id (A.kahlerPotential h (List.ofFn (φ y)) (some (p : ℕ)))) r v) s x := by
  have hpar := parametrises hV hφ
  obtain ⟨r1, r2, r3⟩ := regular hV h hh hB hk p (φ x) d G hG hφ.self_of_nhds.2.2 hd
  obtain ⟨g, hg, hg'⟩ := metric_levi hV h hh hB p d (φ x) hφ.self_of_nhds.2.2 G hG
  refine ⟨g, hg, fun r s => ?_⟩
  have hGe : G = fun k => eval (φ x) (pderiv k (dehom p F)) := by
    have := hG.symm.trans (hV.grad p (φ x))
    injection this
  rw [hg', hpar.levi r2 (kahler_smooth hV h hh hB p (φ x) hφ.self_of_nhds.2.2) r s, hGe]

/-- **C108.** The matrix returned by `ricci` is `-∂_r ∂̄_s log det g`, with `g` the metric at the points of the variety: the
Ricci curvature of the Kahler manifold. -/
theorem C108_ricci :
    ∃ R, A.ricci h (List.ofFn (φ x)) params (some (p : ℕ)) (some (d : ℕ)) none = .ok (R, (p : ℕ), ((d : ℕ) : ℤ)) ∧
      ∀ r s, R r s = -dzbar (fun v => dz (fun y =>
          onOk (fun r => ((Real.log ‖r.1.det‖ : ℝ) : ℂ)) (A.metric h (List.ofFn (φ y)) params (some (p : ℕ)) (some (d : ℕ)) none)) r v) s x := by
  have hpar := parametrises hV hφ
  obtain ⟨r1, r2, r3⟩ := regular hV h hh hB hk p (φ x) d G hG hφ.self_of_nhds.2.2 hd
  obtain ⟨R, hR, hR'⟩ := C107_metric hV h hh hB hk p (φ x) d G hG hφ.self_of_nhds.2.2 hd
  refine ⟨R, hR, fun r s => ?_⟩
  rw [hR']
  have hGe : G = fun k => eval (φ x) (pderiv k (dehom p F)) := by
    have := hG.symm.trans (hV.grad p (φ x))
    injection this
  rw [hGe]
  have hsm : ContDiffAt ℝ 2 (fun w => onOk (fun r => ((Real.log ‖r.1.det‖ : ℝ) : ℂ)) (A.metric h (List.ofFn w) params (some (p : ℕ)) (some (d : ℕ)) none)) (φ x) := by
    simp only [metric_val hV h p _ (some (d : ℕ))]
    rw [sectionsJet_eq _ (spans_le hB) p] at r1 r3 ⊢
    exact logNorm_contDiff (det_contDiff A.degree (dehom p F) d (φ x) r1 r2) r3
  rw [hpar.levi r2 hsm r s, ← Matrix.neg_apply, ← Matrix.neg_mul, ← Matrix.mul_neg]
  rfl

/-- **C108.** Equally it is `-∂_r ∂̄_s log eta` of the points of the variety. -/
theorem C108_eta :
    ∃ R, A.ricci h (List.ofFn (φ x)) params (some (p : ℕ)) (some (d : ℕ)) none = .ok (R, (p : ℕ), ((d : ℕ) : ℤ)) ∧
      ∀ r s, R r s = -dzbar (fun v => dz (fun y =>
          onOk (fun η => ((Real.log ‖η‖ : ℝ) : ℂ)) (A.eta h (List.ofFn (φ y)) params (some (p : ℕ)) none none)) r v) s x := by
  have hpar := parametrises hV hφ
  obtain ⟨r1, r2, r3⟩ := regular hV h hh hB hk p (φ x) d G hG hφ.self_of_nhds.2.2 hd
  obtain ⟨R, hR, hR'⟩ := C107_eta hV h hh hB hk p (φ x) d G hG hφ.self_of_nhds.2.2 hd
  refine ⟨R, hR, fun r s => ?_⟩
  rw [hR']
  have hGe : G = fun k => eval (φ x) (pderiv k (dehom p F)) := by
    have := hG.symm.trans (hV.grad p (φ x))
    injection this
  rw [hGe]
  have hev : (fun y => onOk (fun η => ((Real.log ‖η‖ : ℝ) : ℂ)) (A.eta h (List.ofFn (φ y)) params (some (p : ℕ)) none none)) =ᶠ[𝓝 x] fun y => onOk (fun η => ((Real.log ‖η‖ : ℝ) : ℂ)) (A.eta h (List.ofFn (φ y)) params (some (p : ℕ)) (some (d : ℕ)) none) := by
    filter_upwards [hpar.eventually r2] with y hy
    rw [C104_eta hV h p (φ y) d _ (hV.grad p (φ y)) hy.2]
  rw [levi_congr hev,
    hpar.levi r2 (eta_smooth hV h hh hB hk p d (φ x) hφ.self_of_nhds.2.2 G hG hd) r s, ← Matrix.neg_apply, ← Matrix.neg_mul, ← Matrix.mul_neg]
  rfl

/-- **C108.** The Ricci scalar is the trace of the Ricci tensor with the inverse metric. -/
theorem C108_scalar :
    ∃ g R c, A.metric h (List.ofFn (φ x)) params (some (p : ℕ)) (some (d : ℕ)) none = .ok (g, (p : ℕ), ((d : ℕ) : ℤ)) ∧
      A.ricci h (List.ofFn (φ x)) params (some (p : ℕ)) (some (d : ℕ)) none = .ok (R, (p : ℕ), ((d : ℕ) : ℤ)) ∧
      A.ricciScalar h (List.ofFn (φ x)) params (some (p : ℕ)) (some (d : ℕ)) none = .ok c ∧
      g.det ≠ 0 ∧ c = (g⁻¹ * R).trace := by
  obtain ⟨r1, r2, r3⟩ := regular hV h hh hB hk p (φ x) d G hG hφ.self_of_nhds.2.2 hd
  obtain ⟨R, c, hR, hc, hR', hc'⟩ := ricci_val hV h p (φ x) d (some (d : ℕ)) rfl r2
  refine ⟨_, R, c, metric_val hV h p (φ x) (some (d : ℕ)), hR', hc', r3, ?_⟩
  unfold Graph.ricciScalar at hc
  rw [hR] at hc
  simp only [bind, Except.bind, pure, Except.pure, Except.ok.injEq] at hc
  rw [← hc, Matrix.trace_mul_comm]
  rfl

end Coordinates

/-- All hypotheses of C108 together: the Fermat cubic near `(1 : -1 : 0)`, full basis of degree 2, `h = 1`. -/
example : ∃ (A : AlgebraicMetric 2) (F : MvPolynomial (Fin 3) ℂ) (p : Fin 3) (d : Fin 2) (φ : (Fin 1 → ℂ) → Fin 2 → ℂ)
    (x : Fin 1 → ℂ) (G : Fin 2 → ℂ), Hypersurface A.variety (.vec []) 2 3 F ∧ (1 : A.H).PosDef ∧
    SpansModulo F A.sections.degree A.sections.rows ∧ A.sections.degree ≠ 0 ∧
    LocalCoordinates A.variety (.vec []) p d φ x ∧
    gradDefining A.variety (φ x) (.vec []) (some (.index p)) = .ok G ∧ G d ≠ 0 := by
  have hF := hypersurface_fermat 2 (.vec [])
  have hz : affineToHom (n := 2) ![(-1 : ℂ), 0] ((0 : Fin 3) : ℕ) = ![1, -1, 0] := by
    funext i
    rcases Fin.eq_self_or_eq_succAbove (0 : Fin 3) i with rfl | ⟨k, rfl⟩
    · rw [affineToHom_same]; rfl
    · rw [affineToHom_succAbove]
      fin_cases k <;> rfl
  have hG : ∀ w, w = ![(-1 : ℂ), 0] → eval w (pderiv 0 (dehom (0 : Fin 3) (∑ j, MvPolynomial.X j ^ (2 + 1)))) ≠ 0 := by
    rintro w rfl
    rw [eval_pderiv_dehom, hz]
    simp [Fin.sum_univ_three, MvPolynomial.pderiv_X]
  obtain ⟨φ, x, h1, h2, -⟩ := C108_exists (A := ⟨.fermat 3, monomialBasisFull 2 2⟩) hF 0 ![(-1 : ℂ), 0] 0 _ (hF.grad 0 _)
    ((hF.defining 0 _).trans (by
      rw [hz]
      simp [Fin.sum_univ_three]
      norm_num)) (hG _ rfl)
  exact ⟨⟨.fermat 3, monomialBasisFull 2 2⟩, _, 0, 0, φ, x, _, hF, Matrix.PosDef.one, (C105_sections _ 2).1, two_ne_zero,
    h1, hF.grad 0 _, hG _ h2⟩

end Cyjax
