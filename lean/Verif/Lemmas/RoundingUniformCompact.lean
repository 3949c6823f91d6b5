import Verif.Lemmas.RoundingUniform
import Mathlib.Topology.Order.Compact
import Mathlib.Topology.Algebra.MvPolynomial

/-! # The conditions for stability hold uniformly near a smooth hypersurface (for C168) -/

namespace Cyjax.Donaldson

open Cyjax.Variety Cyjax.Projective Cyjax.Differential Cyjax.Fl Cyjax.Spec Cyjax.Util MvPolynomial Filter
open Cyjax.Polynomial (Val)
open scoped ComplexOrder ComplexConjugate Topology

variable {N n : ℕ} {X : Type*} [TopologicalSpace X]

theorem ev_le {f ψ : X → ℝ} {x₀ : X} (hf : ContinuousAt f x₀) (hψ : ContinuousAt ψ x₀) (h0 : 0 < ψ x₀) :
    ∀ᶠ p : ℝ × X in atTop ×ˢ 𝓝 x₀, f p.2 ≤ p.1 * ψ p.2 := by
  have h1 : Tendsto (fun p : ℝ × X => p.1 * ψ p.2) (atTop ×ˢ 𝓝 x₀) atTop :=
    Tendsto.atTop_mul_pos h0 tendsto_fst (hψ.tendsto.comp tendsto_snd)
  have h2 : ∀ᶠ p : ℝ × X in atTop ×ˢ 𝓝 x₀, f p.2 < f x₀ + 1 :=
    (hf.tendsto.comp tendsto_snd).eventually_lt_const (by linarith)
  filter_upwards [h1.eventually_ge_atTop (f x₀ + 1), h2] with p h3 h4
  linarith

theorem ev_inv {m : ℝ} (hm : 0 < m) (x₀ : X) : ∀ᶠ p : ℝ × X in atTop ×ˢ 𝓝 x₀, 1 / p.1 ≤ m := by
  have : ∀ᶠ B : ℝ in atTop, 1 / B ≤ m := by
    filter_upwards [eventually_ge_atTop (1 / m), eventually_gt_atTop 0] with B h1 h2
    rw [div_le_iff₀ h2]
    rw [div_le_iff₀ hm] at h1
    linarith
  exact tendsto_fst.eventually this

theorem qf_fin_zero (K : Matrix (Fin 0) (Fin 0) ℂ) (u : Fin 0 → ℂ) : qf K u = 0 := by
  rw [qf_eq_sum]
  simp

section Local

variable {h : Matrix (Fin N) (Fin N) ℂ} {S : X → Jet N (n + 1)} {g : X → Fin (n + 1) → ℂ}
  (hs : ∀ i, Continuous fun x => (S x).s i) (hs1 : ∀ i a, Continuous fun x => (S x).s1 i a)

include hs in
theorem continuous_psi : Continuous fun x => Graph.psi (.full h) (S x) := by
  simp only [Graph.psi, psi, conjS]
  fun_prop

include hs hs1 in
theorem continuous_psiH (a : Fin (n + 1)) : Continuous fun x => Graph.psiH (.full h) (S x) a := by
  simp only [Graph.psiH, psiH, conjS]
  fun_prop

include hs1 in
theorem continuous_psiHA (a b : Fin (n + 1)) : Continuous fun x => Graph.psiHA (.full h) (S x) a b := by
  simp only [Graph.psiHA, psiHA, conjS1]
  fun_prop

include hs hs1 in
theorem continuousAt_gProj (degree : ℕ) (hk : degree ≠ 0) {x₀ : X} (h0 : Graph.psi (.full h) (S x₀) ≠ 0) (i j : Fin (n + 1)) :
    ContinuousAt (fun x => Graph.gProj (.full h) (S x) degree i j) x₀ := by
  have c0 := (continuous_psi (h := h) hs).continuousAt (x := x₀)
  have c1 := fun a => (continuous_psiH (h := h) hs hs1 a).continuousAt (x := x₀)
  have c2 := (continuous_psiHA (h := h) hs1 i j).continuousAt (x := x₀)
  have hd : ((degree : ℂ) * (Real.pi : ℂ)) ≠ 0 := by
    have : (Real.pi : ℂ) ≠ 0 := by exact_mod_cast Real.pi_ne_zero
    have : (degree : ℂ) ≠ 0 := by exact_mod_cast hk
    positivity
  have c3 : ContinuousAt (fun x => Graph.psiA (.full h) (S x) j) x₀ := by
    simp only [Graph.psiA, psiA]
    exact Complex.continuous_conj.continuousAt.comp (c1 j)
  simp only [Graph.gProj, gProj, Matrix.of_apply]
  exact ((c2.div₀ c0 h0).sub (((c1 i).mul c3).div₀ (c0.pow 2) (pow_ne_zero 2 h0))).div₀ continuousAt_const hd

theorem continuousAt_jacobian {x₀ : X} (hg : ∀ i, Continuous fun x => g x i) (d : Fin (n + 1)) (hd : g x₀ d ≠ 0) (k : Fin n)
    (j : Fin (n + 1)) : ContinuousAt (fun x => jacobianEmbed (g x) (d : ℕ) k j) x₀ := by
  rcases eq_or_ne j d with rfl | hj
  · simp only [jacobianEmbed_dep]
    exact ((hg _).neg.continuousAt).div₀ (hg _).continuousAt hd
  · obtain ⟨l, rfl⟩ := Fin.exists_succAbove_eq hj
    simp only [jacobianEmbed_indep]
    exact continuousAt_const

include hs hs1 in
theorem continuousAt_gLoc (degree : ℕ) (hk : degree ≠ 0) {x₀ : X} (h0 : Graph.psi (.full h) (S x₀) ≠ 0) (hg : ∀ i, Continuous fun x => g x i)
    (d : Fin (n + 1)) (hd : g x₀ d ≠ 0) (r s : Fin n) :
    ContinuousAt (fun x => Graph.gLoc (.full h) degree (S x) ⟨g x, (d : ℕ), 0⟩ r s) x₀ := by
  simp only [Graph.gLoc, gLoc, Matrix.of_apply, Graph.jacC, Graph.jac]
  refine tendsto_finsetSum _ fun i _ => tendsto_finsetSum _ fun j _ => ?_
  have h1 := continuousAt_jacobian hg d hd r i
  have h2 := Complex.continuous_conj.continuousAt.comp (continuousAt_jacobian hg d hd s j)
  exact ContinuousAt.mul (h1.mul (continuousAt_gProj hs hs1 degree hk h0 i j)) h2

include hs hs1 in
theorem good_local (hh : h.PosDef) (degree : ℕ) (hk : degree ≠ 0) (hg : ∀ i, Continuous fun x => g x i) (x₀ : X) (hS : (S x₀).s ≠ 0)
    (hg0 : ∃ i, g x₀ i ≠ 0)
    (hpd : ∀ d, g x₀ d ≠ 0 → (Graph.gLoc (.full h) degree (S x₀) ⟨g x₀, ((d : Fin (n + 1)) : ℕ), 0⟩).PosDef) :
    ∀ᶠ p : ℝ × X in atTop ×ˢ 𝓝 x₀, GoodAt h degree p.1 (S p.2) (g p.2) := by
  have hpos : 0 < Graph.psi (.full h) (S x₀) := C62_pos h hh _ hS
  have hψ0 : 0 < (Graph.psi (.full h) (S x₀)).re := (Complex.lt_def.1 hpos).1
  have hψc : Continuous fun x => (Graph.psi (.full h) (S x)).re := Complex.continuous_re.comp (continuous_psi (h := h) hs)
  have hat : ∀ u v : X → Fin N → ℂ, (∀ i, Continuous fun x => u x i) → (∀ i, Continuous fun x => v x i) →
      ∀ᶠ p : ℝ × X in atTop ×ˢ 𝓝 x₀, sizeTerms h (u p.2) (v p.2) ≤ p.1 * (Graph.psi (.full h) (S p.2)).re := by
    intro u v hu hv
    refine ev_le (f := fun x => sizeTerms h (u x) (v x)) (Continuous.continuousAt ?_) hψc.continuousAt hψ0
    simp only [sizeTerms]
    fun_prop
  have h1 : ∀ᶠ p : ℝ × X in atTop ×ˢ 𝓝 x₀, 0 < Graph.psi (.full h) (S p.2) := by
    filter_upwards [tendsto_snd.eventually (hψc.continuousAt.eventually_const_lt hψ0)] with p hp
    exact Complex.lt_def.2 ⟨hp, (C62_real h hh.isHermitian _).symm⟩
  have h2 := hat (fun x => (S x).s) (fun x => (S x).s) hs hs
  have h3 : ∀ᶠ p : ℝ × X in atTop ×ˢ 𝓝 x₀, ∀ a, sizeTerms h (fun i => (S p.2).s1 i a) (S p.2).s ≤
      p.1 * (Graph.psi (.full h) (S p.2)).re := eventually_all.2 fun a => hat (fun x i => (S x).s1 i a) (fun x => (S x).s) (fun i => hs1 i a) hs
  have h4 : ∀ᶠ p : ℝ × X in atTop ×ˢ 𝓝 x₀, ∀ a b, sizeTerms h (fun i => (S p.2).s1 i a) (fun i => (S p.2).s1 i b) ≤
      p.1 * (Graph.psi (.full h) (S p.2)).re :=
    eventually_all.2 fun a => eventually_all.2 fun b => hat (fun x i => (S x).s1 i a) (fun x i => (S x).s1 i b) (fun i => hs1 i a) fun i => hs1 i b
  obtain ⟨i₀, hi₀⟩ := hg0
  have hn0 : 0 < ‖g x₀ i₀‖ := norm_pos_iff.2 hi₀
  have h5 : ∀ᶠ p : ℝ × X in atTop ×ˢ 𝓝 x₀, ∃ i, 1 / p.1 ≤ ‖g p.2 i‖ := by
    have h6 : ∀ᶠ p : ℝ × X in atTop ×ˢ 𝓝 x₀, ‖g x₀ i₀‖ / 2 < ‖g p.2 i₀‖ :=
      tendsto_snd.eventually ((hg i₀).norm.continuousAt.eventually_const_lt (by linarith))
    filter_upwards [h6, ev_inv (half_pos hn0) x₀] with p h7 h8
    exact ⟨i₀, by linarith⟩
  have h6 : ∀ᶠ p : ℝ × X in atTop ×ˢ 𝓝 x₀, ∀ d : Fin (n + 1), g p.2 d ≠ 0 → (∀ i, ‖g p.2 i‖ ≤ 2 * ‖g p.2 d‖) →
      ∀ u, 1 / p.1 * qf 1 u ≤ qf (Graph.gLoc (.full h) degree (S p.2) ⟨g p.2, (d : ℕ), 0⟩) u := by
    refine eventually_all.2 fun d => ?_
    rcases eq_or_ne (g x₀ d) 0 with hd | hd
    · have : ∀ᶠ x in 𝓝 x₀, 2 * ‖g x d‖ < ‖g x i₀‖ :=
        ((hg d).norm.const_mul 2).continuousAt.eventually_lt (hg i₀).norm.continuousAt (by
          change 2 * ‖g x₀ d‖ < ‖g x₀ i₀‖
          rw [hd, norm_zero, mul_zero]
          exact hn0)
      filter_upwards [tendsto_snd.eventually this] with p hp _ hle
      exact absurd (hle i₀) (not_le.2 hp)
    rcases Nat.eq_zero_or_pos n with rfl | hn
    · filter_upwards with p _ _ u
      rw [qf_fin_zero, qf_fin_zero, mul_zero]
    obtain ⟨m, hm, hlow⟩ := exists_lower hn.ne' (hpd d hd)
    have hn' : (0 : ℝ) < n := by exact_mod_cast hn
    have hent : ∀ᶠ x in 𝓝 x₀, ∀ r s, ‖(Graph.gLoc (.full h) degree (S x) ⟨g x, (d : ℕ), 0⟩ -
        Graph.gLoc (.full h) degree (S x₀) ⟨g x₀, (d : ℕ), 0⟩) r s‖ ≤ m / (2 * n) := by
      refine eventually_all.2 fun r => eventually_all.2 fun s => ?_
      have hc := continuousAt_gLoc hs hs1 degree hk hpos.ne' hg d hd r s
      have hc' : ContinuousAt (fun x => ‖Graph.gLoc (.full h) degree (S x) ⟨g x, (d : ℕ), 0⟩ r s -
          Graph.gLoc (.full h) degree (S x₀) ⟨g x₀, (d : ℕ), 0⟩ r s‖) x₀ := (hc.sub continuousAt_const).norm
      filter_upwards [hc'.eventually_lt_const (u := m / (2 * n)) (by
        simp only [sub_self, norm_zero]
        positivity)] with x hx
      rw [Matrix.sub_apply]
      exact hx.le
    filter_upwards [tendsto_snd.eventually hent, ev_inv (half_pos hm) x₀] with p hp hB _ _ u
    have h7 := abs_le.1 (qf_le_entries _ hp u)
    rw [qf_sub] at h7
    have h8 := hlow u
    have h9 : (n : ℝ) * (m / (2 * n)) = m / 2 := by field_simp
    rw [h9] at h7
    have h10 : 0 ≤ qf (1 : Matrix (Fin n) (Fin n) ℂ) u := by rw [qf_one]; positivity
    have h11 := mul_le_mul_of_nonneg_right hB h10
    linarith [h7.1]
  filter_upwards [h1, h2, h3, h4, h5, h6] with p a1 a2 a3 a4 a5 a6
  exact ⟨a1, a2, a3, a4, a5, a6⟩

end Local

section Variety

variable {M : AlgebraicMetric (n + 1)} {e : ℕ} {F : MvPolynomial (Fin (n + 2)) ℂ}

/-- Near a smooth hypersurface the conditions hold uniformly. -/
theorem good_uniform (hF : F.IsHomogeneous e) (hsm : ∀ Z, Z ≠ 0 → eval Z F = 0 → ∃ i, eval Z (pderiv i F) ≠ 0) (h : M.H) (hh : h.PosDef)
    (hB : SpansModulo F M.sections.degree M.sections.rows) (hk : M.sections.degree ≠ 0) :
    ∃ B τ : ℝ, 0 < B ∧ 0 < τ ∧ ∀ (p : Fin (n + 2)) (z : Fin (n + 1) → ℂ), (∀ k, ‖z k‖ ≤ 1) → ‖eval (affineToHom z (p : ℕ)) F‖ ≤ τ →
      GoodAt h M.sections.degree B (sectionsJet M.sections (p : ℕ) z) fun k => eval z (pderiv k (dehom p F)) := by
  set ball : Set (Fin (n + 1) → ℂ) := Metric.closedBall 0 1 with hball
  have hbc : IsCompact ball := isCompact_closedBall _ _
  have hcF : ∀ p : Fin (n + 2), Continuous fun z : Fin (n + 1) → ℂ => ‖eval z (dehom p F)‖ := fun p => (MvPolynomial.continuous_eval _).norm
  have hloc : ∀ p : Fin (n + 2), ∀ᶠ q : ℝ × (Fin (n + 1) → ℂ) in atTop ×ˢ 𝓝ˢ (ball ∩ {z | eval z (dehom p F) = 0}),
      GoodAt h M.sections.degree q.1 (sectionsJet M.sections (p : ℕ) q.2) fun k => eval q.2 (pderiv k (dehom p F)) := by
    intro p
    have hcl : IsClosed {z : Fin (n + 1) → ℂ | eval z (dehom p F) = 0} := isClosed_eq (MvPolynomial.continuous_eval _) continuous_const
    have hK : IsCompact (ball ∩ {z | eval z (dehom p F) = 0}) := hbc.inter_right hcl
    rw [hK.prod_nhdsSet_eq_biSup]
    simp only [eventually_iSup]
    intro z₀ hz₀
    have h0 : eval z₀ (dehom p F) = 0 := hz₀.2
    rw [sectionsJet_eq _ (spans_le hB) p]
    obtain ⟨hs, himm⟩ := span_immersion M.sections F hB p z₀ h0
    obtain ⟨d, hd⟩ : ∃ d, eval z₀ (pderiv d (dehom p F)) ≠ 0 := by
      have hne : affineToHom z₀ (p : ℕ) ≠ 0 := fun h => by simpa using congrFun h p
      have hpz : affineToHom z₀ (p : ℕ) p ≠ 0 := by simp
      have h0' : eval (affineToHom z₀ (p : ℕ)) F = 0 := by rw [← eval_dehom]; exact h0
      have := smooth_affine hF _ h0' (hsm _ hne h0') p hpz
      rwa [C15_roundtrip] at this
    exact good_local (S := polyJet (affineSection M.sections p)) (g := fun z k => eval z (pderiv k (dehom p F)))
      (fun i => MvPolynomial.continuous_eval _) (fun i a => MvPolynomial.continuous_eval _) hh _ hk
      (fun i => MvPolynomial.continuous_eval _) z₀ hs ⟨d, hd⟩ fun d hd => gLoc_posDef h hh _ _ hk hs _ d hd 0 (himm hk)
  have hB' : ∀ᶠ B : ℝ in atTop, ∀ p : Fin (n + 2), ∀ᶠ z in 𝓝ˢ (ball ∩ {z | eval z (dehom p F) = 0}),
      GoodAt h M.sections.degree B (sectionsJet M.sections (p : ℕ) z) fun k => eval z (pderiv k (dehom p F)) :=
    eventually_all.2 fun p => (hloc p).curry
  obtain ⟨B, hgood, hB0⟩ := (hB'.and (eventually_gt_atTop 0)).exists
  have hτ : ∀ p : Fin (n + 2), ∃ τ : ℝ, 0 < τ ∧ ∀ z ∈ ball, ‖eval z (dehom p F)‖ ≤ τ →
      GoodAt h M.sections.degree B (sectionsJet M.sections (p : ℕ) z) fun k => eval z (pderiv k (dehom p F)) := by
    intro p
    obtain ⟨U, hU, hKU, hUg⟩ := eventually_nhdsSet_iff_exists.1 (hgood p)
    have hc : IsCompact (ball \ U) := hbc.diff hU
    rcases (ball \ U).eq_empty_or_nonempty with hemp | hne
    · exact ⟨1, one_pos, fun z hz _ => hUg z (by_contra fun hzU => by
        have : z ∈ ball \ U := ⟨hz, hzU⟩
        rw [hemp] at this
        exact this)⟩
    · obtain ⟨z₁, hz₁, hmin⟩ := hc.exists_isMinOn hne (hcF p).continuousOn
      have hpos : 0 < ‖eval z₁ (dehom p F)‖ := by
        rw [norm_pos_iff]
        exact fun h0 => hz₁.2 (hKU ⟨hz₁.1, h0⟩)
      refine ⟨‖eval z₁ (dehom p F)‖ / 2, half_pos hpos, fun z hz hle => hUg z (by_contra fun hzU => ?_)⟩
      have := isMinOn_iff.1 hmin z ⟨hz, hzU⟩
      linarith
  choose τ hτ0 hτg using hτ
  obtain ⟨p₀, -, hp₀⟩ := Finset.exists_min_image Finset.univ τ ⟨0, Finset.mem_univ _⟩
  refine ⟨B, τ p₀, hB0, hτ0 p₀, fun p z hz hle => hτg p z ?_ ?_⟩
  · rw [hball, mem_closedBall_zero_iff, pi_norm_le_iff_of_nonneg zero_le_one]
    exact hz
  · rw [eval_dehom]
    exact hle.trans (hp₀ p (Finset.mem_univ _))

end Variety

end Cyjax.Donaldson
