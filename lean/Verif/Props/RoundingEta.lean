import Verif.Lemmas.RoundingEta
import Verif.Props.AlgebraicMetric

/-! # Rounding errors of the algebraic metric and of `eta` (C167) -/

namespace Cyjax

open Cyjax.Donaldson Cyjax.Variety Cyjax.Projective Cyjax.Differential Cyjax.Fl Cyjax.Spec
open Cyjax.Polynomial (Val)
open scoped ComplexOrder ComplexConjugate

variable {N n : ℕ}

/-- **C167.** If `h` is at least `m₀` and its entries are at most `μ`, the conditions of `C167_metric` hold with `κ = N μ / m₀`, and with the
norms of the derivatives of the sections relative to that of the sections: `u = κ ‖∂_a s‖ / ‖s‖` and `v = κ ‖∂_a s‖ ‖∂_b s‖ / ‖s‖²`. -/
theorem C167_condition {h : Matrix (Fin N) (Fin N) ℂ} {μ m₀ : ℝ} (hm : 0 < m₀) (hμ : ∀ a b, ‖h a b‖ ≤ μ)
    (hlo : (h - (m₀ : ℂ) • (1 : Matrix (Fin N) (Fin N) ℂ)).PosSemidef) (S : Jet N n) (hS : S.s ≠ 0) :
    ∃ ψ : ℝ, Graph.psi (.full h) S = (ψ : ℂ) ∧ 0 < ψ ∧ ∀ x y : Fin N → ℂ,
      absTerms (.full h) x y ≤
        N * μ / m₀ * (√(∑ i, ‖x i‖ ^ 2) / √(∑ i, ‖S.s i‖ ^ 2)) * (√(∑ i, ‖y i‖ ^ 2) / √(∑ i, ‖S.s i‖ ^ 2)) * ψ := by
  have h1 : ((m₀ : ℂ) • (1 : Matrix (Fin N) (Fin N) ℂ)).IsHermitian := by
    rw [Matrix.IsHermitian, Matrix.conjTranspose_smul, Matrix.conjTranspose_one, RCLike.star_def, Complex.conj_ofReal]
  have hh : h.IsHermitian := by
    have := hlo.isHermitian.add h1
    rwa [sub_add_cancel] at this
  have hlo' : ∀ u, m₀ * qf 1 u ≤ qf h u := by
    intro u
    have := (psd_iff hlo.isHermitian).1 hlo u
    rw [qf_sub, qf_smul] at this
    linarith
  have hp := posDef_of_le hh hm hlo'
  have hpos : 0 < Graph.psi (.full h) S := C62_pos h hp S.s hS
  set σ := √(∑ i, ‖S.s i‖ ^ 2) with hσ
  have hs2 : 0 < ∑ i, ‖S.s i‖ ^ 2 := by
    obtain ⟨i, hi⟩ := Function.ne_iff.1 hS
    exact Finset.sum_pos' (fun _ _ => by positivity) ⟨i, Finset.mem_univ _, by have := norm_pos_iff.2 hi; positivity⟩
  have hσ0 : 0 < σ := Real.sqrt_pos.2 hs2
  have hσ2 : σ ^ 2 = ∑ i, ‖S.s i‖ ^ 2 := Real.sq_sqrt hs2.le
  refine ⟨(Graph.psi (.full h) S).re, ?_, (Complex.lt_def.1 hpos).1, ?_⟩
  · exact Complex.ext rfl (by simpa using (Complex.lt_def.1 hpos).2.symm)
  have hψ : m₀ * σ ^ 2 ≤ (Graph.psi (.full h) S).re := by
    have h2 := hlo' (star S.s)
    have e1 : qf h (star S.s) = (Graph.psi (.full h) S).re := by
      rw [qf, star_star]
      congr 1
      simp only [Graph.psi, Donaldson.psi, dotProduct, Matrix.mulVec, Finset.mul_sum, conjS, Pi.star_apply, RCLike.star_def]
      refine Finset.sum_congr rfl fun i _ => Finset.sum_congr rfl fun j _ => ?_
      ring
    have e2 : qf (1 : Matrix (Fin N) (Fin N) ℂ) (star S.s) = σ ^ 2 := by
      rw [qf_one, hσ2]
      exact Finset.sum_congr rfl fun i _ => by rw [Pi.star_apply, norm_star]
    rwa [e1, e2] at h2
  intro x y
  have hN : Nonempty (Fin N) := by
    obtain ⟨i, -⟩ := Function.ne_iff.1 hS
    exact ⟨i⟩
  have hμ0 : 0 ≤ μ := (norm_nonneg _).trans (hμ hN.some hN.some)
  have cs : ∀ w : Fin N → ℂ, ∑ i, ‖w i‖ ≤ √N * √(∑ i, ‖w i‖ ^ 2) := by
    intro w
    rw [← Real.sqrt_mul (Nat.cast_nonneg _)]
    refine Real.le_sqrt_of_sq_le ?_
    have := sq_sum_le_card_mul_sum_sq (s := Finset.univ) (f := fun i => ‖w i‖)
    simpa using this
  set X := √(∑ i, ‖x i‖ ^ 2) with hX
  set Y := √(∑ i, ‖y i‖ ^ 2) with hY
  have hX0 : 0 ≤ X := Real.sqrt_nonneg _
  have hY0 : 0 ≤ Y := Real.sqrt_nonneg _
  calc absTerms (.full h) x y ≤ ∑ i, ∑ j, ‖x i‖ * μ * ‖y j‖ :=
        Finset.sum_le_sum fun i _ => Finset.sum_le_sum fun j _ =>
          mul_le_mul_of_nonneg_right (mul_le_mul_of_nonneg_left (hμ i j) (norm_nonneg _)) (norm_nonneg _)
    _ = μ * ((∑ i, ‖x i‖) * ∑ j, ‖y j‖) := by
        rw [Finset.sum_mul_sum, Finset.mul_sum]
        refine Finset.sum_congr rfl fun i _ => ?_
        rw [Finset.mul_sum]
        exact Finset.sum_congr rfl fun j _ => by ring
    _ ≤ μ * ((√N * X) * (√N * Y)) :=
        mul_le_mul_of_nonneg_left (mul_le_mul (cs x) (cs y) (by positivity) (by positivity)) hμ0
    _ = N * μ / m₀ * (X / σ) * (Y / σ) * (m₀ * σ ^ 2) := by
        have : √(N : ℝ) * √N = N := Real.mul_self_sqrt (Nat.cast_nonneg _)
        calc μ * ((√N * X) * (√N * Y)) = μ * ((√N * √N) * (X * Y)) := by ring
          _ = _ := by
            rw [this]
            field_simp
    _ ≤ _ := mul_le_mul_of_nonneg_left hψ (by positivity)

/-- **C167.** A lower bound `m` of the metric in projective space is one of the metric on the variety, whatever the dependent coordinate
is. -/
theorem C167_lower (h : HArg N) (degree : ℕ) (S : Jet N (n + 1)) {m : ℝ} (hm : 0 ≤ m)
    (hlo : (Graph.gProj h S degree - (m : ℂ) • (1 : Matrix (Fin (n + 1)) (Fin (n + 1)) ℂ)).PosSemidef) (g : Fin (n + 1) → ℂ)
    (d : Fin (n + 1)) (jH : Fin n → Fin (n + 1) → Fin (n + 1) → ℂ) :
    (Graph.gLoc h degree S ⟨g, (d : ℕ), jH⟩ - (m : ℂ) • (1 : Matrix (Fin n) (Fin n) ℂ)).PosSemidef := by
  have hsm : ∀ k, ((m : ℂ) • (1 : Matrix (Fin k) (Fin k) ℂ)).IsHermitian := by
    intro k
    rw [Matrix.IsHermitian, Matrix.conjTranspose_smul, Matrix.conjTranspose_one, RCLike.star_def, Complex.conj_ofReal]
  have hG : (Graph.gProj h S degree).IsHermitian := by
    have := hlo.isHermitian.add (hsm (n + 1))
    rwa [sub_add_cancel] at this
  have hlo' : ∀ u, m * qf 1 u ≤ qf (Graph.gProj h S degree) u := by
    intro u
    have := (psd_iff hlo.isHermitian).1 hlo u
    rw [qf_sub, qf_smul] at this
    linarith
  rw [C67_pullback, C28_pullback]
  set J := jacobianEmbed g ((d : ℕ) : ℤ) with hJ
  have hH : (J * Graph.gProj h S degree * J.conjTranspose).IsHermitian := Matrix.isHermitian_mul_mul_conjTranspose _ hG
  refine (psd_iff (hH.sub (hsm n))).2 fun u => ?_
  have e1 : qf (J * Graph.gProj h S degree * J.conjTranspose) u = qf (Graph.gProj h S degree) (J.conjTranspose.mulVec u) := by
    rw [qf, qf, ← Matrix.mulVec_mulVec, ← Matrix.mulVec_mulVec, Matrix.dotProduct_mulVec, Matrix.star_mulVec,
      Matrix.conjTranspose_conjTranspose]
  have e2 : qf (1 : Matrix (Fin n) (Fin n) ℂ) u ≤ qf 1 (J.conjTranspose.mulVec u) := by
    rw [qf_one, qf_one, Fin.sum_univ_succAbove _ d]
    have : ∀ k, (J.conjTranspose.mulVec u) (d.succAbove k) = u k := by
      intro k
      simp only [Matrix.mulVec, dotProduct, Matrix.conjTranspose_apply, hJ, jacobianEmbed_indep]
      rw [Finset.sum_eq_single k (fun b _ hb => by simp [hb]) (by simp)]
      simp
    simp only [this]
    exact le_add_of_nonneg_left (by positivity)
  rw [qf_sub, qf_smul, e1]
  linarith [hlo' (J.conjTranspose.mulVec u), mul_le_mul_of_nonneg_left e2 hm]

private theorem sq_near' (A : Arith) (D : DivAbs) {ε : ℝ} (hA : A.Accurate ε) (hD : D.Accurate ε) (g g' : Fin (n + 1) → ℂ) {δ : ℝ} (hδ : 0 ≤ δ)
    (hg : ∀ i, RelErr δ (g' i) (g i)) (d : Fin (n + 1)) :
    NearG ((1 + ε) ^ 3 * (1 + δ) ^ 2) (intPow A.mul (D.abs (g' d)) 2) ((‖g d‖ ^ 2 : ℝ) : ℂ) (‖g d‖ ^ 2) := by
  have h1 : NearG (1 + δ) (g' d) (g d) ‖g d‖ := ⟨by rw [add_sub_cancel_left]; exact hg d, le_rfl, by linarith⟩
  have h2 := h1.abs hA.nonneg hD
  have h3 := h2.mul hA h2
  rw [intPow_two]
  have e : (1 + ε) * ((1 + ε) * (1 + δ) * ((1 + ε) * (1 + δ))) = (1 + ε) ^ 3 * (1 + δ) ^ 2 := by ring
  rw [e, ← sq, ← sq] at h3
  push_cast
  exact h3

section Metric

variable (A : Arith) (D : DivAbs) {ε : ℝ} (hA : A.Accurate ε) (hD : D.Accurate ε) {P P1 P2 : Path N} {k : ℕ} (hP : P.Within k)
  (hP1 : P1.Within k) (hP2 : P2.Within k) (h : HArg N) (S : Jet N (n + 1)) {s' : Fin N → ℂ} {s1' : Fin N → Fin (n + 1) → ℂ} {δ : ℝ}
  (hδ : 0 ≤ δ) (hs : ∀ i, RelErr δ (s' i) (S.s i)) (hs1 : ∀ i a, RelErr δ (s1' i a) (S.s1 i a)) (degree : ℕ) (hk : degree ≠ 0)
  {ψ κ u v : ℝ} (hψ : Graph.psi h S = (ψ : ℂ)) (hψ0 : 0 < ψ) (hκ : 0 ≤ κ) (h0 : absTerms h S.s S.s ≤ κ * ψ)
  (h1 : ∀ a, absTerms h (fun i => S.s1 i a) S.s ≤ u * ψ)
  (h2 : ∀ a b, absTerms h (fun i => S.s1 i a) (fun i => S.s1 i b) ≤ v * ψ) {E Q G : ℝ} (hE : E = (1 + ε) ^ k * (1 + δ) ^ 2)
  (hQ : Q = 1 + κ * (E - 1)) (hQ2 : (1 + ε) * Q ^ 2 < 2) (hε : (1 + ε) ^ 2 < 2)
  (hG : G = (1 + ε) ^ 4 * E ^ 2 / ((2 - (1 + ε) * Q ^ 2) * (2 - (1 + ε) ^ 2)))

include hA hD hP hP1 hP2 hδ hs hs1 hk hψ hψ0 hκ h0 h1 h2 hE hQ hQ2 hε hG

/-- **C167, the metric in projective space.** Let the terms of `psi`, of its derivatives and of its mixed second derivatives be at most `κ`,
`u` and `v` in units of `psi`. From sections and derivatives with relative errors `δ` the entries of the metric are computed with
errors of at most `(G - 1) (v + u²) / (π degree)`. -/
theorem C167_metric (i j : Fin (n + 1)) :
    ‖gProjF A D P P1 P2 h s' s1' degree i j - Graph.gProj h S degree i j‖ ≤ (G - 1) * ((v + u ^ 2) / (Real.pi * degree)) := by
  have := (gProjF_near hA hD hP hP1 hP2 h S hδ hs hs1 degree hk hψ hψ0 hκ h0 h1 h2 hE hQ hQ2 hε i j).err
  rwa [projGrowth, ← hG] at this

variable {PJ : Path (n + 1)} (hPJ : PJ.Within k) (g g' : Fin (n + 1) → ℂ) (hδ1 : δ < 1) (hg : ∀ i, RelErr δ (g' i) (g i)) {q L : ℝ}
  (hL : L = (1 + ε) ^ k * (((1 + ε) * ((1 + δ) / (1 - δ))) ^ 2 * G))

include hPJ hδ1 hg hL

/-- **C167, the metric on the variety.** With a gradient with relative errors `δ`, of at most `q` in units of its dependent entry, the
errors of the entries are at most `(L - 1) (1 + q)² (v + u²) / (π degree)`. -/
theorem C167_local (d : Fin (n + 1)) (hd : g d ≠ 0) (hq : ∀ i, ‖g i‖ ≤ q * ‖g d‖) (jH : Fin n → Fin (n + 1) → Fin (n + 1) → ℂ) (i j : Fin n) :
    ‖gLocF A D PJ (gProjF A D P P1 P2 h s' s1' degree) g' (d : ℕ) i j - Graph.gLoc h degree S ⟨g, (d : ℕ), jH⟩ i j‖ ≤
      (L - 1) * ((v + u ^ 2) / (Real.pi * degree) * (1 + q) ^ 2) := by
  have hM := gProjF_near hA hD hP hP1 hP2 h S hδ hs hs1 degree hk hψ hψ0 hκ h0 h1 h2 hE hQ hQ2 hε
  have := (gLocF_near hA hD hPJ hM d hd hδ hδ1 hg hq i j).err
  rw [projGrowth, ← hG, jacGrowth, ← hL] at this
  rwa [C67_pullback]

/-- **C167, eta.** Let `m` be a lower bound of the metric on the variety, and let the library function for determinants give the exact
determinant of a matrix with entries changed by at most `ρ` times the largest one. Then `eta` is computed with a relative error of at
most `(1 + ε)^4 (1 + δ)^2 Δ - 1`, with `Δ = (1 + n² (L (1 + ρ) - 1) c / m)^n` and `c = (1 + q)² (v + u²) / (π degree)`. Without a given dependent
coordinate, the one chosen by the rounded absolute values may be taken with `q = (1 + δ) (1 + ε) / ((1 - δ) (1 - ε))`, about one. -/
theorem C167_eta {detF : Matrix (Fin n) (Fin n) ℂ → ℂ} {ρ : ℝ} (hρ : 0 ≤ ρ) (hdet : DetStable detF ρ) {m : ℝ} (hm : 0 < m)
    (hlo : ∀ d : Fin (n + 1), g d ≠ 0 → (∀ i, ‖g i‖ ≤ q * ‖g d‖) →
      (Graph.gLoc h degree S ⟨g, (d : ℕ), 0⟩ - (m : ℂ) • (1 : Matrix (Fin n) (Fin n) ℂ)).PosSemidef)
    (dep : Option (Fin (n + 1))) (hdep : ∀ d, dep = some d → g d ≠ 0 ∧ ∀ i, ‖g i‖ ≤ q * ‖g d‖)
    (hnone : dep = none → g ≠ 0 ∧ q = (1 + δ) * (1 + ε) / ((1 - δ) * (1 - ε))) {c Δ : ℝ}
    (hc : c = (v + u ^ 2) / (Real.pi * degree) * (1 + q) ^ 2) (hΔ : Δ = (1 + n ^ 2 * ((L * (1 + ρ) - 1) * c) / m) ^ n)
    (d₀ : Fin (n + 1)) (hd₀ : g d₀ ≠ 0) (jH : Fin n → Fin (n + 1) → Fin (n + 1) → ℂ) :
    ∃ η : ℝ, Graph.eta h degree S ⟨g, (d₀ : ℕ), jH⟩ = (η : ℂ) ∧ 0 < η ∧
      ‖etaF A D detF P P1 P2 PJ h degree s' s1' g' (dep.map fun d : Fin (n + 1) => ((d : ℕ) : ℤ)) - η‖ ≤
        ((1 + ε) ^ 4 * (1 + δ) ^ 2 * Δ - 1) * η := by
  have e0 := hA.nonneg
  obtain ⟨d, hch, hd, hq⟩ := chooseDepF_spec hA hD (by nlinarith) hδ1 hg dep hdep hnone
  have hM := gProjF_near hA hD hP hP1 hP2 h S hδ hs hs1 degree hk hψ hψ0 hκ h0 h1 h2 hE hQ hQ2 hε
  rw [projGrowth, ← hG] at hM
  have hX : ∀ i j, NearG L (gLocF A D PJ (gProjF A D P P1 P2 h s' s1' degree) g' (d : ℕ) i j)
      (Graph.gLoc h degree S ⟨g, (d : ℕ), 0⟩ i j) c := by
    intro i j
    have := gLocF_near hA hD hPJ hM d hd hδ hδ1 hg hq i j
    rw [jacGrowth, ← hL, ← hc] at this
    rwa [C67_pullback]
  have hG1 : 1 ≤ G := (hM 0 0).one_le
  have hL1 : 1 ≤ L := by
    rw [hL]
    have hj : 1 ≤ (1 + ε) * ((1 + δ) / (1 - δ)) :=
      one_le_mul_of_one_le_of_one_le (by linarith) (by rw [le_div_iff₀ (by linarith)]; linarith)
    exact one_le_mul_of_one_le_of_one_le (one_le_pow₀ (by linarith)) (one_le_mul_of_one_le_of_one_le (one_le_pow₀ hj) hG1)
  have hc0 : 0 ≤ c := by
    rw [hc]
    have := (hM 0 0).nonneg
    positivity
  set K := Graph.gLoc h degree S ⟨g, (d : ℕ), 0⟩ with hK
  have hKH : K.IsHermitian := by
    have h1 : ((m : ℂ) • (1 : Matrix (Fin n) (Fin n) ℂ)).IsHermitian := by
      rw [Matrix.IsHermitian, Matrix.conjTranspose_smul, Matrix.conjTranspose_one, RCLike.star_def, Complex.conj_ofReal]
    have := (hlo d hd hq).isHermitian.add h1
    rwa [sub_add_cancel] at this
  obtain ⟨hpos, hreal, hnear⟩ := detF_near hρ hdet hKH hm (hlo d hd hq) hL1 hc0 hX
  rw [← hΔ] at hnear
  have hgd : 0 < ‖g d‖ := norm_pos_iff.2 hd
  refine ⟨K.det.re * ‖g d‖ ^ 2, ?_, by positivity, ?_⟩
  · rw [C70_dependent h degree S g d₀ d hd₀ hd jH 0]
    simp only [Graph.eta, eta, ← hK, jget_nat]
    rw [hreal]
    push_cast
    rfl
  · have h3 := (hnear.mul hA (sq_near' A D hA hD g g' hδ hg d)).err
    have e1 : (1 + ε) * (Δ * ((1 + ε) ^ 3 * (1 + δ) ^ 2)) = (1 + ε) ^ 4 * (1 + δ) ^ 2 * Δ := by ring
    rw [e1, ← Complex.ofReal_mul] at h3
    simp only [etaF, hch, jget_nat]
    exact h3

end Metric

/-- **C167.** In exact arithmetic, with the exact determinant, these are the nodes of C62, C67 and C70. -/
theorem C167_exact {P P1 P2 : Path N} {PJ : Path (n + 1)} {k : ℕ} (hP : P.Within k) (hP1 : P1.Within k) (hP2 : P2.Within k)
    (hPJ : PJ.Within k) (h : HArg N) (S : Jet N (n + 1)) (degree : ℕ) (g : Fin (n + 1) → ℂ) (dep : Option ℤ)
    (jH : Fin n → Fin (n + 1) → Fin (n + 1) → ℂ) :
    gProjF Fl.exact exactDivAbs P P1 P2 h S.s S.s1 degree = Graph.gProj h S degree ∧
    gLocF Fl.exact exactDivAbs PJ (Graph.gProj h S degree) g (chooseDep g dep) = Graph.gLoc h degree S ⟨g, chooseDep g dep, jH⟩ ∧
    etaF Fl.exact exactDivAbs Matrix.det P P1 P2 PJ h degree S.s S.s1 g dep = Graph.eta h degree S ⟨g, chooseDep g dep, jH⟩ := by
  have hc : ∀ {K : ℕ} {Q : Path K}, Q.Within k → ∀ (h : HArg K) (x y : Fin K → ℂ), contractF Fl.exact Q h x y = contract h x y := by
    intro K Q hQ h x y
    cases h with
    | diag h => exact (RTree.eval_add Q.ti _).trans (hQ.1.sum _)
    | full h =>
      simp only [contractF, contract]
      have e1 : ∀ f, Q.ti.eval Fl.exact.add f = ∑ i, f i := fun f => (RTree.eval_add Q.ti _).trans (hQ.1.sum _)
      have e2 : ∀ f, Q.tj.eval Fl.exact.add f = ∑ i, f i := fun f => (RTree.eval_add Q.tj _).trans (hQ.2.1.sum _)
      simp only [e1, e2]
      simp only [Fl.exact]
      split_ifs
      · rw [Finset.sum_comm]
        simp only [Finset.sum_mul]
      · simp only [Finset.mul_sum, mul_assoc]
  have h1 : gProjF Fl.exact exactDivAbs P P1 P2 h S.s S.s1 degree = Graph.gProj h S degree := by
    ext i j
    simp only [gProjF, hc hP, hc hP1, hc hP2, intPow_two, Graph.gProj, gProj, Matrix.of_apply]
    simp only [Fl.exact, exactDivAbs, sq, sub_eq_add_neg]
    cases h <;> rfl
  have h2 : gLocF Fl.exact exactDivAbs PJ (Graph.gProj h S degree) g (chooseDep g dep) = Graph.gLoc h degree S ⟨g, chooseDep g dep, jH⟩ := by
    ext r s
    simp only [gLocF, hc hPJ, Graph.gLoc, gLoc, Matrix.of_apply, contract]
    rfl
  refine ⟨h1, h2, ?_⟩
  have hch : chooseDepF exactDivAbs g dep = chooseDep g dep := by cases dep <;> rfl
  simp only [etaF, hch, h1, h2, Graph.eta, eta, intPow_two]
  simp only [Fl.exact, exactDivAbs, sq]

section Method

variable {M : AlgebraicMetric (n + 1)} {params : Val} {e : ℕ} {F : MvPolynomial (Fin (n + 2)) ℂ}
  (hV : Hypersurface M.variety params (n + 1) e F) (h : M.H) (p : Fin (n + 2)) (z : Fin (n + 1) → ℂ)

include hV

/-- **C167, the method.** The same for the method `eta` of `AlgebraicMetric` at affine coordinates in patch `p` of a hypersurface. -/
theorem C167_method (A : Arith) (D : DivAbs) {ε : ℝ} (hA : A.Accurate ε) (hD : D.Accurate ε) {P P1 P2 : Path M.sections.size}
    {PJ : Path (n + 1)} {k : ℕ} (hP : P.Within k) (hP1 : P1.Within k) (hP2 : P2.Within k) (hPJ : PJ.Within k) {S : Jet M.sections.size (n + 1)}
    (hS : S = sectionsJet M.sections p z) {s' : Fin M.sections.size → ℂ} {s1' : Fin M.sections.size → Fin (n + 1) → ℂ} {δ : ℝ} (hδ : 0 ≤ δ)
    (hδ1 : δ < 1) (hs : ∀ i, RelErr δ (s' i) (S.s i)) (hs1 : ∀ i a, RelErr δ (s1' i a) (S.s1 i a)) (hk : M.sections.degree ≠ 0) {ψ κ u v : ℝ}
    (hψ : Graph.psi (.full h) S = (ψ : ℂ)) (hψ0 : 0 < ψ) (hκ : 0 ≤ κ) (h0 : absTerms (.full h) S.s S.s ≤ κ * ψ)
    (h1 : ∀ a, absTerms (.full h) (fun i => S.s1 i a) S.s ≤ u * ψ)
    (h2 : ∀ a b, absTerms (.full h) (fun i => S.s1 i a) (fun i => S.s1 i b) ≤ v * ψ) {E Q G L : ℝ} (hE : E = (1 + ε) ^ k * (1 + δ) ^ 2)
    (hQ : Q = 1 + κ * (E - 1)) (hQ2 : (1 + ε) * Q ^ 2 < 2) (hε : (1 + ε) ^ 2 < 2)
    (hG : G = (1 + ε) ^ 4 * E ^ 2 / ((2 - (1 + ε) * Q ^ 2) * (2 - (1 + ε) ^ 2))) (g g' : Fin (n + 1) → ℂ)
    (hgrad : gradDefining M.variety z params (some (.index p)) = .ok g) (hg : ∀ i, RelErr δ (g' i) (g i))
    (hL : L = (1 + ε) ^ k * (((1 + ε) * ((1 + δ) / (1 - δ))) ^ 2 * G)) {detF : Matrix (Fin n) (Fin n) ℂ → ℂ} {ρ q m c Δ : ℝ} (hρ : 0 ≤ ρ)
    (hdet : DetStable detF ρ) (hm : 0 < m) (dep : Option (Fin (n + 1)))
    (hlo : ∀ (d : Fin (n + 1)) (K : Matrix (Fin n) (Fin n) ℂ), g d ≠ 0 → (∀ i, ‖g i‖ ≤ q * ‖g d‖) →
      M.metric h (List.ofFn z) params (some (p : ℕ)) (some (d : ℕ)) none = .ok (K, (p : ℕ), ((d : ℕ) : ℤ)) →
        (K - (m : ℂ) • (1 : Matrix (Fin n) (Fin n) ℂ)).PosSemidef)
    (hdep : ∀ d, dep = some d → g d ≠ 0 ∧ ∀ i, ‖g i‖ ≤ q * ‖g d‖)
    (hnone : dep = none → g ≠ 0 ∧ q = (1 + δ) * (1 + ε) / ((1 - δ) * (1 - ε)))
    (hc : c = (v + u ^ 2) / (Real.pi * M.sections.degree) * (1 + q) ^ 2) (hΔ : Δ = (1 + n ^ 2 * ((L * (1 + ρ) - 1) * c) / m) ^ n) :
    ∃ η : ℝ, M.eta h (List.ofFn z) params (some (p : ℕ)) (dep.map fun d : Fin (n + 1) => ((d : ℕ) : ℤ)) none = .ok (η : ℂ) ∧ 0 < η ∧
      ‖etaF A D detF P P1 P2 PJ (.full h) M.sections.degree s' s1' g' (dep.map fun d : Fin (n + 1) => ((d : ℕ) : ℤ)) - η‖ ≤
        ((1 + ε) ^ 4 * (1 + δ) ^ 2 * Δ - 1) * η := by
  have hGe : g = fun k => MvPolynomial.eval z (MvPolynomial.pderiv k (dehom p F)) := by
    have := hgrad.symm.trans (hV.grad p z)
    injection this
  obtain ⟨d₀, hd₀, hch⟩ : ∃ d₀ : Fin (n + 1), g d₀ ≠ 0 ∧ chooseDep g (dep.map fun d : Fin (n + 1) => ((d : ℕ) : ℤ)) = ((d₀ : ℕ) : ℤ) := by
    cases dep with
    | some d => exact ⟨d, (hdep d rfl).1, rfl⟩
    | none =>
      refine ⟨argmax fun i => ‖g i‖, fun h0 => (hnone rfl).1 ?_, rfl⟩
      funext i
      have := (argmax_spec fun i => ‖g i‖).1 i
      rw [h0, norm_zero] at this
      simpa using this
  have he := eta_val hV h p z (dep.map fun d : Fin (n + 1) => ((d : ℕ) : ℤ))
  simp only [← hGe, hch] at he
  obtain ⟨η, h3, h4, h5⟩ := C167_eta A D hA hD hP hP1 hP2 (.full h) S hδ hs hs1 M.sections.degree hk hψ hψ0 hκ h0 h1 h2 hE hQ hQ2 hε hG hPJ
    g g' hδ1 hg hL hρ hdet hm (by
      intro d hd hq
      refine hlo d _ hd hq ?_
      have hm := metric_val hV h p z (some (d : ℕ))
      simp only [← hGe] at hm
      rw [hm, hS]
      rfl) dep hdep hnone hc hΔ d₀ hd₀ fun _ _ _ => 0
  refine ⟨η, ?_, h4, h5⟩
  rw [he, ← h3, hS]
  rfl

end Method

/-- A curve in the projective plane in double precision, with the sections `1, z_0, z_1` and `h = 1`, at points of the patch of the largest
coordinate: with sections, derivatives and a gradient of relative error `10^(-12)` and a determinant of backward error `10^(-13)`, the
relative error of `eta` is at most `10^(-8)`. -/
example (z g g' : Fin 2 → ℂ) (hg0 : g ≠ 0) (hz : ∀ k, ‖z k‖ ≤ 1) (hg : ∀ i, RelErr (10 ^ (-(12 : ℤ))) (g' i) (g i))
    (detF : Matrix (Fin 1) (Fin 1) ℂ → ℂ) (hdet : DetStable detF (10 ^ (-(13 : ℤ)))) (S : Jet 3 2) (hS : S.s = ![1, z 0, z 1])
    (hS1 : S.s1 = ![![0, 0], ![1, 0], ![0, 1]]) (s' : Fin 3 → ℂ) (s1' : Fin 3 → Fin 2 → ℂ)
    (hs : ∀ i, RelErr (10 ^ (-(12 : ℤ))) (s' i) (S.s i)) (hs1 : ∀ i a, RelErr (10 ^ (-(12 : ℤ))) (s1' i a) (S.s1 i a)) (t : RTree (Fin 3))
    (ht : t = .node (.node (.leaf 0) (.leaf 1)) (.leaf 2)) (t2 : RTree (Fin 2)) (ht2 : t2 = .node (.leaf 0) (.leaf 1)) (d : Fin 2) (hd : g d ≠ 0) :
    ∃ η : ℝ, Graph.eta (.full 1) 1 S ⟨g, (d : ℕ), 0⟩ = (η : ℂ) ∧ 0 < η ∧
      ‖etaF (ofRounding (rnd 53)) (divAbsOfRounding (rnd 53)) detF ⟨true, t, t⟩ ⟨true, t, t⟩ ⟨false, t, t⟩ ⟨true, t2, t2⟩ (.full 1) 1
        s' s1' g' none - η‖ ≤ 10 ^ (-(8 : ℤ)) * η := by
  have hc : t.Covers := by rw [ht]; unfold RTree.Covers; decide
  have hdp : t.depth = 2 := by rw [ht]; rfl
  have hc2 : t2.Covers := by rw [ht2]; unfold RTree.Covers; decide
  have hdp2 : t2.depth = 1 := by rw [ht2]; rfl
  have hW : ∀ b, (⟨b, t, t⟩ : Path 3).Within 6 := fun b => ⟨hc, hc, by simp [hdp]⟩
  have hW2 : (⟨true, t2, t2⟩ : Path 2).Within 6 := ⟨hc2, hc2, by simp [hdp2]⟩
  obtain ⟨ψ, hψd⟩ : ∃ ψ : ℝ, ψ = 1 + ∑ k, ‖z k‖ ^ 2 := ⟨_, rfl⟩
  have hψ1 : 1 ≤ ψ := by rw [hψd]; have : 0 ≤ ∑ k, ‖z k‖ ^ 2 := by positivity
                         linarith
  have hψ3 : ψ ≤ 3 := by
    have : ∀ k, ‖z k‖ ^ 2 ≤ 1 := fun k => pow_le_one₀ (norm_nonneg _) (hz k)
    rw [hψd, Fin.sum_univ_two]
    linarith [this 0, this 1]
  have hn : ∀ w : ℂ, w * conj w = ((‖w‖ ^ 2 : ℝ) : ℂ) := fun w => by rw [Complex.mul_conj, Complex.normSq_eq_norm_sq]
  have hpsi : Graph.psi (.full 1) S = (ψ : ℂ) := by
    simp only [Graph.psi, psi, conjS, hS, hψd, Fin.sum_univ_three, Fin.sum_univ_two, Matrix.one_apply]
    simp [hn]
    ring
  have hproj : Graph.gProj (.full 1) S 1 = ((1 / Real.pi : ℝ) : ℂ) • fsMetricAt z := by
    have hN : 1 + ∑ k, z k * conj (z k) = (ψ : ℂ) := by
      rw [hψd]
      simp only [hn]
      push_cast
      rfl
    have hψc : (ψ : ℂ) ≠ 0 := by exact_mod_cast (by linarith : ψ ≠ 0)
    have hπ : (Real.pi : ℂ) ≠ 0 := by exact_mod_cast Real.pi_ne_zero
    ext i j
    rw [Matrix.smul_apply, smul_eq_mul]
    simp only [Graph.gProj, gProj, hpsi, Matrix.of_apply, fsMetricAt, fsMetric, conjArr, hN, Graph.psiHA, psiHA, Graph.psiA, psiA,
      Graph.psiH, psiH, conjS, conjS1, hS, hS1, Fin.sum_univ_three, Matrix.one_apply]
    fin_cases i <;> fin_cases j <;> simp <;> field_simp
  have hlow : ∀ d, (Graph.gLoc (.full 1) 1 S ⟨g, ((d : Fin 2) : ℕ), 0⟩ - ((1 / (9 * Real.pi) : ℝ) : ℂ) • (1 : Matrix (Fin 1) (Fin 1) ℂ)).PosSemidef := by
    intro d
    refine C167_lower (.full 1) 1 S (by positivity) ?_ g d 0
    have hH := (C22_fs_posDef z).isHermitian
    have hsm : ∀ (r : ℝ) (K : Matrix (Fin 2) (Fin 2) ℂ), K.IsHermitian → ((r : ℂ) • K).IsHermitian := fun r K hK => by
      rw [Matrix.IsHermitian, Matrix.conjTranspose_smul, hK, RCLike.star_def, Complex.conj_ofReal]
    rw [hproj]
    refine (psd_iff ((hsm _ _ hH).sub (hsm _ _ Matrix.isHermitian_one))).2 fun u => ?_
    rw [qf_sub, qf_smul, qf_smul]
    have h1 := fs_lower z u
    rw [← hψd] at h1
    have h2 : 1 / 9 * qf 1 u ≤ 1 / ψ ^ 2 * qf 1 u := by
      refine mul_le_mul_of_nonneg_right ?_ (by rw [qf_one]; positivity)
      exact one_div_le_one_div_of_le (by positivity) (by nlinarith)
    have h3 := mul_le_mul_of_nonneg_left (h2.trans h1) (by positivity : 0 ≤ 1 / Real.pi)
    have e : 1 / (9 * Real.pi) * qf 1 u = 1 / Real.pi * (1 / 9 * qf 1 u) := by ring
    rw [e]
    linarith
  obtain ⟨E, hE⟩ : ∃ x : ℝ, x = (1 + 4 * 2 ^ (-(53 : ℤ))) ^ 6 * (1 + 10 ^ (-(12 : ℤ))) ^ 2 := ⟨_, rfl⟩
  obtain ⟨Q, hQ⟩ : ∃ x : ℝ, x = 1 + 1 * (E - 1) := ⟨_, rfl⟩
  obtain ⟨G, hG⟩ : ∃ x : ℝ, x = (1 + 4 * 2 ^ (-(53 : ℤ))) ^ 4 * E ^ 2 / ((2 - (1 + 4 * 2 ^ (-(53 : ℤ))) * Q ^ 2) * (2 - (1 + 4 * 2 ^ (-(53 : ℤ))) ^ 2)) := ⟨_, rfl⟩
  obtain ⟨L, hL⟩ : ∃ x : ℝ, x = (1 + 4 * 2 ^ (-(53 : ℤ))) ^ 6 * (((1 + 4 * 2 ^ (-(53 : ℤ))) * ((1 + 10 ^ (-(12 : ℤ))) / (1 - 10 ^ (-(12 : ℤ))))) ^ 2 * G) := ⟨_, rfl⟩
  obtain ⟨q, hq⟩ : ∃ x : ℝ, x = (1 + 10 ^ (-(12 : ℤ))) * (1 + 4 * 2 ^ (-(53 : ℤ))) / ((1 - 10 ^ (-(12 : ℤ))) * (1 - 4 * 2 ^ (-(53 : ℤ)))) := ⟨_, rfl⟩
  obtain ⟨c, hcc⟩ : ∃ x : ℝ, x = (1 + 1 ^ 2) / (Real.pi * (1 : ℕ)) * (1 + q) ^ 2 := ⟨_, rfl⟩
  obtain ⟨Δ, hΔ⟩ : ∃ x : ℝ, x = (1 + (1 : ℕ) ^ 2 * ((L * (1 + 10 ^ (-(13 : ℤ))) - 1) * c) / (1 / (9 * Real.pi))) ^ 1 := ⟨_, rfl⟩
  have hL1 : 0 ≤ L * (1 + 10 ^ (-(13 : ℤ))) - 1 ∧ L * (1 + 10 ^ (-(13 : ℤ))) - 1 ≤ 2 * 10 ^ (-(11 : ℤ)) := by
    rw [hL, hG, hQ, hE]
    norm_num [zpow_neg]
  have hq1 : 0 ≤ q ∧ q ≤ 1 + 10 ^ (-(6 : ℤ)) := by
    rw [hq]
    norm_num [zpow_neg]
  have hΔ1 : Δ ≤ 1 + 2 * 10 ^ (-(9 : ℤ)) := by
    have hπ := Real.pi_pos
    have e1 : Δ = 1 + (L * (1 + 10 ^ (-(13 : ℤ))) - 1) * (18 * (1 + q) ^ 2) := by
      rw [hΔ, hcc]
      push_cast
      field_simp
      ring
    have h1 : (1 + q) ^ 2 ≤ (2 + 10 ^ (-(6 : ℤ))) ^ 2 := pow_le_pow_left₀ (by linarith [hq1.1]) (by linarith [hq1.2]) 2
    rw [e1]
    have : (L * (1 + 10 ^ (-(13 : ℤ))) - 1) * (18 * (1 + q) ^ 2) ≤ 2 * 10 ^ (-(11 : ℤ)) * (18 * (2 + 10 ^ (-(6 : ℤ))) ^ 2) :=
      mul_le_mul hL1.2 (by linarith) (by positivity) (by positivity)
    refine (add_le_add_right this 1).trans ?_
    norm_num [zpow_neg]
  obtain ⟨η, h1, h2, h3⟩ := C167_eta _ _ (C159_floats 53 (by norm_num)).2 (C161_floats 53) (hW true) (hW true) (hW false) (.full 1) S
    (by positivity) hs hs1 1 one_ne_zero hpsi (by linarith) zero_le_one (u := 1) (v := 1) (by
      simp only [absTerms, hS, Fin.sum_univ_three, Matrix.one_apply, hψd, Fin.sum_univ_two]
      simp
      linarith) (by
      intro a
      simp only [absTerms, hS, hS1, Fin.sum_univ_three, Matrix.one_apply]
      fin_cases a
      · simp
        linarith [hz 0]
      · simp
        linarith [hz 1]) (by
      intro a b
      simp only [absTerms, hS1, Fin.sum_univ_three, Matrix.one_apply]
      fin_cases a <;> fin_cases b <;> simp <;> linarith) hE hQ (by rw [hQ, hE]; norm_num [zpow_neg]) (by norm_num [zpow_neg]) hG hW2 g g' (by norm_num [zpow_neg]) hg hL (q := q)
    (by positivity) hdet (by positivity) (fun d _ _ => hlow d) none (by simp) (fun _ => ⟨hg0, hq⟩) hcc hΔ d hd 0
  refine ⟨η, h1, h2, h3.trans (mul_le_mul_of_nonneg_right ?_ h2.le)⟩
  rw [sub_le_iff_le_add]
  calc _ ≤ (1 + 4 * 2 ^ (-(53 : ℤ))) ^ 4 * (1 + 10 ^ (-(12 : ℤ))) ^ 2 * (1 + 2 * 10 ^ (-(9 : ℤ))) :=
        mul_le_mul_of_nonneg_left hΔ1 (by positivity)
    _ ≤ _ := by norm_num [zpow_neg]

end Cyjax
