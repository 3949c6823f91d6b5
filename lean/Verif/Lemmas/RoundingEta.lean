import Verif.Spec.RoundingEta
import Verif.Lemmas.RoundingWeights
import Verif.Lemmas.RoundingStep
import Verif.Props.RoundingProjective
import Verif.Spec.RoundingWeights

/-! # Rounding errors of the algebraic metric and of `eta` (for C167) -/

namespace Cyjax.Donaldson

open Cyjax.Fl Cyjax.Spec Cyjax.Util Cyjax.Projective Cyjax.Variety Cyjax.Differential Matrix
open scoped ComplexConjugate ComplexOrder

variable {N n : ℕ} {A : Arith} {D : DivAbs} {ε X Y H : ℝ}

/-- The exact contraction. -/
def contract (h : HArg N) (x y : Fin N → ℂ) : ℂ :=
  match h with
  | .diag h => ∑ i, x i * h i * y i
  | .full h => ∑ i, ∑ j, x i * h i j * y j

theorem contractF_full_near (hA : A.Accurate ε) {P : Path N} {k : ℕ} (hP : P.Within k) {h h' : Matrix (Fin N) (Fin N) ℂ} {b : Fin N → Fin N → ℝ}
    (hh : ∀ i j, NearG H (h' i j) (h i j) (b i j)) {x x' y y' : Fin N → ℂ} {u v : Fin N → ℝ} (hx : ∀ i, NearG X (x' i) (x i) (u i))
    (hy : ∀ i, NearG Y (y' i) (y i) (v i)) :
    NearG ((1 + ε) ^ k * (X * H * Y)) (contractF A P (.full h') x' y') (∑ i, ∑ j, x i * h i j * y j) (∑ i, ∑ j, u i * b i j * v j) := by
  obtain ⟨hi, hj, hk⟩ := hP
  have h1 : 1 ≤ 1 + ε := by linarith [hA.nonneg]
  have key : NearG ((1 + ε) ^ (P.ti.depth + P.tj.depth + 2) * (X * H * Y)) (contractF A P (.full h') x' y')
      (∑ i, ∑ j, x i * h i j * y j) (∑ i, ∑ j, u i * b i j * v j) := by
    simp only [contractF]
    split_ifs with hl
    · have e1 : ∀ j, NearG ((1 + ε) ^ P.ti.depth * ((1 + ε) * (X * H))) (P.ti.eval A.add fun i => A.mul (x' i) (h' i j))
          (∑ i, x i * h i j) (∑ i, u i * b i j) := by
        intro j
        have := P.ti.nearG_add hA (fun i => (hx i).mul hA (hh i j))
        rwa [hi.sum, hi.sum] at this
      have e2 := P.tj.nearG_add hA (fun j => (e1 j).mul hA (hy j))
      rw [hj.sum, hj.sum] at e2
      have e3 : (1 + ε) ^ P.tj.depth * ((1 + ε) * ((1 + ε) ^ P.ti.depth * ((1 + ε) * (X * H)) * Y)) =
          (1 + ε) ^ (P.ti.depth + P.tj.depth + 2) * (X * H * Y) := by ring
      rw [e3] at e2
      rw [Finset.sum_comm, Finset.sum_comm (f := fun i j => u i * b i j * v j)]
      simpa only [Finset.sum_mul] using e2
    · have e1 : ∀ i, NearG ((1 + ε) ^ P.tj.depth * ((1 + ε) * (H * Y))) (P.tj.eval A.add fun j => A.mul (h' i j) (y' j))
          (∑ j, h i j * y j) (∑ j, b i j * v j) := by
        intro i
        have := P.tj.nearG_add hA (fun j => (hh i j).mul hA (hy j))
        rwa [hj.sum, hj.sum] at this
      have e2 := P.ti.nearG_add hA (fun i => (hx i).mul hA (e1 i))
      rw [hi.sum, hi.sum] at e2
      have e3 : (1 + ε) ^ P.ti.depth * ((1 + ε) * (X * ((1 + ε) ^ P.tj.depth * ((1 + ε) * (H * Y))))) =
          (1 + ε) ^ (P.ti.depth + P.tj.depth + 2) * (X * H * Y) := by ring
      rw [e3] at e2
      simpa only [Finset.mul_sum, mul_assoc] using e2
  refine key.mono (mul_le_mul_of_nonneg_right (pow_le_pow_right₀ h1 hk) ?_)
  have := key.one_le
  by_contra hc
  push Not at hc
  have : (1 + ε) ^ (P.ti.depth + P.tj.depth + 2) * (X * H * Y) ≤ 0 := mul_nonpos_of_nonneg_of_nonpos (by positivity) hc.le
  linarith

theorem contractF_near (hA : A.Accurate ε) {P : Path N} {k : ℕ} (hP : P.Within k) (h : HArg N)
    {x x' y y' : Fin N → ℂ} (hx : ∀ i, NearG X (x' i) (x i) ‖x i‖) (hy : ∀ i, NearG Y (y' i) (y i) ‖y i‖) :
    NearG ((1 + ε) ^ k * (X * Y)) (contractF A P h x' y') (contract h x y) (absTerms h x y) := by
  cases h with
  | full h =>
    have := contractF_full_near hA hP (fun i j => NearG.refl (h i j)) hx hy
    rwa [mul_one] at this
  | diag h =>
    obtain ⟨hi, hj, hk⟩ := hP
    have h1 : 1 ≤ 1 + ε := by linarith [hA.nonneg]
    have e := P.ti.nearG_add hA (fun i => ((hx i).mul hA (NearG.refl (h i))).mul hA (hy i))
    rw [hi.sum, hi.sum] at e
    have e3 : (1 + ε) ^ P.ti.depth * ((1 + ε) * ((1 + ε) * (X * 1) * Y)) = (1 + ε) ^ (P.ti.depth + 2) * (X * Y) := by ring
    rw [e3] at e
    refine e.mono (mul_le_mul_of_nonneg_right (pow_le_pow_right₀ h1 (by omega)) ?_)
    have := e.one_le
    by_contra hc
    push Not at hc
    have : (1 + ε) ^ (P.ti.depth + 2) * (X * Y) ≤ 0 := mul_nonpos_of_nonneg_of_nonpos (by positivity) hc.le
    linarith

/-- Enlarging the size. -/
theorem nearG_size {G : ℝ} {y x : ℂ} {a b : ℝ} (h : NearG G y x a) (hab : a ≤ b) : NearG G y x b :=
  ⟨h.err.trans (mul_le_mul_of_nonneg_left hab (by linarith [h.one_le])), h.size.trans hab, h.one_le⟩

/-- The growth of the errors of `g_proj`: `E` is that of the contractions, `Q` that of `psi`. -/
noncomputable def projGrowth (ε E Q : ℝ) : ℝ := (1 + ε) ^ 4 * E ^ 2 / ((2 - (1 + ε) * Q ^ 2) * (2 - (1 + ε) ^ 2))

theorem gProjF_core (hA : A.Accurate ε) (hD : D.Accurate ε) {P P1 P2 : Path N} (h h' : HArg N) (S : Jet N n) {s' : Fin N → ℂ}
    {s1' : Fin N → Fin n → ℂ} (degree : ℕ) (hk : degree ≠ 0) {ψ u v : ℝ} (hψ : Graph.psi h S = (ψ : ℂ)) (hψ0 : 0 < ψ) {E Q : ℝ} (hE1 : 1 ≤ E)
    (hQ1 : 1 ≤ Q) (hQ2 : (1 + ε) * Q ^ 2 < 2) (hε : (1 + ε) ^ 2 < 2) (p0 : NearG Q (contractF A P h' s' (conjS s')) (ψ : ℂ) ‖(ψ : ℂ)‖)
    (p1 : ∀ a, NearG E (contractF A P1 h' (fun i => s1' i a) (conjS s')) (Graph.psiH h S a) (u * ψ)) (i j : Fin n)
    (p2 : NearG E (contractF A P2 h' (fun a => s1' a i) (fun a => conjS1 s1' a j)) (Graph.psiHA h S i j) (v * ψ)) :
    NearG (projGrowth ε E Q) (gProjF A D P P1 P2 h' s' s1' degree i j) (Graph.gProj h S degree i j) ((v + u ^ 2) / (Real.pi * degree)) := by
  have e0 := hA.nonneg
  have e1 : 1 ≤ 1 + ε := by linarith
  have nψ : ‖(ψ : ℂ)‖ = ψ := by rw [Complex.norm_real, Real.norm_of_nonneg hψ0.le]
  have hψc : (ψ : ℂ) ≠ 0 := by exact_mod_cast hψ0.ne'
  have hQ3 : Q ≤ (1 + ε) * Q ^ 2 := by nlinarith [one_le_mul_of_one_le_of_one_le e1 hQ1]
  set B := (1 + ε) ^ 2 * E ^ 2 / (2 - (1 + ε) * Q ^ 2) with hB
  have hden : 0 < 2 - (1 + ε) * Q ^ 2 := by linarith
  -- first term
  have t1 := p2.div e0 hD p0 hψc (by linarith)
  rw [nψ, mul_div_cancel_right₀ _ hψ0.ne'] at t1
  have t1 : NearG B (D.div (contractF A P2 h' (fun a => s1' a i) (fun a => conjS1 s1' a j)) (contractF A P h' s' (conjS s')))
      (Graph.psiHA h S i j / (ψ : ℂ)) v := by
    refine t1.mono ?_
    rw [hB, ← mul_div_assoc]
    refine div_le_div₀ (by positivity) ?_ hden (by linarith)
    have : E ≤ E ^ 2 := by nlinarith
    exact mul_le_mul (by nlinarith) this (by linarith) (by positivity)
  -- second term
  have psq := p0.mul hA p0
  have t2 := ((p1 i).mul hA (nearG_conj (p1 j))).div e0 hD (H := (1 + ε) * Q ^ 2) (y' := intPow A.mul (contractF A P h' s' (conjS s')) 2)
    (x' := (ψ : ℂ) ^ 2) (by
      rw [intPow_two, sq, sq, norm_mul]
      exact psq) (pow_ne_zero 2 hψc) hQ2
  have e5 : (1 + ε) * ((1 + ε) * (E * E) / (2 - (1 + ε) * Q ^ 2)) = B := by rw [hB]; ring
  have e6 : u * ψ * (u * ψ) / ‖(ψ : ℂ) ^ 2‖ = u ^ 2 := by
    rw [norm_pow, nψ, div_eq_iff (by positivity)]
    ring
  rw [e5, e6] at t2
  have t3 := t1.add hA t2.neg
  -- the denominator
  have hd0 : ((degree : ℂ) * (Real.pi : ℂ)) ≠ 0 := by
    have : (Real.pi : ℂ) ≠ 0 := by exact_mod_cast Real.pi_ne_zero
    have : (degree : ℂ) ≠ 0 := by exact_mod_cast hk
    positivity
  have nd : ‖((degree : ℂ) * (Real.pi : ℂ))‖ = Real.pi * degree := by
    rw [norm_mul, Complex.norm_natCast, Complex.norm_real, Real.norm_of_nonneg Real.pi_pos.le, mul_comm]
  have d1 : NearG (1 + ε) (A.const Real.pi) (Real.pi : ℂ) ‖(Real.pi : ℂ)‖ := by
    refine ⟨?_, le_rfl, e1⟩
    rw [add_sub_cancel_left, Complex.norm_real]
    exact hA.const _
  have d2 := (NearG.refl (degree : ℂ)).mul hA d1
  rw [← norm_mul] at d2
  have e7 : (1 + ε) * (1 * (1 + ε)) = (1 + ε) ^ 2 := by ring
  rw [e7] at d2
  have t4 := t3.div e0 hD d2 hd0 hε
  rw [nd] at t4
  have e8 : (1 + ε) * ((1 + ε) * B / (2 - (1 + ε) ^ 2)) = projGrowth ε E Q := by
    rw [projGrowth, hB]
    have : 2 - (1 + ε) ^ 2 ≠ 0 := by linarith
    field_simp
  rw [e8] at t4
  have e9 : (Graph.psiHA h S i j / (ψ : ℂ) + -(Graph.psiH h S i * conj (Graph.psiH h S j) / (ψ : ℂ) ^ 2)) / ((degree : ℂ) * (Real.pi : ℂ)) =
      Graph.gProj h S degree i j := by
    rw [Graph.gProj, gProj, hψ, ← sub_eq_add_neg]
    rfl
  rw [e9] at t4
  exact t4

theorem gProjF_near (hA : A.Accurate ε) (hD : D.Accurate ε) {P P1 P2 : Path N} {k : ℕ} (hP : P.Within k) (hP1 : P1.Within k) (hP2 : P2.Within k)
    (h : HArg N) (S : Jet N n) {s' : Fin N → ℂ} {s1' : Fin N → Fin n → ℂ} {δ : ℝ} (hδ : 0 ≤ δ) (hs : ∀ i, RelErr δ (s' i) (S.s i))
    (hs1 : ∀ i a, RelErr δ (s1' i a) (S.s1 i a)) (degree : ℕ) (hk : degree ≠ 0) {ψ κ u v : ℝ} (hψ : Graph.psi h S = (ψ : ℂ)) (hψ0 : 0 < ψ) (hκ : 0 ≤ κ)
    (h0 : absTerms h S.s S.s ≤ κ * ψ) (h1 : ∀ a, absTerms h (fun i => S.s1 i a) S.s ≤ u * ψ)
    (h2 : ∀ a b, absTerms h (fun i => S.s1 i a) (fun i => S.s1 i b) ≤ v * ψ) {E Q : ℝ} (hE : E = (1 + ε) ^ k * (1 + δ) ^ 2)
    (hQ : Q = 1 + κ * (E - 1)) (hQ2 : (1 + ε) * Q ^ 2 < 2) (hε : (1 + ε) ^ 2 < 2) (i j : Fin n) :
    NearG (projGrowth ε E Q) (gProjF A D P P1 P2 h s' s1' degree i j) (Graph.gProj h S degree i j) ((v + u ^ 2) / (Real.pi * degree)) := by
  have e0 := hA.nonneg
  have e1 : 1 ≤ 1 + ε := by linarith
  have hE1 : 1 ≤ E := by rw [hE]; exact one_le_mul_of_one_le_of_one_le (one_le_pow₀ e1) (one_le_pow₀ (by linarith))
  have hQ1 : 1 ≤ Q := by rw [hQ]; have := mul_nonneg hκ (sub_nonneg.2 hE1); linarith
  have ns : ∀ i, NearG (1 + δ) (s' i) (S.s i) ‖S.s i‖ := fun i => nearG_relErr hδ (hs i)
  have ns1 : ∀ i a, NearG (1 + δ) (s1' i a) (S.s1 i a) ‖S.s1 i a‖ := fun i a => nearG_relErr hδ (hs1 i a)
  have nsc : ∀ i, NearG (1 + δ) (conjS s' i) (conjS S.s i) ‖conjS S.s i‖ := fun i => by
    have := nearG_conj (ns i)
    rw [← RCLike.norm_conj (S.s i)] at this
    exact this
  have ns1c : ∀ a i, NearG (1 + δ) (conjS1 s1' i a) (conjS1 S.s1 i a) ‖conjS1 S.s1 i a‖ := fun a i => by
    have := nearG_conj (ns1 i a)
    rw [← RCLike.norm_conj (S.s1 i a)] at this
    exact this
  have habs : ∀ (x y z : Fin N → ℂ), (∀ i, ‖y i‖ = ‖z i‖) → absTerms h x y = absTerms h x z := by
    intro x y z hyz
    cases h <;> simp only [absTerms, hyz]
  have hsc : ∀ i, ‖conjS S.s i‖ = ‖S.s i‖ := fun i => RCLike.norm_conj _
  have hs1c : ∀ b i, ‖conjS1 S.s1 i b‖ = ‖S.s1 i b‖ := fun b i => RCLike.norm_conj _
  have hEE : (1 + ε) ^ k * ((1 + δ) * (1 + δ)) = E := by rw [hE]; ring
  -- psi
  have p0 := contractF_near hA hP h ns nsc
  rw [hEE] at p0
  have ep : contract h S.s (conjS S.s) = (ψ : ℂ) := by
    rw [← hψ]
    cases h <;> rfl
  rw [ep, habs _ _ _ hsc] at p0
  have nψ : ‖(ψ : ℂ)‖ = ψ := by rw [Complex.norm_real, Real.norm_of_nonneg hψ0.le]
  have p0 := nearG_rel p0 hκ (by rw [nψ]; exact h0)
  rw [← hQ] at p0
  -- psi_h
  have p1 : ∀ a, NearG E (contractF A P1 h (fun i => s1' i a) (conjS s')) (Graph.psiH h S a) (u * ψ) := by
    intro a
    have := contractF_near hA hP1 h (fun i => ns1 i a) nsc
    rw [hEE, habs _ _ _ hsc] at this
    have e : contract h (fun i => S.s1 i a) (conjS S.s) = Graph.psiH h S a := by cases h <;> rfl
    rw [e] at this
    exact nearG_size this (h1 a)
  have p2 : NearG E (contractF A P2 h (fun a => s1' a i) (fun a => conjS1 s1' a j)) (Graph.psiHA h S i j) (v * ψ) := by
    have := contractF_near hA hP2 h (fun a => ns1 a i) (ns1c j)
    rw [hEE, habs _ _ _ (hs1c j)] at this
    have e : contract h (fun a => S.s1 a i) (fun a => conjS1 S.s1 a j) = Graph.psiHA h S i j := by cases h <;> rfl
    rw [e] at this
    exact nearG_size this (h2 i j)
  exact gProjF_core hA hD h h S degree hk hψ hψ0 hE1 hQ1 hQ2 hε p0 p1 i j p2

theorem jacEmbedF_eq (D : DivAbs) (g : Fin (n + 1) → ℂ) (dep : ℤ) : jacEmbedF D g dep = jacF D g dep := rfl

theorem gLocF_near (hA : A.Accurate ε) (hD : D.Accurate ε) {PJ : Path (n + 1)} {k : ℕ} (hP : PJ.Within k) {M M' : Matrix (Fin (n + 1)) (Fin (n + 1)) ℂ}
    {c : ℝ} (hM : ∀ i j, NearG H (M' i j) (M i j) c) {g g' : Fin (n + 1) → ℂ} (d : Fin (n + 1)) (hd : g d ≠ 0) {δ q : ℝ} (hδ : 0 ≤ δ)
    (hδ1 : δ < 1) (hg : ∀ i, RelErr δ (g' i) (g i)) (hq : ∀ i, ‖g i‖ ≤ q * ‖g d‖) (i j : Fin n) :
    NearG ((1 + ε) ^ k * (jacGrowth ε δ ^ 2 * H)) (gLocF A D PJ M' g' (d : ℕ) i j) (inducedMetric M g (d : ℕ) none i j)
      (c * (1 + q) ^ 2) := by
  set J := jacobianEmbed g ((d : ℕ) : ℤ) with hJ
  have hjac := jacF_near hA.nonneg hD d hd hδ hδ1 hg
  have h1 := contractF_full_near hA hP hM (fun a => hjac i a) (fun a => nearG_conj (hjac j a))
  have hc := (hM 0 0).nonneg
  have e1 : (1 + ε) ^ k * (jacGrowth ε δ * H * jacGrowth ε δ) = (1 + ε) ^ k * (jacGrowth ε δ ^ 2 * H) := by ring
  rw [e1] at h1
  have e2 : (∑ a, ∑ b, J i a * M a b * conj (J j b)) = inducedMetric M g (d : ℕ) none i j := by
    rw [C28_pullback, ← hJ, Finset.sum_comm]
    simp only [Matrix.mul_apply, conjTranspose_apply, Finset.sum_mul, RCLike.star_def]
  rw [← hJ, e2] at h1
  refine nearG_size h1 ?_
  have r1 := jac_row d hq hd i
  have r2 := jac_row d hq hd j
  rw [← hJ] at r1 r2
  have r0 : 0 ≤ ∑ k, ‖J i k‖ := by positivity
  have r0' : 0 ≤ ∑ k, ‖J j k‖ := by positivity
  calc ∑ a, ∑ b, ‖J i a‖ * c * ‖J j b‖ = c * ((∑ a, ‖J i a‖) * ∑ b, ‖J j b‖) := by
        rw [Finset.sum_mul_sum, Finset.mul_sum]
        refine Finset.sum_congr rfl fun a _ => ?_
        rw [Finset.mul_sum]
        exact Finset.sum_congr rfl fun b _ => by ring
    _ ≤ c * ((1 + q) * (1 + q)) := mul_le_mul_of_nonneg_left (mul_le_mul r1 r2 r0' (r0.trans r1)) hc
    _ = _ := by ring

/-- The determinant of a computed matrix. -/
theorem detF_near {G ρ c m : ℝ} {detF : Matrix (Fin n) (Fin n) ℂ → ℂ} (hρ : 0 ≤ ρ) (hdet : DetStable detF ρ) {K X : Matrix (Fin n) (Fin n) ℂ}
    (hK : K.IsHermitian) (hm : 0 < m) (hlo : (K - (m : ℂ) • (1 : Matrix (Fin n) (Fin n) ℂ)).PosSemidef) (hG : 1 ≤ G) (hc : 0 ≤ c)
    (hX : ∀ i j, NearG G (X i j) (K i j) c) :
    0 < K.det.re ∧ K.det = (K.det.re : ℂ) ∧ NearG ((1 + n ^ 2 * ((G * (1 + ρ) - 1) * c) / m) ^ n) (detF X) (K.det.re : ℂ) K.det.re := by
  have hlo' : ∀ u, m * qf 1 u ≤ qf K u := by
    intro u
    have := (psd_iff hlo.isHermitian).1 hlo u
    rw [qf_sub, qf_smul] at this
    linarith
  have hKp := posDef_of_le hK hm hlo'
  have hpos := det_re_pos hKp
  obtain ⟨E, hE, hdE⟩ := hdet X (G * c) fun i j => (hX i j).bound
  have hY : ∀ i j, ‖(X + E - K) i j‖ ≤ (G * (1 + ρ) - 1) * c := by
    intro i j
    calc ‖(X + E - K) i j‖ = ‖(X i j - K i j) + E i j‖ := by
          rw [Matrix.sub_apply, Matrix.add_apply]
          congr 1
          ring
      _ ≤ (G - 1) * c + ρ * (G * c) := (norm_add_le _ _).trans (add_le_add (hX i j).err (hE i j))
      _ = _ := by ring
  have h1 := det_entries hK hm hlo' hY
  rw [add_sub_cancel, ← hdE] at h1
  have h3 : 0 ≤ G * (1 + ρ) - 1 := by
    have := one_le_mul_of_one_le_of_one_le hG (show 1 ≤ 1 + ρ by linarith)
    linarith
  refine ⟨hpos, (det_re hKp).symm, ?_, ?_, one_le_pow₀ (le_add_of_nonneg_right (by positivity))⟩
  · rw [det_re hKp]
    exact h1
  · rw [Complex.norm_real, Real.norm_of_nonneg hpos.le]

theorem chooseDepF_spec (hA : A.Accurate ε) (hD : D.Accurate ε) (hε : ε < 1) {g g' : Fin (n + 1) → ℂ} {δ q : ℝ} (hδ1 : δ < 1) (hg : ∀ i, RelErr δ (g' i) (g i))
    (dep : Option (Fin (n + 1))) (hdep : ∀ d, dep = some d → g d ≠ 0 ∧ ∀ i, ‖g i‖ ≤ q * ‖g d‖)
    (hnone : dep = none → g ≠ 0 ∧ q = (1 + δ) * (1 + ε) / ((1 - δ) * (1 - ε))) :
    ∃ d : Fin (n + 1), chooseDepF D g' (dep.map fun d : Fin (n + 1) => ((d : ℕ) : ℤ)) = ((d : ℕ) : ℤ) ∧ g d ≠ 0 ∧
      ∀ i, ‖g i‖ ≤ q * ‖g d‖ := by
  cases dep with
  | some d => exact ⟨d, rfl, hdep d rfl⟩
  | none =>
    obtain ⟨hg0, hq0⟩ := hnone rfl
    set d := Projective.argmax fun i => D.abs (g' i) with hdd
    have h2 := (C162_argmax D ε hε hD g').1
    rw [← hdd] at h2
    have h3 : ∀ i, ‖g i‖ ≤ q * ‖g d‖ := by
      intro i
      have e1 : (1 - δ) * ‖g i‖ ≤ ‖g' i‖ := by
        have := norm_sub_norm_le (g i) (g' i)
        rw [norm_sub_rev] at this
        have := hg i
        unfold RelErr at this
        linarith
      have e2 : ‖g' d‖ ≤ (1 + δ) * ‖g d‖ := by
        have := norm_sub_norm_le (g' d) (g d)
        have := hg d
        unfold RelErr at this
        linarith
      have e3 : (1 - δ) * ‖g i‖ ≤ (1 + ε) / (1 - ε) * ((1 + δ) * ‖g d‖) :=
        e1.trans ((h2 i).trans (mul_le_mul_of_nonneg_left e2 (div_nonneg (by linarith [hA.nonneg]) (by linarith))))
      have p1 : 0 < 1 - δ := by linarith
      have p2 : 0 < 1 - ε := by linarith
      rw [hq0, div_mul_eq_mul_div, le_div_iff₀ (by positivity)]
      rw [div_mul_eq_mul_div, le_div_iff₀ p2] at e3
      linarith
    refine ⟨d, rfl, fun hc => hg0 ?_, h3⟩
    funext i
    have := h3 i
    rw [hc, norm_zero, mul_zero] at this
    simpa using this

end Cyjax.Donaldson
