import Verif.Lemmas.RoundingWeights
import Verif.Props.RoundingProjective
import Verif.Props.Variety

/-! # Rounding errors of the integration weights (C166) -/

namespace Cyjax

open Cyjax.Variety Cyjax.Polynomial Cyjax.Projective Cyjax.Differential Cyjax.Fl Cyjax.Spec
open scoped ComplexOrder ComplexConjugate

variable {n : ℕ}

/-- **C166, determinants.** If `K ≥ m` and the entries of `X` differ from those of `K` by at most `e`, the determinants differ by at most
`((1 + n² e / m)^n - 1) det K`. `X` need not be Hermitian. -/
theorem C166_det {K X : Matrix (Fin n) (Fin n) ℂ} (hK : K.IsHermitian) {m e : ℝ} (hm : 0 < m)
    (hlo : (K - (m : ℂ) • (1 : Matrix (Fin n) (Fin n) ℂ)).PosSemidef) (hX : ∀ i j, ‖X i j - K i j‖ ≤ e) :
    ‖X.det - K.det‖ ≤ ((1 + n ^ 2 * e / m) ^ n - 1) * K.det.re := by
  have hlo' : ∀ u, m * qf 1 u ≤ qf K u := by
    intro u
    have := (psd_iff hlo.isHermitian).1 hlo u
    rw [qf_sub, qf_smul] at this
    linarith
  have := det_entries (E := X - K) hK hm hlo' hX
  rwa [add_sub_cancel] at this

/-- **C166.** The induced Fubini-Study metric is at least `1 / (1 + |z|²)²`, whatever the dependent coordinate is. -/
theorem C166_lower (z g : Fin (n + 1) → ℂ) (d : Fin (n + 1)) :
    (inducedMetric (fsMetricAt z) g (d : ℕ) none - ((1 / (1 + ∑ k, ‖z k‖ ^ 2) ^ 2 : ℝ) : ℂ) • (1 : Matrix (Fin n) (Fin n) ℂ)).PosSemidef := by
  have hH := (C28_posDef (fsMetricAt z) (C22_fs_posDef z) g d).isHermitian
  have h1 : (((1 / (1 + ∑ k, ‖z k‖ ^ 2) ^ 2 : ℝ) : ℂ) • (1 : Matrix (Fin n) (Fin n) ℂ)).IsHermitian := by
    rw [Matrix.IsHermitian, Matrix.conjTranspose_smul, Matrix.conjTranspose_one, RCLike.star_def, Complex.conj_ofReal]
  refine (psd_iff (hH.sub h1)).2 fun u => ?_
  rw [qf_sub, qf_smul]
  linarith [induced_lower z g d u]

private theorem fsGrowth_one_le {ε : ℝ} (h0 : 0 ≤ ε) (k : ℕ) (hε : (1 + ε) ^ (2 * k + 5) < 2) :
    1 ≤ (1 + ε) ^ (k + 5) / (2 - (1 + ε) ^ (2 * k + 5)) := by
  rw [le_div_iff₀ (by linarith)]
  have h1 : 1 ≤ (1 + ε) ^ (k + 5) := one_le_pow₀ (by linarith)
  have h2 : 1 ≤ (1 + ε) ^ (2 * k + 5) := one_le_pow₀ (by linarith)
  linarith

private theorem indGrowth_one_le {ε δ : ℝ} (h0 : 0 ≤ ε) (hδ : 0 ≤ δ) (hδ1 : δ < 1) (t ta tb : RTree (Fin (n + 1)))
    (hε : (1 + ε) ^ (2 * t.depth + 5) < 2) : 1 ≤ indGrowth ε δ t ta tb := by
  have h1 : 1 ≤ jacGrowth ε δ := one_le_mul_of_one_le_of_one_le (by linarith) (by rw [le_div_iff₀ (by linarith)]; linarith)
  exact one_le_mul_of_one_le_of_one_le (one_le_pow₀ (by linarith))
    (one_le_mul_of_one_le_of_one_le (one_le_pow₀ h1) (fsGrowth_one_le h0 _ hε))

private theorem sq_near (A : Arith) (D : DivAbs) {ε : ℝ} (hA : A.Accurate ε) (hD : D.Accurate ε) (g g' : Fin (n + 1) → ℂ) {δ : ℝ} (hδ : 0 ≤ δ)
    (hg : ∀ i, RelErr δ (g' i) (g i)) (d : Fin (n + 1)) :
    NearG ((1 + ε) ^ 3 * (1 + δ) ^ 2) (intPow A.mul (D.abs (g' d)) 2) ((‖g d‖ ^ 2 : ℝ) : ℂ) (‖g d‖ ^ 2) := by
  have h1 : NearG (1 + δ) (g' d) (g d) ‖g d‖ := ⟨by rw [add_sub_cancel_left]; exact hg d, le_rfl, by linarith⟩
  have h2 := h1.abs hA.nonneg hD
  have h3 := h2.mul hA h2
  rw [intPow_two]
  have e : (1 + ε) * ((1 + ε) * (1 + δ) * ((1 + ε) * (1 + δ))) = (1 + ε) ^ 3 * (1 + δ) ^ 2 := by ring
  rw [e, ← sq, ← sq] at h3
  push_cast
  exact h3

private theorem const_near (A : Arith) {ε : ℝ} (hA : A.Accurate ε) {Δ : ℝ} {y : ℂ} {x : ℝ} (h : NearG Δ y (x : ℂ) x) :
    NearG ((1 + ε) ^ 2 * Δ) (A.mul y (A.const (n.factorial / Real.pi ^ n))) ((x * (n.factorial / Real.pi ^ n) : ℝ) : ℂ)
      (x * (n.factorial / Real.pi ^ n)) := by
  have hc : (0 : ℝ) ≤ n.factorial / Real.pi ^ n := by positivity
  have h1 : NearG (1 + ε) (A.const (n.factorial / Real.pi ^ n)) ((n.factorial / Real.pi ^ n : ℝ) : ℂ) (n.factorial / Real.pi ^ n) :=
    ⟨by
      rw [add_sub_cancel_left]
      have := hA.const (n.factorial / Real.pi ^ n)
      rwa [abs_of_nonneg hc] at this, by rw [Complex.norm_real, Real.norm_of_nonneg hc], by linarith [hA.nonneg]⟩
  have h2 := h.mul hA h1
  have e : (1 + ε) * (Δ * (1 + ε)) = (1 + ε) ^ 2 * Δ := by ring
  rw [e, ← Complex.ofReal_mul] at h2
  exact h2

section Weights

variable (A : Arith) (D : DivAbs) {ε : ℝ} (hA : A.Accurate ε) (hD : D.Accurate ε) (t ta tb : RTree (Fin (n + 1))) (ht : t.Covers)
  (hta : ta.Covers) (htb : tb.Covers) (hε : (1 + ε) ^ (2 * t.depth + 5) < 2) {detF : Matrix (Fin n) (Fin n) ℂ → ℂ} {ρ : ℝ} (hρ : 0 ≤ ρ)
  (hdet : DetStable detF ρ) (z g g' : Fin (n + 1) → ℂ) {δ q G Δ : ℝ} (hδ : 0 ≤ δ) (hδ1 : δ < 1) (hg : ∀ i, RelErr δ (g' i) (g i))
  (hG : G = (1 + ε) ^ (ta.depth + tb.depth + 2) *
    (((1 + ε) * ((1 + δ) / (1 - δ))) ^ 2 * ((1 + ε) ^ (t.depth + 5) / (2 - (1 + ε) ^ (2 * t.depth + 5)))))
  (hΔ : Δ = (1 + n ^ 2 * (G * (1 + ρ) - 1) * (2 * (1 + q) ^ 2 * (1 + ∑ k, ‖z k‖ ^ 2))) ^ n)

include hA hD ht hta htb hε hδ hδ1 hg hG

/-- **C166, the induced metric.** The entries computed from a gradient with relative errors `δ` have errors of at most
`(G - 1) * 2 (1 + q)² / (1 + |z|²)`, where `q` bounds the gradient in units of its dependent entry. -/
theorem C166_metric (d : Fin (n + 1)) (hd : g d ≠ 0) (hq : ∀ i, ‖g i‖ ≤ q * ‖g d‖) (i j : Fin n) :
    ‖inducedF A D t ta tb g' z (d : ℕ) i j - inducedMetric (fsMetricAt z) g (d : ℕ) none i j‖ ≤
      (G - 1) * (2 * (1 + q) ^ 2 / (1 + ∑ k, ‖z k‖ ^ 2)) := by
  have hfs : ∀ i j, NearG ((1 + ε) ^ (t.depth + 5) / (2 - (1 + ε) ^ (2 * t.depth + 5)))
      (fsMetricAtF A D t z i j) (fsMetricAt z i j) (2 / (1 + ∑ k, ‖z k‖ ^ 2)) := fun i j => by
    have h1 := fsGrowth_one_le hA.nonneg t.depth hε
    exact ⟨(C162_metric A D ε hA hD t ht z hε i j).trans (mul_le_mul_of_nonneg_left (fs_terms z i j) (by linarith)),
      (norm_fs_le z i j).trans (fs_terms z i j), h1⟩
  have := (inducedF_near hA hD hta htb hfs d hd hδ hδ1 hg hq i j).err
  rwa [indGrowth, jacGrowth, ← hG] at this

include hρ hdet hΔ

omit hΔ in
private theorem det_near (d : Fin (n + 1)) (hd : g d ≠ 0) (hq : ∀ i, ‖g i‖ ≤ q * ‖g d‖) :
    NearG ((1 + n ^ 2 * (G * (1 + ρ) - 1) * (2 * (1 + q) ^ 2 * (1 + ∑ k, ‖z k‖ ^ 2))) ^ n)
      ((detF (inducedF A D t ta tb g' z (d : ℕ))).re : ℂ) ((inducedMetric (fsMetricAt z) g (d : ℕ) none).det.re : ℂ)
      (inducedMetric (fsMetricAt z) g (d : ℕ) none).det.re := by
  have hent := C166_metric A D hA hD t ta tb ht hta htb hε z g g' hδ hδ1 hg hG d hd hq
  have hG1 : 1 ≤ G := by
    have := indGrowth_one_le hA.nonneg hδ hδ1 t ta tb hε
    rwa [indGrowth, jacGrowth, ← hG] at this
  set K := inducedMetric (fsMetricAt z) g (d : ℕ) none with hK
  have hKp : K.PosDef := C28_posDef (fsMetricAt z) (C22_fs_posDef z) g d
  set s : ℝ := 1 + ∑ k, ‖z k‖ ^ 2 with hs
  have hs0 : 0 < s := by positivity
  set a := 2 * (1 + q) ^ 2 / s with ha
  have ha0 : 0 ≤ a := by positivity
  have hsize : ∀ i j, ‖K i j‖ ≤ a := by
    intro i j
    have hfs : ∀ i j, NearG 1 (fsMetricAt z i j) (fsMetricAt z i j) (2 / s) := fun i j =>
      ⟨by simp, (norm_fs_le z i j).trans (fs_terms z i j), le_rfl⟩
    have r1 := jac_row d hq hd i
    have r2 := jac_row d hq hd j
    rw [hK, C28_pullback, Matrix.mul_apply]
    simp only [Matrix.mul_apply, Matrix.conjTranspose_apply]
    calc _ ≤ ∑ l, (∑ k, ‖jacobianEmbed g (d : ℕ) i k‖ * (2 / s)) * ‖jacobianEmbed g (d : ℕ) j l‖ := by
          refine (norm_sum_le _ _).trans (Finset.sum_le_sum fun l _ => ?_)
          rw [norm_mul, norm_star]
          refine mul_le_mul_of_nonneg_right ((norm_sum_le _ _).trans (Finset.sum_le_sum fun k _ => ?_)) (norm_nonneg _)
          rw [norm_mul]
          exact mul_le_mul_of_nonneg_left (hfs k l).size (norm_nonneg _)
      _ = 2 / s * ((∑ k, ‖jacobianEmbed g (d : ℕ) i k‖) * ∑ l, ‖jacobianEmbed g (d : ℕ) j l‖) := by
          rw [← Finset.mul_sum, ← Finset.sum_mul]
          ring
      _ ≤ 2 / s * ((1 + q) * (1 + q)) := by
          have r0 : 0 ≤ ∑ k, ‖jacobianEmbed g (d : ℕ) i k‖ := by positivity
          refine mul_le_mul_of_nonneg_left (mul_le_mul r1 r2 (by positivity) (r0.trans r1)) (by positivity)
      _ = a := by rw [ha]; ring
  obtain ⟨E, hE, hE2⟩ := hdet (inducedF A D t ta tb g' z (d : ℕ)) (G * a) fun i j => by
    have h1 := norm_sub_norm_le (inducedF A D t ta tb g' z (d : ℕ) i j) (K i j)
    linarith [hent i j, hsize i j]
  have hX : ∀ i j, ‖(inducedF A D t ta tb g' z (d : ℕ) + E) i j - K i j‖ ≤ (G * (1 + ρ) - 1) * a := by
    intro i j
    calc _ = ‖(inducedF A D t ta tb g' z (d : ℕ) i j - K i j) + E i j‖ := by
            rw [Matrix.add_apply]
            congr 1
            ring
      _ ≤ (G - 1) * a + ρ * (G * a) := (norm_add_le _ _).trans (add_le_add (hent i j) (hE i j))
      _ = _ := by ring
  have hdd := C166_det hKp.isHermitian (m := 1 / s ^ 2) (by positivity) (C166_lower z g d) hX
  have e1 : n ^ 2 * ((G * (1 + ρ) - 1) * a) / (1 / s ^ 2) = n ^ 2 * (G * (1 + ρ) - 1) * (2 * (1 + q) ^ 2 * s) := by
    rw [ha]
    field_simp
  rw [e1, ← hE2] at hdd
  have hpos := det_re_pos hKp
  have hb : 0 ≤ n ^ 2 * (G * (1 + ρ) - 1) * (2 * (1 + q) ^ 2 * s) := by
    have : 0 ≤ G * (1 + ρ) - 1 := by nlinarith
    positivity
  have hn : NearG ((1 + n ^ 2 * (G * (1 + ρ) - 1) * (2 * (1 + q) ^ 2 * s)) ^ n) (detF (inducedF A D t ta tb g' z (d : ℕ)))
      (K.det.re : ℂ) K.det.re :=
    ⟨by rw [det_re hKp]; exact hdd, by rw [Complex.norm_real, Real.norm_of_nonneg hpos.le], one_le_pow₀ (by linarith)⟩
  exact hn.re

/-- **C166, separate weights.** For a given dependent coordinate the two measures have relative errors of at most
`(1 + ε)^2 / (2 - (1 + ε)^3 (1 + δ)^2) - 1` and `(1 + ε)^2 Δ - 1`, with `Δ = (1 + n² (G (1 + ρ) - 1) 2 (1 + q)² (1 + |z|²))^n`. -/
theorem C166_separate (V : HomKind) (params : Val) (patch : Option PatchArg) (hV : gradDefining V z params patch = .ok g)
    (d : Fin (n + 1)) (hd : g d ≠ 0) (hq : ∀ i, ‖g i‖ ≤ q * ‖g d‖) (hW : (1 + ε) ^ 3 * (1 + δ) ^ 2 < 2) (vol : Option ℝ) :
    ∃ dvol da, weightSeparate V z params patch (some (d : ℕ)) vol = .ok (dvol, da) ∧
      |(weightSeparateF A D detF t ta tb g' z (some (d : ℕ)) vol).1 - dvol| ≤ ((1 + ε) ^ 2 / (2 - (1 + ε) ^ 3 * (1 + δ) ^ 2) - 1) * |dvol| ∧
      |(weightSeparateF A D detF t ta tb g' z (some (d : ℕ)) vol).2 - da| ≤ ((1 + ε) ^ 2 * Δ - 1) * da := by
  have hdn := det_near A D hA hD t ta tb ht hta htb hε hρ hdet z g g' hδ hδ1 hg hG d hd hq
  rw [← hΔ] at hdn
  have hsq := sq_near A D hA hD g g' hδ hg d
  set K := inducedMetric (fsMetricAt z) g (d : ℕ) none with hK
  have hpos := det_induced_pos g z d
  rw [← hK] at hpos
  have hgd : 0 < ‖g d‖ := norm_pos_iff.2 hd
  have e1 : weightSeparate V z params patch (some (d : ℕ)) vol =
      .ok ((weightParts g z (some (d : ℕ)) vol).1, (weightParts g z (some (d : ℕ)) vol).2.1) := by
    simp only [weightSeparate, hV]
  refine ⟨_, _, e1, ?_⟩
  rw [weightParts_eq g z (some (d : ℕ)) d rfl vol]
  have h1ε : 1 ≤ 1 + ε := by linarith [hA.nonneg]
  have hsq0 : ((‖g d‖ ^ 2 : ℝ) : ℂ) ≠ 0 := by exact_mod_cast (pow_pos hgd 2).ne'
  have hsqn : ‖((‖g d‖ ^ 2 : ℝ) : ℂ)‖ = ‖g d‖ ^ 2 := by rw [Complex.norm_real, Real.norm_of_nonneg (by positivity)]
  have hdv := (NearG.refl (1 : ℂ)).div hA.nonneg hD (by rw [hsqn]; exact hsq) hsq0 hW
  rw [norm_one, hsqn] at hdv
  have hone : (1 : ℂ) / ((‖g d‖ ^ 2 : ℝ) : ℂ) = ((1 / ‖g d‖ ^ 2 : ℝ) : ℂ) := by push_cast; rfl
  rw [hone] at hdv
  have hDp : 0 < 2 - (1 + ε) ^ 3 * (1 + δ) ^ 2 := by linarith
  cases vol with
  | none =>
    have hp : weightSeparateF A D detF t ta tb g' z (some (d : ℕ)) none =
        ((D.div 1 (intPow A.mul (D.abs (g' d)) 2)).re, ((detF (inducedF A D t ta tb g' z (d : ℕ))).re : ℂ).re) := by
      simp only [weightSeparateF, weightPartsF, chooseDepF, Util.pop_fst]
    rw [hp]
    have h2 := (hdv.re.mono (H := (1 + ε) ^ 2 / (2 - (1 + ε) ^ 3 * (1 + δ) ^ 2)) (by
      rw [mul_one_div]
      exact div_le_div_of_nonneg_right (by nlinarith) hDp.le)).err
    have h3 := (hdn.mono (H := (1 + ε) ^ 2 * Δ) (by
      exact le_mul_of_one_le_left (zero_le_one.trans hdn.one_le) (one_le_pow₀ h1ε))).err
    rw [← Complex.ofReal_sub, Complex.norm_real] at h2 h3
    refine ⟨?_, h3⟩
    rw [abs_of_pos (show 0 < 1 / ‖g d‖ ^ 2 by positivity)]
    exact h2
  | some v =>
    have hp : weightSeparateF A D detF t ta tb g' z (some (d : ℕ)) (some v) =
        ((A.mul (D.div 1 (intPow A.mul (D.abs (g' d)) 2)) v).re,
          (A.mul ((detF (inducedF A D t ta tb g' z (d : ℕ))).re : ℂ) (A.const (n.factorial / Real.pi ^ n))).re) := by
      simp only [weightSeparateF, weightPartsF, chooseDepF, Util.pop_fst]
    rw [hp]
    have h2 := hdv.mul hA (NearG.refl (v : ℂ))
    rw [← Complex.ofReal_mul, Complex.norm_real] at h2
    have h2 := h2.re.err
    have h3 := (const_near (n := n) A hA hdn).re.err
    rw [← Complex.ofReal_sub, Complex.norm_real] at h2 h3
    refine ⟨?_, ?_⟩
    · rw [abs_mul, abs_of_pos (show 0 < 1 / ‖g d‖ ^ 2 by positivity)]
      refine h2.trans (le_of_eq ?_)
      rw [Real.norm_eq_abs]
      congr 2
      field_simp
    · exact h3

/-- **C166, weights.** The computed weight has a relative error of at most `(1 + ε) / (2 - W) - 1` with `W = (1 + ε)^6 (1 + δ)^2 Δ < 2`.
Without a given dependent coordinate, the one chosen by the rounded absolute values may be taken with
`q = (1 + δ) (1 + ε) / ((1 - δ) (1 - ε))`, about one. -/
theorem C166_weight (V : HomKind) (params : Val) (patch : Option PatchArg) (hV : gradDefining V z params patch = .ok g)
    (dep : Option (Fin (n + 1))) (hdep : ∀ d, dep = some d → g d ≠ 0 ∧ ∀ i, ‖g i‖ ≤ q * ‖g d‖)
    (hnone : dep = none → g ≠ 0 ∧ q = (1 + δ) * (1 + ε) / ((1 - δ) * (1 - ε)))
    {W : ℝ} (hW : W = (1 + ε) ^ 6 * (1 + δ) ^ 2 * Δ) (hW2 : W < 2) (vol : Option ℝ) :
    ∃ w, weight V z params patch (dep.map fun d : Fin (n + 1) => ((d : ℕ) : ℤ)) vol = .ok w ∧ 0 < w ∧
      |weightF A D detF t ta tb g' z (dep.map fun d : Fin (n + 1) => ((d : ℕ) : ℤ)) vol - w| ≤ ((1 + ε) / (2 - W) - 1) * w := by
  obtain ⟨d, hch, hd, hq⟩ : ∃ d : Fin (n + 1), chooseDepF D g' (dep.map fun d : Fin (n + 1) => ((d : ℕ) : ℤ)) = ((d : ℕ) : ℤ) ∧ g d ≠ 0 ∧
      ∀ i, ‖g i‖ ≤ q * ‖g d‖ := by
    cases dep with
    | some d => exact ⟨d, rfl, hdep d rfl⟩
    | none =>
      obtain ⟨hg0, hq0⟩ := hnone rfl
      have h1 : ε < 1 := by
        have h2 : (1 + ε) ^ 1 ≤ (1 + ε) ^ (2 * t.depth + 5) := pow_le_pow_right₀ (by linarith [hA.nonneg]) (by omega)
        rw [pow_one] at h2
        linarith
      set d := argmax fun i => D.abs (g' i) with hdd
      have h2 := (C162_argmax D ε h1 hD g').1
      rw [← hdd] at h2
      have h3 : ∀ i, ‖g i‖ ≤ q * ‖g d‖ := by
        intro i
        have e1 : (1 - δ) * ‖g i‖ ≤ ‖g' i‖ := by
          have := norm_sub_norm_le (g i) (g' i)
          rw [norm_sub_rev] at this
          have := hg i
          unfold RelErr at this
          linarith
        have e2 : ‖g' d‖ ≤ (1 + δ) * ‖g d‖ := by
          have := norm_sub_norm_le (g' d) (g d)
          have := hg d
          unfold RelErr at this
          linarith
        have e3 : (1 - δ) * ‖g i‖ ≤ (1 + ε) / (1 - ε) * ((1 + δ) * ‖g d‖) :=
          e1.trans ((h2 i).trans (mul_le_mul_of_nonneg_left e2 (div_nonneg (by linarith [hA.nonneg]) (by linarith))))
        have p1 : 0 < 1 - δ := by linarith
        have p2 : 0 < 1 - ε := by linarith
        rw [hq0, div_mul_eq_mul_div, le_div_iff₀ (by positivity)]
        rw [div_mul_eq_mul_div, le_div_iff₀ p2] at e3
        linarith
      refine ⟨d, rfl, fun hc => hg0 ?_, h3⟩
      funext i
      have := h3 i
      rw [hc, norm_zero, mul_zero] at this
      simpa using this
  have hdn := det_near A D hA hD t ta tb ht hta htb hε hρ hdet z g g' hδ hδ1 hg hG d hd hq
  rw [← hΔ] at hdn
  have hsq := sq_near A D hA hD g g' hδ hg d
  have hpos := det_induced_pos g z d
  have hgd : 0 < ‖g d‖ := norm_pos_iff.2 hd
  have hw : weight V z params patch (dep.map fun d : Fin (n + 1) => ((d : ℕ) : ℤ)) vol = weight V z params patch (some (d : ℕ)) vol := by
    cases dep with
    | none => exact C30_automatic V z params patch g hV d hd vol
    | some d' =>
      have : ((d' : ℕ) : ℤ) = ((d : ℕ) : ℤ) := hch
      rw [Option.map_some, this]
  have e1 : weight V z params patch (some (d : ℕ)) vol =
      .ok (1 / ((weightParts g z (some (d : ℕ)) vol).2.1 * (weightParts g z (some (d : ℕ)) vol).2.2)) := by
    simp only [weight, hV]
  rw [hw, e1]
  rw [weightParts_eq g z (some (d : ℕ)) d rfl vol]
  have h1ε : 1 ≤ 1 + ε := by linarith [hA.nonneg]
  set K := inducedMetric (fsMetricAt z) g (d : ℕ) none with hK
  have fin : ∀ {y : ℂ} {x : ℝ}, 0 < x → NearG ((1 + ε) ^ 2 * Δ) y (x : ℂ) x →
      0 < 1 / (x * ‖g d‖ ^ 2) ∧ |(D.div 1 (A.mul y (intPow A.mul (D.abs (g' d)) 2))).re - 1 / (x * ‖g d‖ ^ 2)| ≤
        ((1 + ε) / (2 - W) - 1) * (1 / (x * ‖g d‖ ^ 2)) := by
    intro y x hx h
    have hx' : 0 < x * ‖g d‖ ^ 2 := by positivity
    have h1 := h.mul hA hsq
    have e2 : (1 + ε) * ((1 + ε) ^ 2 * Δ * ((1 + ε) ^ 3 * (1 + δ) ^ 2)) = W := by rw [hW]; ring
    rw [e2, ← Complex.ofReal_mul] at h1
    have e3 : ‖((x * ‖g d‖ ^ 2 : ℝ) : ℂ)‖ = x * ‖g d‖ ^ 2 := by rw [Complex.norm_real, Real.norm_of_nonneg hx'.le]
    have h1 : NearG W (A.mul y (intPow A.mul (D.abs (g' d)) 2)) ((x * ‖g d‖ ^ 2 : ℝ) : ℂ) ‖((x * ‖g d‖ ^ 2 : ℝ) : ℂ)‖ := by
      rw [e3]; exact h1
    have h2 := (NearG.refl (1 : ℂ)).div hA.nonneg hD h1 (by exact_mod_cast hx'.ne') hW2
    rw [norm_one, e3] at h2
    have hone : (1 : ℂ) / ((x * ‖g d‖ ^ 2 : ℝ) : ℂ) = ((1 / (x * ‖g d‖ ^ 2) : ℝ) : ℂ) := by push_cast; rfl
    rw [hone] at h2
    have h3 := h2.re.err
    rw [← Complex.ofReal_sub, Complex.norm_real, mul_one_div (1 + ε)] at h3
    exact ⟨by positivity, h3⟩
  cases vol with
  | none =>
    have hp : weightF A D detF t ta tb g' z (dep.map fun d : Fin (n + 1) => ((d : ℕ) : ℤ)) none =
        (D.div 1 (A.mul ((detF (inducedF A D t ta tb g' z (d : ℕ))).re : ℂ) (intPow A.mul (D.abs (g' d)) 2))).re := by
      simp only [weightF, weightPartsF, hch, Util.pop_fst]
    rw [hp]
    exact ⟨_, rfl, fin hpos (hdn.mono (by
      exact le_mul_of_one_le_left (zero_le_one.trans hdn.one_le) (one_le_pow₀ h1ε)))⟩
  | some v =>
    have hp : weightF A D detF t ta tb g' z (dep.map fun d : Fin (n + 1) => ((d : ℕ) : ℤ)) (some v) =
        (D.div 1 (A.mul (A.mul ((detF (inducedF A D t ta tb g' z (d : ℕ))).re : ℂ) (A.const (n.factorial / Real.pi ^ n)))
          (intPow A.mul (D.abs (g' d)) 2))).re := by
      simp only [weightF, weightPartsF, hch, Util.pop_fst]
    rw [hp]
    exact ⟨_, rfl, fin (mul_pos hpos (by positivity)) (const_near (n := n) A hA hdn)⟩

end Weights

/-- **C166.** In exact arithmetic, with the exact determinant, these are the programs of C30 and C31. -/
theorem C166_exact (t ta tb : RTree (Fin (n + 1))) (ht : t.Covers) (hta : ta.Covers) (htb : tb.Covers) (V : HomKind)
    (z g : Fin (n + 1) → ℂ) (params : Val) (patch : Option PatchArg) (hV : gradDefining V z params patch = .ok g) (dep : Option ℤ)
    (vol : Option ℝ) :
    weight V z params patch dep vol = .ok (weightF Fl.exact exactDivAbs Matrix.det t ta tb g z dep vol) ∧
    weightSeparate V z params patch dep vol = .ok (weightSeparateF Fl.exact exactDivAbs Matrix.det t ta tb g z dep vol) := by
  have hmul : ∀ {l m k : ℕ} (t : RTree (Fin m)), t.Covers → ∀ (X : Matrix (Fin l) (Fin m) ℂ) (Y : Matrix (Fin m) (Fin k) ℂ),
      matMulF Fl.exact t X Y = X * Y := by
    intro l m k t ht X Y
    ext i j
    exact (RTree.eval_add t _).trans (ht.sum _)
  have hch : chooseDepF exactDivAbs g dep = chooseDep g dep := by cases dep <;> rfl
  have hparts : weightPartsF Fl.exact exactDivAbs Matrix.det t ta tb g z dep vol =
      (((weightParts g z dep vol).1 : ℂ), ((weightParts g z dep vol).2.1 : ℂ), ((weightParts g z dep vol).2.2 : ℂ)) := by
    have hind : ∀ J : Matrix (Fin n) (Fin (n + 1)) ℂ,
        J = Util.insertCol1 (fun i j : Fin n => if i = j then (1 : ℂ) else 0)
          (fun i => -(Util.pop g (chooseDep g dep)).2 i / (Util.pop g (chooseDep g dep)).1) (chooseDep g dep) →
        inducedF Fl.exact exactDivAbs t ta tb g z (chooseDep g dep) = J * fsMetricAt z * J.conjTranspose := by
      rintro J rfl
      simp only [inducedF, hmul tb htb, (C162_exact t ht z 0 true 0 0).2.2.2.1]
      exact congrArg (fun M : Matrix _ _ ℂ => M * _) (hmul ta hta _ _)
    have hind := hind _ rfl
    simp only [weightPartsF, weightParts, hch, hind, intPow_two]
    cases vol <;> simp only [Fl.exact, exactDivAbs] <;> push_cast <;> simp only [sq]
  constructor
  · simp only [weight, hV, weightF, hparts]
    simp only [Fl.exact, exactDivAbs]
    rw [← Complex.ofReal_mul, ← Complex.ofReal_one, ← Complex.ofReal_div, Complex.ofReal_re]
  · simp only [weightSeparate, hV, weightSeparateF, hparts, Complex.ofReal_re]

/-- The exact determinant is stable, and so is one with a relative error in the first row. -/
example : DetStable (Matrix.det : Matrix (Fin 3) (Fin 3) ℂ → ℂ) 0 ∧
    DetStable (fun X : Matrix (Fin 3) (Fin 3) ℂ => (1 + 1 / 1000) * X.det) (1 / 1000) := by
  constructor
  · exact fun X b _ => ⟨0, fun i j => by simp, by simp⟩
  · refine fun X b hX => ⟨Matrix.of fun i j => if i = 0 then 1 / 1000 * X i j else 0, fun i j => ?_, ?_⟩
    · rw [Matrix.of_apply]
      split_ifs with h
      · rw [norm_mul]
        norm_num
        exact hX i j
      · rw [norm_zero]
        have := (norm_nonneg _).trans (hX i j)
        positivity
    · have : (X + Matrix.of fun i j => if i = 0 then 1 / 1000 * X i j else 0) =
          Matrix.updateRow X 0 ((1 + 1 / 1000 : ℂ) • X 0) := by
        ext i j
        by_cases h : i = 0
        · subst h; simp; ring
        · simp [h, Matrix.updateRow_apply]
      rw [this, Matrix.det_updateRow_smul, Matrix.updateRow_eq_self]

/-- A threefold in double precision, at points of the patch of the largest coordinate, with a gradient of relative error `10^(-12)` and a
determinant of backward error `10^(-13)`: the relative error of the weights is at most `10^(-8)`. -/
example (V : HomKind) (z g g' : Fin 4 → ℂ) (params : Val) (patch : Option PatchArg) (hV : gradDefining V z params patch = .ok g)
    (hg0 : g ≠ 0) (hz : ∀ k, ‖z k‖ ≤ 1) (hg : ∀ i, RelErr (10 ^ (-(12 : ℤ))) (g' i) (g i)) (detF : Matrix (Fin 3) (Fin 3) ℂ → ℂ)
    (hdet : DetStable detF (10 ^ (-(13 : ℤ)))) (t : RTree (Fin 4)) (ht : t = .node (.node (.leaf 0) (.leaf 1)) (.node (.leaf 2) (.leaf 3))) :
    ∃ w, weight V z params patch none (some 1) = .ok w ∧ 0 < w ∧
      |weightF (ofRounding (rnd 53)) (divAbsOfRounding (rnd 53)) detF t t t g' z none (some 1) - w| ≤ 10 ^ (-(8 : ℤ)) * w := by
  have hc : t.Covers := by rw [ht]; unfold RTree.Covers; decide
  have hdp : t.depth = 2 := by rw [ht]; rfl
  obtain ⟨s, hsd⟩ : ∃ s : ℝ, s = 1 + ∑ k, ‖z k‖ ^ 2 := ⟨_, rfl⟩
  have hs : s ≤ 5 := by
    have : ∀ k, ‖z k‖ ^ 2 ≤ 1 := fun k => pow_le_one₀ (norm_nonneg _) (hz k)
    rw [hsd, Fin.sum_univ_four]
    linarith [this 0, this 1, this 2, this 3]
  have hs0 : 0 ≤ s := by rw [hsd]; positivity
  obtain ⟨G, hG⟩ : ∃ x : ℝ, x = (1 + 4 * 2 ^ (-(53 : ℤ))) ^ (t.depth + t.depth + 2) *
    (((1 + 4 * 2 ^ (-(53 : ℤ))) * ((1 + 10 ^ (-(12 : ℤ))) / (1 - 10 ^ (-(12 : ℤ))))) ^ 2 *
      ((1 + 4 * 2 ^ (-(53 : ℤ))) ^ (t.depth + 5) / (2 - (1 + 4 * 2 ^ (-(53 : ℤ))) ^ (2 * t.depth + 5)))) := ⟨_, rfl⟩
  obtain ⟨q, hq⟩ : ∃ x : ℝ, x = (1 + 10 ^ (-(12 : ℤ))) * (1 + 4 * 2 ^ (-(53 : ℤ))) / ((1 - 10 ^ (-(12 : ℤ))) * (1 - 4 * 2 ^ (-(53 : ℤ)))) := ⟨_, rfl⟩
  have hG1 : 0 ≤ G * (1 + 10 ^ (-(13 : ℤ))) - 1 ∧ G * (1 + 10 ^ (-(13 : ℤ))) - 1 ≤ 6 * 10 ^ (-(12 : ℤ)) := by
    rw [hG, hdp]
    norm_num [zpow_neg]
  have hq1 : 0 ≤ q ∧ q ≤ 1 + 10 ^ (-(6 : ℤ)) := by
    rw [hq]
    norm_num [zpow_neg]
  obtain ⟨Δ, hΔ⟩ : ∃ x : ℝ, x = (1 + (3 : ℕ) ^ 2 * (G * (1 + 10 ^ (-(13 : ℤ))) - 1) * (2 * (1 + q) ^ 2 * s)) ^ 3 := ⟨_, rfl⟩
  have hΔ1 : 0 ≤ Δ ∧ Δ ≤ (1 + 22 * 10 ^ (-(10 : ℤ))) ^ 3 := by
    have h1 : 2 * (1 + q) ^ 2 * s ≤ 2 * (2 + 10 ^ (-(6 : ℤ))) ^ 2 * 5 := by
      have : (1 + q) ^ 2 ≤ (2 + 10 ^ (-(6 : ℤ))) ^ 2 := by
        refine pow_le_pow_left₀ (by linarith [hq1.1]) ?_ 2
        linarith [hq1.2]
      exact mul_le_mul (by linarith) hs hs0 (by positivity)
    have h2 : ((3 : ℕ) : ℝ) ^ 2 * (G * (1 + 10 ^ (-(13 : ℤ))) - 1) * (2 * (1 + q) ^ 2 * s) ≤ 22 * 10 ^ (-(10 : ℤ)) := by
      calc _ ≤ ((3 : ℕ) : ℝ) ^ 2 * (6 * 10 ^ (-(12 : ℤ))) * (2 * (2 + 10 ^ (-(6 : ℤ))) ^ 2 * 5) := by
            refine mul_le_mul (mul_le_mul_of_nonneg_left hG1.2 (by positivity)) h1 (by positivity) (by positivity)
        _ ≤ _ := by norm_num [zpow_neg]
    have h3 : 0 ≤ ((3 : ℕ) : ℝ) ^ 2 * (G * (1 + 10 ^ (-(13 : ℤ))) - 1) * (2 * (1 + q) ^ 2 * s) :=
      mul_nonneg (mul_nonneg (by positivity) hG1.1) (by positivity)
    exact hΔ ▸ ⟨pow_nonneg (by linarith) 3, pow_le_pow_left₀ (by linarith) (by linarith) 3⟩
  obtain ⟨W, hW⟩ : ∃ x : ℝ, x = (1 + 4 * 2 ^ (-(53 : ℤ))) ^ 6 * (1 + 10 ^ (-(12 : ℤ))) ^ 2 * Δ := ⟨_, rfl⟩
  have hW1 : W ≤ 1 + 8 * 10 ^ (-(9 : ℤ)) := by
    rw [hW]
    calc _ ≤ (1 + 4 * 2 ^ (-(53 : ℤ))) ^ 6 * (1 + 10 ^ (-(12 : ℤ))) ^ 2 * (1 + 22 * 10 ^ (-(10 : ℤ))) ^ 3 :=
          mul_le_mul_of_nonneg_left hΔ1.2 (by positivity)
      _ ≤ _ := by norm_num [zpow_neg]
  have h10 : (8 : ℝ) * 10 ^ (-(9 : ℤ)) < 1 := by norm_num [zpow_neg]
  subst hsd
  obtain ⟨w, h1, h2, h3⟩ := C166_weight _ _ (C159_floats 53 (by norm_num)).2 (C161_floats 53) t t t hc hc hc
    (by rw [hdp]; norm_num [zpow_neg]) (by positivity) hdet z g g' (by positivity) (by norm_num [zpow_neg]) hg hG hΔ V params patch hV none
    (by simp) (fun _ => ⟨hg0, hq⟩) hW (by linarith) (some 1)
  refine ⟨w, h1, h2, h3.trans (mul_le_mul_of_nonneg_right ?_ h2.le)⟩
  rw [sub_le_iff_le_add, div_le_iff₀ (by linarith)]
  calc (1 : ℝ) + 4 * 2 ^ (-(53 : ℤ)) ≤ (10 ^ (-(8 : ℤ)) + 1) * (1 - 8 * 10 ^ (-(9 : ℤ))) := by norm_num [zpow_neg]
    _ ≤ _ := mul_le_mul_of_nonneg_left (by linarith) (by positivity)

end Cyjax
