import Verif.Lemmas.StepErrors
import Verif.Props.DonaldsonStep
import Verif.Model.AlgebraicMetric

/-! # Errors in Donaldson's algorithm do not grow (C164) -/

namespace Cyjax

open Cyjax.Donaldson Cyjax.Spec
open Cyjax.Polynomial (PyErr)
open scoped ComplexConjugate ComplexOrder

variable {N B M : ℕ}

private theorem herm_add {H : Matrix (Fin N) (Fin N) ℂ} (hH : H.PosDef) : (H + H.conjTranspose).PosDef := by
  rw [hH.isHermitian.eq]
  exact hH.add hH

section Step

variable {mon : Fin B → Fin M → Fin N → ℂ} (hmon : ∀ i k, mon i k ≠ 0) {w : Fin B → Fin M → ℝ} (hw : ∀ i k, 0 ≤ w i k)
  (hspan : ∀ c : Fin N → ℂ, (∀ i k, 0 < w i k → ∑ a, c a * mon i k a = 0) → c = 0)

include hmon hw hspan

/-- **C164.** A step keeps the order of matrices: if `H ≤ K`, the new matrices, with the same points, have the same order. -/
theorem C164_monotone {H K : Matrix (Fin N) (Fin N) ℂ} (hH : H.PosDef) (hHK : (K - H).PosSemidef) {vol : ℝ} (hvol : 0 < vol) :
    ∃ H' K', donaldsonStep .complex H vol mon w = .ok H' ∧ donaldsonStep .complex K vol mon w = .ok K' ∧ H'.PosDef ∧
      (K' - H').PosSemidef := by
  have hK : K.PosDef := by
    have := hH.add_posSemidef hHK
    rwa [add_sub_cancel] at this
  have hT := C74_invertible H (herm_add hH) vol hvol mon hmon w hw hspan
  have hT' := C74_invertible K (herm_add hK) vol hvol mon hmon w hw hspan
  refine ⟨_, _, rfl, rfl, hT.inv.transpose, ?_⟩
  rw [sub_psd_iff hT.inv.transpose.isHermitian hT'.inv.transpose.isHermitian]
  intro u
  have := qf_step_le hH hK hvol hvol one_pos one_pos one_pos hmon hw (w' := w)
    (fun u => by rw [one_mul]; exact (sub_psd_iff hH.isHermitian hK.isHermitian).1 hHK u) (fun i k => (one_mul _).ge)
    (one_mul _).ge hT hT' u
  simpa using this

/-- **C164.** Relative errors of the matrix, the weights and the volume are passed on, but not increased: if the two matrices
agree up to the factor `c`, the weights up to `ρ` and the volumes up to `σ`, then the new matrices agree up to `c ρ σ`. -/
theorem C164_inputs {H K : Matrix (Fin N) (Fin N) ℂ} (hH : H.PosDef) (hK : K.PosDef) {vol vol' c ρ σ : ℝ} (hvol : 0 < vol)
    (hvol' : 0 < vol') (hc : 0 < c) (hρ : 0 < ρ) (hσ : 0 < σ) {w' : Fin B → Fin M → ℝ} (hHK : WithinFactor c H K)
    (hww : ∀ i k, w i k ≤ ρ * w' i k ∧ w' i k ≤ ρ * w i k) (hv : vol ≤ σ * vol' ∧ vol' ≤ σ * vol) :
    ∃ H' K', donaldsonStep .complex H vol mon w = .ok H' ∧ donaldsonStep .complex K vol' mon w' = .ok K' ∧ H'.PosDef ∧ K'.PosDef ∧
      WithinFactor (c * ρ * σ) H' K' := by
  have hw' : ∀ i k, 0 ≤ w' i k := fun i k => nonneg_of_mul_nonneg_right ((hw i k).trans (hww i k).1) hρ
  have hspan' : ∀ c : Fin N → ℂ, (∀ i k, 0 < w' i k → ∑ a, c a * mon i k a = 0) → c = 0 := fun c h => hspan c fun i k h0 =>
    h i k (pos_of_mul_pos_right (h0.trans_le (hww i k).1) hρ.le)
  have hT := C74_invertible H (herm_add hH) vol hvol mon hmon w hw hspan
  have hT' := C74_invertible K (herm_add hK) vol' hvol' mon hmon w' hw' hspan'
  refine ⟨_, _, rfl, rfl, hT.inv.transpose, hT'.inv.transpose, ?_⟩
  rw [within_iff hT.inv.transpose.isHermitian hT'.inv.transpose.isHermitian]
  obtain ⟨h1, h2⟩ := (within_iff hH.isHermitian hK.isHermitian).1 hHK
  exact ⟨qf_step_le hH hK hvol hvol' hc hρ hσ hmon hw h1 (fun i k => (hww i k).2) hv.1 hT hT',
    qf_step_le hK hH hvol' hvol hc hρ hσ hmon hw' h2 (fun i k => (hww i k).1) hv.2 hT' hT⟩

end Step

/-- **C164, iteration.** Let `h` be the matrices of Donaldson's algorithm and `g` matrices computed with errors: the Hermitian part of
`g (j + 1)` agrees with the exact step from `g j` up to the factor `c j`. The points, weights and volumes may be others in every
step. Then the errors at most accumulate: after `k` steps the factor is the product of the initial one and of those of the steps. -/
theorem C164_iteration (mon : ℕ → Fin B → Fin M → Fin N → ℂ) (w : ℕ → Fin B → Fin M → ℝ) (vol : ℕ → ℝ)
    (hmon : ∀ j i k, mon j i k ≠ 0) (hw : ∀ j i k, 0 ≤ w j i k) (hvol : ∀ j, 0 < vol j)
    (hspan : ∀ j, ∀ c : Fin N → ℂ, (∀ i k, 0 < w j i k → ∑ a, c a * mon j i k a = 0) → c = 0)
    (h g : ℕ → Matrix (Fin N) (Fin N) ℂ) (c₀ : ℝ) (c : ℕ → ℝ) (hc₀ : 0 < c₀) (hc : ∀ j, 0 < c j) (h0 : (h 0).PosDef)
    (hg0 : WithinFactor c₀ (symmetrise (g 0)) (h 0))
    (hh : ∀ j, donaldsonStep .complex (h j) (vol j) (mon j) (w j) = .ok (h (j + 1)))
    (hg : ∀ j, ∃ e, donaldsonStep .complex (g j) (vol j) (mon j) (w j) = .ok e ∧
      WithinFactor (c j) (symmetrise (g (j + 1))) e) (k : ℕ) :
    (h k).PosDef ∧ WithinFactor (c₀ * ∏ j ∈ Finset.range k, c j) (symmetrise (g k)) (h k) := by
  induction k with
  | zero => exact ⟨h0, by simpa using hg0⟩
  | succ k ih =>
    obtain ⟨ihp, ihw⟩ := ih
    have hcp : 0 < c₀ * ∏ j ∈ Finset.range k, c j := mul_pos hc₀ (Finset.prod_pos fun j _ => hc j)
    have hgp := within_posDef hcp ihp ihw
    obtain ⟨H', K', h1, h2, h3, h4, h5⟩ := C164_inputs (hmon k) (hw k) (hspan k) hgp ihp (hvol k) (hvol k) hcp one_pos one_pos
      (w' := w k) ihw (fun i j => ⟨(one_mul _).ge, (one_mul _).ge⟩) ⟨(one_mul _).ge, (one_mul _).ge⟩
    rw [hh k] at h2
    cases h2
    obtain ⟨e, h6, h7⟩ := hg k
    have h8 : donaldsonStep .complex (symmetrise (g k)) (vol k) (mon k) (w k) =
        donaldsonStep .complex (g k) (vol k) (mon k) (w k) := by
      simp only [donaldsonStep, stepT_symmetrise]
    rw [h8, h6] at h1
    cases h1
    refine ⟨h4, ?_⟩
    rw [mul_one, mul_one] at h5
    rw [Finset.prod_range_succ, ← mul_assoc, mul_comm]
    exact within_trans (hc k) hcp (symmetrise_isHermitian _) h3.isHermitian h4.isHermitian h7 h5

/-- **C164, errors of the entries.** If `H ≥ m` and the entries of a computed matrix have errors of at most `ε < m / N`, its
Hermitian part is positive definite and agrees with `H` up to the factor `1 / (1 - N ε / m)`. -/
theorem C164_entries {G H : Matrix (Fin N) (Fin N) ℂ} {m ε : ℝ} (hm : 0 < m) (hε : N * ε < m)
    (hH : (H - (m : ℂ) • (1 : Matrix (Fin N) (Fin N) ℂ)).PosSemidef) (h : ∀ a b, ‖G a b - H a b‖ ≤ ε) :
    (symmetrise G).PosDef ∧ WithinFactor (1 - N * ε / m)⁻¹ (symmetrise G) H := by
  have h1 : ((m : ℂ) • (1 : Matrix (Fin N) (Fin N) ℂ)).IsHermitian := smul_isHermitian m Matrix.isHermitian_one
  have hHh : H.IsHermitian := by
    have := hH.isHermitian.add h1
    rwa [sub_add_cancel] at this
  have hlo : ∀ u, m * qf 1 u ≤ qf H u := by
    have := (sub_psd_iff h1 hHh).1 hH
    simpa only [qf_smul] using this
  have hw : WithinFactor (1 - N * ε / m)⁻¹ (symmetrise G) H :=
    (within_iff (symmetrise_isHermitian G) hHh).2 (within_of_entries hm hε hHh hlo (symmetrise_isHermitian G)
      (symmetrise_entries hHh h))
  exact ⟨within_posDef (inv_pos.2 (sub_pos.2 ((div_lt_one hm).2 hε))) (posDef_of_le hHh hm hlo) hw, hw⟩

/-- **C164.** The Kähler potentials of matrices that agree up to the factor `c` differ by at most `log c / (π k)`, at every point. -/
theorem C164_potential {H K : Matrix (Fin N) (Fin N) ℂ} (hH : H.PosDef) (hK : K.PosDef) {c : ℝ} (hHK : WithinFactor c H K)
    {s : Fin N → ℂ} (hs : s ≠ 0) {k : ℕ} (hk : k ≠ 0) :
    ‖kahler (psi (.full H) s (conjS s)) k - kahler (psi (.full K) s (conjS s)) k‖ ≤ Real.log c / (Real.pi * k) := by
  have h1 := stepDen_pos hH hs
  have h2 := stepDen_pos hK hs
  obtain ⟨h3, h4⟩ := (within_iff hH.isHermitian hK.isHermitian).1 hHK
  have h5 := h3 (star s)
  have h6 := h4 (star s)
  rw [← stepDen_qf, ← stepDen_qf] at h5 h6
  have hc : 0 < c := pos_of_mul_pos_left (h1.trans_le h5) h2.le
  have hpk : 0 < Real.pi * k := mul_pos Real.pi_pos (Nat.cast_pos.2 (Nat.pos_of_ne_zero hk))
  have e : kahler (psi (.full H) s (conjS s)) k - kahler (psi (.full K) s (conjS s)) k =
      (((Real.log (stepDen H s) - Real.log (stepDen K s)) / (Real.pi * k) : ℝ) : ℂ) := by
    rw [← stepDen_eq hH.isHermitian, ← stepDen_eq hK.isHermitian, kahler, kahler, ← Complex.ofReal_log h1.le,
      ← Complex.ofReal_log h2.le]
    push_cast
    ring
  rw [e, Complex.norm_real, Real.norm_eq_abs, abs_div, abs_of_pos hpk]
  refine div_le_div_of_nonneg_right ?_ hpk.le
  have h7 := Real.log_le_log h1 h5
  have h8 := Real.log_le_log h2 h6
  rw [Real.log_mul hc.ne' h2.ne'] at h7
  rw [Real.log_mul hc.ne' h1.ne'] at h8
  exact abs_le.2 ⟨by linarith, by linarith⟩

/-- **C164.** The same for the method `kahler_potential` of the metric, for affine or homogeneous coordinates. -/
theorem C164_method {n : ℕ} (A : AlgebraicMetric (n + 1)) {H K : A.H} (hH : H.PosDef) (hK : K.PosDef) {c : ℝ} (hc : 1 ≤ c)
    (hHK : WithinFactor c H K) (hk : A.sections.degree ≠ 0) (zs : List ℂ) (patch : Option ℕ) {x y : ℂ}
    (hx : A.kahlerPotential H zs patch = .ok x) (hy : A.kahlerPotential K zs patch = .ok y) :
    ‖x - y‖ ≤ Real.log c / (Real.pi * A.sections.degree) := by
  simp only [AlgebraicMetric.kahlerPotential] at hx hy
  cases h1 : initCoords A.variety zs patch with
  | error e => rw [h1] at hx; exact absurd hx (by simp [bind, Except.bind])
  | ok zp =>
    obtain ⟨z, p⟩ := zp
    rw [h1] at hx hy
    simp only [bind, Except.bind] at hx hy
    cases h2 : asArray (n + 1) z with
    | error e => rw [h2] at hx; exact absurd hx (by simp)
    | ok z =>
      rw [h2] at hx hy
      simp only [pure, Except.pure, Except.ok.injEq] at hx hy
      rw [← hx, ← hy, Graph.kahler, Graph.kahler, Graph.psi, Graph.psi, AlgebraicMetric.degree]
      by_cases hs : (sectionsJet A.sections p z).s = 0
      · have h0 : ∀ L : A.H, psi (.full L) (sectionsJet A.sections p z).s (conjS (sectionsJet A.sections p z).s) = 0 := by
          intro L
          rw [hs]
          simp [psi]
        rw [h0, h0, sub_self, norm_zero]
        exact div_nonneg (Real.log_nonneg hc) (by positivity)
      · exact C164_potential hH hK hHK hs hk

/-! Two sections, two points, at each of which one of the sections vanishes: every diagonal matrix is balanced. A computation that is
wrong by a factor of two in each step: after `k` steps the factor is `2 ^ k`. -/

private def exMon : Fin 1 → Fin 2 → Fin 2 → ℂ := fun _ k => Pi.single k 1

private theorem exMon_ne (i : Fin 1) (k : Fin 2) : exMon i k ≠ 0 := fun h => by
  have := congrFun h k
  simp [exMon] at this

private theorem exMon_span (c : Fin 2 → ℂ) (h : ∀ (i : Fin 1) (k : Fin 2), (0 : ℝ) < 1 → ∑ a, c a * exMon i k a = 0) : c = 0 := by
  funext k
  have := h 0 k one_pos
  simpa [exMon, Pi.single_apply] using this

private theorem exPos {t : ℝ} (ht : 0 < t) : ((t : ℂ) • (1 : Matrix (Fin 2) (Fin 2) ℂ)).PosDef := posDef_smul_one ht

private theorem exStep {t : ℝ} (ht : 0 < t) : donaldsonStep .complex ((t : ℂ) • (1 : Matrix (Fin 2) (Fin 2) ℂ)) 1 exMon
    (fun _ _ => 1) = .ok ((t : ℂ) • 1) := by
  have hT : stepT ((t : ℂ) • (1 : Matrix (Fin 2) (Fin 2) ℂ)) 1 exMon (fun _ _ => 1) = ((t⁻¹ : ℝ) : ℂ) • 1 := by
    ext a b
    rw [stepT_apply, symmetrise_of_isHermitian (exPos ht).isHermitian]
    have hd : ∀ k, stepDen ((t : ℂ) • (1 : Matrix (Fin 2) (Fin 2) ℂ)) (exMon 0 k) = t := by
      intro k
      simp [stepDen, exMon, Pi.single_apply, Matrix.one_apply]
    simp only [Finset.univ_unique, Fin.default_eq_zero, Finset.sum_singleton, hd, Fin.sum_univ_two]
    fin_cases a <;> fin_cases b <;> simp [exMon]
  have : (((t⁻¹ : ℝ) : ℂ) • (1 : Matrix (Fin 2) (Fin 2) ℂ))⁻¹ = (t : ℂ) • 1 := by
    refine Matrix.inv_eq_right_inv ?_
    rw [smul_mul_smul_comm, ← Complex.ofReal_mul, inv_mul_cancel₀ ht.ne', Complex.ofReal_one, one_smul, one_mul]
  show Except.ok _ = _
  rw [hT, this, Matrix.transpose_smul, Matrix.transpose_one]

example (k : ℕ) : WithinFactor (1 * ∏ _j ∈ Finset.range k, 2) (symmetrise (((2 : ℝ) ^ k : ℝ) • (1 : Matrix (Fin 2) (Fin 2) ℂ)))
    1 := by
  have hs : ∀ k : ℕ, symmetrise (((2 : ℝ) ^ k : ℝ) • (1 : Matrix (Fin 2) (Fin 2) ℂ)) = ((2 ^ k : ℝ) : ℂ) • 1 := fun k =>
    symmetrise_of_isHermitian (exPos (by positivity)).isHermitian
  have hw : ∀ {t : ℝ}, 0 < t → WithinFactor 2 (((2 * t : ℝ) : ℂ) • (1 : Matrix (Fin 2) (Fin 2) ℂ)) ((t : ℂ) • 1) := by
    intro t ht
    rw [within_iff (exPos (by positivity)).isHermitian (exPos ht).isHermitian]
    simp only [qf_smul]
    have : ∀ u : Fin 2 → ℂ, 0 ≤ t * qf 1 u := fun u => mul_nonneg ht.le (by rw [qf_one]; positivity)
    exact ⟨fun u => by linarith [this u], fun u => by linarith [this u]⟩
  refine (C164_iteration (fun _ => exMon) (fun _ _ _ => 1) (fun _ => 1) (fun _ => exMon_ne) (fun _ _ _ => zero_le_one)
    (fun _ => one_pos) (fun _ => exMon_span) (fun _ => 1) (fun k => ((2 : ℝ) ^ k : ℝ) • 1) 1 (fun _ => 2) one_pos
    (fun _ => two_pos) Matrix.PosDef.one ?_ (fun _ => ?_) (fun j => ⟨((2 ^ j : ℝ) : ℂ) • 1, exStep (by positivity), ?_⟩) k).2
  · simp only [hs]
    rw [within_iff (exPos (by positivity)).isHermitian Matrix.isHermitian_one]
    simp
  · have := exStep one_pos
    simpa using this
  · simp only [hs]
    rw [pow_succ, mul_comm]
    exact hw (by positivity)

/-- The errors of `C164_entries`: the matrix `[[1, 0.1], [0, 1]]`. -/
example : (symmetrise !![1, (1 / 10 : ℂ); 0, 1]).PosDef := by
  refine (C164_entries (H := 1) (m := 1) (ε := 1 / 10) one_pos (by norm_num) ?_ ?_).1
  · simpa using Matrix.PosSemidef.zero
  · intro a b
    fin_cases a <;> fin_cases b <;> norm_num

end Cyjax
