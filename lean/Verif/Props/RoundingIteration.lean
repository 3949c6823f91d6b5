import Verif.Lemmas.RoundingIteration

/-! # Donaldson's algorithm in rounded arithmetic (C169) -/

namespace Cyjax

open Cyjax.Donaldson Cyjax.Spec Cyjax.Fl
open Cyjax.Polynomial (PyErr)
open scoped ComplexConjugate ComplexOrder

variable {N B M : ℕ}

private theorem within_linear (H : Matrix (Fin N) (Fin N) ℂ) (hH : H.PosDef) {C : ℝ} (hC : 0 ≤ C) :
    ∃ C' τ₀ : ℝ, 0 ≤ C' ∧ 0 < τ₀ ∧ ∀ τ, 0 ≤ τ → τ ≤ τ₀ → ∀ G : Matrix (Fin N) (Fin N) ℂ, (∀ a b, ‖G a b - H a b‖ ≤ C * τ) →
      (symmetrise G).PosDef ∧ WithinFactor (1 + C' * τ) (symmetrise G) H := by
  rcases Nat.eq_zero_or_pos N with rfl | hN
  · refine ⟨0, 1, le_rfl, one_pos, fun τ _ _ G _ => ?_⟩
    have e : symmetrise G = H := Matrix.ext fun a => a.elim0
    rw [e, zero_mul, add_zero, within_iff hH.isHermitian hH.isHermitian]
    simp [hH]
  have hN' : (0 : ℝ) < N := by exact_mod_cast hN
  obtain ⟨m, hm, hlo⟩ := exists_lower hN.ne' hH
  have hlo' : (H - (m : ℂ) • (1 : Matrix (Fin N) (Fin N) ℂ)).PosSemidef := by
    rw [sub_psd_iff (smul_isHermitian m Matrix.isHermitian_one) hH.isHermitian]
    simpa only [qf_smul] using hlo
  refine ⟨2 * (N * C / m), m / (2 * (N * C + 1)), by positivity, by positivity, fun τ h0 hτ G hG => ?_⟩
  have h1 : N * (C * τ) / m ≤ 1 / 2 := by
    rw [le_div_iff₀ (by positivity)] at hτ
    rw [div_le_iff₀ hm]
    nlinarith
  have h2 : 0 ≤ N * (C * τ) / m := by positivity
  obtain ⟨h3, h4⟩ := C164_entries hm (by rw [div_le_iff₀ hm] at h1; linarith) hlo' hG
  refine ⟨h3, ?_⟩
  have hc : (1 - N * (C * τ) / m)⁻¹ ≤ 1 + 2 * (N * C / m) * τ := by
    have e : 2 * (N * C / m) * τ = 2 * (N * (C * τ) / m) := by ring
    rw [e, inv_le_iff_one_le_mul₀ (by linarith)]
    nlinarith
  obtain ⟨w1, w2⟩ := (within_iff h3.isHermitian hH.isHermitian).1 h4
  rw [within_iff h3.isHermitian hH.isHermitian]
  exact ⟨fun u => (w1 u).trans (mul_le_mul_of_nonneg_right hc ((psd_iff hH.isHermitian).1 hH.posSemidef u)),
    fun u => (w2 u).trans (mul_le_mul_of_nonneg_right hc ((psd_iff h3.isHermitian).1 h3.posSemidef u))⟩

section Iteration

variable {mon : ℕ → Fin B → Fin M → Fin N → ℂ} {w : ℕ → Fin B → Fin M → ℝ} {vol : ℕ → ℝ} (hB : B ≠ 0)
  (hmon : ∀ j i k, mon j i k ≠ 0) (hw : ∀ j i k, 0 ≤ w j i k) (hvol : ∀ j, 0 < vol j)
  (hspan : ∀ j, ∀ c : Fin N → ℂ, (∀ i k, 0 < w j i k → ∑ a, c a * mon j i k a = 0) → c = 0)
  {h : ℕ → Matrix (Fin N) (Fin N) ℂ} (h0 : (h 0).PosDef)
  (hh : ∀ j, donaldsonStep .complex (h j) (vol j) (mon j) (w j) = .ok (h (j + 1)))

include hB hmon hw hvol hspan h0 hh

/-- **C169.** Let `h` be the matrices of Donaldson's algorithm, with any points, weights and volumes in every step. There are constants `C`
and `τ₀ > 0` such that in every arithmetic of accuracy `τ ≤ τ₀`, with a stable inverse and relative errors of the sections, weights and
volumes of at most `τ`, the matrices `g` that are computed instead have errors of at most `C τ` in every entry, for all steps up to step
`k`; their Hermitian parts are positive definite and agree with the exact matrices up to the factor `1 + C τ`. -/
theorem C169_iteration (d k : ℕ) : ∃ C τ₀ : ℝ, 0 ≤ C ∧ 0 < τ₀ ∧ ∀ (τ : ℝ) (A : Arith) (D : DivAbs)
    (inv : Matrix (Fin N) (Fin N) ℂ → Matrix (Fin N) (Fin N) ℂ), τ ≤ τ₀ → A.Accurate τ → D.Accurate τ → InvStable inv τ →
    ∀ c : ℕ → StepInputs N B M, (∀ j < k, (c j).Accurate d τ (mon j) (w j) (vol j)) →
    ∀ g : ℕ → Matrix (Fin N) (Fin N) ℂ, (∀ a b, ‖g 0 a b - h 0 a b‖ ≤ τ) → (∀ j < k, g (j + 1) = (c j).step A D inv (g j)) →
    ∀ j ≤ k, (∀ a b, ‖g j a b - h j a b‖ ≤ C * τ) ∧ (symmetrise (g j)).PosDef ∧ WithinFactor (1 + C * τ) (symmetrise (g j)) (h j) := by
  have hpd : ∀ j, (h j).PosDef := by
    intro j
    induction j with
    | zero => exact h0
    | succ j ih =>
      have hadd : (h j + (h j).conjTranspose).PosDef := by rw [ih.isHermitian.eq]; exact ih.add ih
      have e : donaldsonStep .complex (h j) (vol j) (mon j) (w j) = .ok (stepT (h j) (vol j) (mon j) (w j))⁻¹.transpose := rfl
      have := Except.ok.inj ((hh j).symm.trans e)
      rw [this]
      exact (C74_invertible (h j) hadd (vol j) (hvol j) (mon j) (hmon j) (w j) (hw j) (hspan j)).inv.transpose
  -- the errors of the entries in step `j`
  have key : ∀ j, ∃ C τ₀ : ℝ, 0 ≤ C ∧ 0 < τ₀ ∧ ∀ (τ : ℝ) (A : Arith) (D : DivAbs)
      (inv : Matrix (Fin N) (Fin N) ℂ → Matrix (Fin N) (Fin N) ℂ), τ ≤ τ₀ → A.Accurate τ → D.Accurate τ → InvStable inv τ →
      ∀ c : ℕ → StepInputs N B M, (∀ i < j, (c i).Accurate d τ (mon i) (w i) (vol i)) →
      ∀ g : ℕ → Matrix (Fin N) (Fin N) ℂ, (∀ a b, ‖g 0 a b - h 0 a b‖ ≤ τ) → (∀ i < j, g (i + 1) = (c i).step A D inv (g i)) →
      ∀ a b, ‖g j a b - h j a b‖ ≤ C * τ := by
    intro j
    induction j with
    | zero => exact ⟨1, 1, zero_le_one, one_pos, fun τ A D inv _ _ _ _ c _ g hg _ a b => by rw [one_mul]; exact hg a b⟩
    | succ j ih =>
      obtain ⟨C₀, τ₁, hC₀, hτ₁, H⟩ := ih
      obtain ⟨C, τ₂, hC, hτ₂, S⟩ := step_linear (hmon j) (hw j) (hspan j) (hvol j) hB (hpd j) (hh j) d hC₀
      refine ⟨C, min τ₁ τ₂, hC, lt_min hτ₁ hτ₂, fun τ A D inv hτ hA hD hi c hc g hg hstep => ?_⟩
      have hj := H τ A D inv (hτ.trans (min_le_left _ _)) hA hD hi c (fun i hij => hc i (by omega)) g hg (fun i hij => hstep i (by omega))
      have hcj := hc j (by omega)
      rw [hstep j (by omega)]
      exact S τ A D inv (hτ.trans (min_le_right _ _)) hA hD hi _ _ _ hcj.ta.1 hcj.tb.1 hcj.t.1 hcj.ta.2 hcj.tb.2 hcj.t.2 _ _ _ hcj.mon hcj.w
        hcj.vol _ hj
  choose C τ₀ hC hτ₀ H using key
  choose C' τ' hC' hτ' H' using fun j => within_linear (h j) (hpd j) (hC j)
  have hCs : ∀ j ≤ k, C j ≤ ∑ i ∈ Finset.range (k + 1), (C i + C' i) ∧ C' j ≤ ∑ i ∈ Finset.range (k + 1), (C i + C' i) := by
    intro j hj
    have := Finset.single_le_sum (f := fun i => C i + C' i) (fun i _ => add_nonneg (hC i) (hC' i)) (Finset.mem_range.2 (by omega : j < k + 1))
    constructor <;> linarith [hC j, hC' j]
  have hne : (Finset.range (k + 1)).Nonempty := ⟨0, Finset.mem_range.2 (by omega)⟩
  refine ⟨∑ i ∈ Finset.range (k + 1), (C i + C' i), (Finset.range (k + 1)).inf' hne fun i => min (τ₀ i) (τ' i),
    Finset.sum_nonneg fun i _ => add_nonneg (hC i) (hC' i), (Finset.lt_inf'_iff hne).2 fun i _ => lt_min (hτ₀ i) (hτ' i), ?_⟩
  intro τ A D inv hτ hA hD hi c hc g hg hstep j hj
  have hτj : τ ≤ min (τ₀ j) (τ' j) := hτ.trans (Finset.inf'_le _ (Finset.mem_range.2 (by omega)))
  have hn := hA.nonneg
  have h1 := H j τ A D inv (hτj.trans (min_le_left _ _)) hA hD hi c (fun i hij => hc i (by omega)) g hg (fun i hij => hstep i (by omega))
  obtain ⟨h2, h3⟩ := H' j τ hn (hτj.trans (min_le_right _ _)) (g j) h1
  refine ⟨fun a b => (h1 a b).trans (mul_le_mul_of_nonneg_right (hCs j hj).1 hn), h2, ?_⟩
  obtain ⟨w1, w2⟩ := (within_iff h2.isHermitian (hpd j).isHermitian).1 h3
  have hc' : 1 + C' j * τ ≤ 1 + (∑ i ∈ Finset.range (k + 1), (C i + C' i)) * τ :=
    add_le_add_right (mul_le_mul_of_nonneg_right (hCs j hj).2 hn) _
  rw [within_iff h2.isHermitian (hpd j).isHermitian]
  exact ⟨fun u => (w1 u).trans (mul_le_mul_of_nonneg_right hc' ((psd_iff (hpd j).isHermitian).1 (hpd j).posSemidef u)),
    fun u => (w2 u).trans (mul_le_mul_of_nonneg_right hc' ((psd_iff h2.isHermitian).1 h2.posSemidef u))⟩

/-- **C169, binary digits.** With numbers of `p` binary digits the errors after any number of steps are at most a constant times `2^(-p)`,
for all sufficiently large `p`. -/
theorem C169_binary (d k : ℕ) : ∃ (C : ℝ) (p₀ : ℕ), ∀ p, p₀ ≤ p → ∀ inv : Matrix (Fin N) (Fin N) ℂ → Matrix (Fin N) (Fin N) ℂ,
    InvStable inv (4 * 2 ^ (-(p : ℤ))) →
    ∀ c : ℕ → StepInputs N B M, (∀ j < k, (c j).Accurate d (4 * 2 ^ (-(p : ℤ))) (mon j) (w j) (vol j)) →
    ∀ g : ℕ → Matrix (Fin N) (Fin N) ℂ, g 0 = h 0 → (∀ j < k, g (j + 1) = (c j).step (ofRounding (rnd p)) (divAbsOfRounding (rnd p)) inv (g j)) →
    ∀ j ≤ k, ∀ a b, ‖g j a b - h j a b‖ ≤ C * 2 ^ (-(p : ℤ)) := by
  obtain ⟨C, τ₀, hC, hτ₀, H⟩ := C169_iteration hB hmon hw hvol hspan h0 hh d k
  obtain ⟨p₀, hp₀⟩ := exists_pow_lt_of_lt_one (show 0 < τ₀ / 4 by positivity) (show (1 / 2 : ℝ) < 1 by norm_num)
  refine ⟨C * 4, max 1 p₀, fun p hp inv hi c hc g hg hstep j hj a b => ?_⟩
  have e : (2 : ℝ) ^ (-(p : ℤ)) = (1 / 2) ^ p := by rw [zpow_neg, zpow_natCast, one_div, inv_pow]
  have hτ : 4 * (2 : ℝ) ^ (-(p : ℤ)) ≤ τ₀ := by
    have : (1 / 2 : ℝ) ^ p ≤ (1 / 2) ^ p₀ := pow_le_pow_of_le_one (by norm_num) (by norm_num) ((le_max_right _ _).trans hp)
    rw [e]
    linarith
  have := (H _ _ _ inv hτ (C159_floats p ((le_max_left _ _).trans hp)).2 (C161_floats p) hi c hc g
    (fun a b => by rw [hg, sub_self, norm_zero]; positivity) hstep j hj).1 a b
  rwa [← mul_assoc] at this

end Iteration

/-- **C169, the metric.** The Kähler potentials of the computed and of the exact matrices differ by at most `C τ`, at every point, for
all steps up to step `k`. -/
theorem C169_potential {n : ℕ} (met : AlgebraicMetric (n + 1)) (hdeg : met.sections.degree ≠ 0)
    {mon : ℕ → Fin B → Fin M → Fin met.sections.size → ℂ} {w : ℕ → Fin B → Fin M → ℝ} {vol : ℕ → ℝ} (hB : B ≠ 0)
    (hmon : ∀ j i k, mon j i k ≠ 0) (hw : ∀ j i k, 0 ≤ w j i k) (hvol : ∀ j, 0 < vol j)
    (hspan : ∀ j, ∀ c : Fin met.sections.size → ℂ, (∀ i k, 0 < w j i k → ∑ a, c a * mon j i k a = 0) → c = 0)
    {h : ℕ → met.H} (h0 : (h 0).PosDef)
    (hh : ∀ j, donaldsonStep .complex (h j) (vol j) (mon j) (w j) = .ok (h (j + 1))) (d k : ℕ) :
    ∃ C τ₀ : ℝ, 0 ≤ C ∧ 0 < τ₀ ∧ ∀ (τ : ℝ) (A : Arith) (D : DivAbs) (inv : met.H → met.H),
      τ ≤ τ₀ → A.Accurate τ → D.Accurate τ → InvStable inv τ →
      ∀ c : ℕ → StepInputs met.sections.size B M, (∀ j < k, (c j).Accurate d τ (mon j) (w j) (vol j)) →
      ∀ g : ℕ → met.H, (∀ a b, ‖g 0 a b - h 0 a b‖ ≤ τ) → (∀ j < k, g (j + 1) = (c j).step A D inv (g j)) →
      ∀ j ≤ k, ∀ (zs : List ℂ) (patch : Option ℕ) (x y : ℂ),
        met.kahlerPotential (symmetrise (g j)) zs patch = .ok x → met.kahlerPotential (h j) zs patch = .ok y →
        ‖x - y‖ ≤ C * τ := by
  obtain ⟨C, τ₀, hC, hτ₀, H⟩ := C169_iteration hB hmon hw hvol hspan h0 hh d k
  refine ⟨C, τ₀, hC, hτ₀, fun τ A D inv hτ hA hD hi c hc g hg hstep j hj zs patch x y hx hy => ?_⟩
  obtain ⟨-, h1, h2⟩ := H τ A D inv hτ hA hD hi c hc g hg hstep j hj
  have hn := hA.nonneg
  have hpd : (h j).PosDef := by
    have hc0 : 0 < 1 + C * τ := by positivity
    have hHerm : (h j).IsHermitian := by
      have e := h2.2.isHermitian
      have := (smul_isHermitian (1 + C * τ) h1.isHermitian).sub e
      rwa [sub_sub_cancel] at this
    exact within_posDef hc0 h1 ⟨h2.2, h2.1⟩
  refine (C164_method met h1 hpd (by nlinarith [mul_nonneg hC hn] : 1 ≤ 1 + C * τ) h2 hdeg zs patch hx hy).trans ?_
  have hlog : Real.log (1 + C * τ) ≤ C * τ := by
    have := Real.log_le_sub_one_of_pos (show 0 < 1 + C * τ by positivity)
    linarith
  have hpi : 1 ≤ Real.pi * met.sections.degree := by
    have h3 : (1 : ℝ) ≤ met.sections.degree := by exact_mod_cast Nat.one_le_iff_ne_zero.2 hdeg
    nlinarith [Real.two_le_pi]
  exact (div_le_self (Real.log_nonneg (by nlinarith [mul_nonneg hC hn])) hpi).trans hlog

/-- **C169.** The exact inverse is stable. -/
theorem C169_exact_inverse {ρ : ℝ} (hρ : 0 ≤ ρ) : InvStable (fun T : Matrix (Fin N) (Fin N) ℂ => T⁻¹) ρ := by
  intro T b hT hb j
  refine ⟨0, fun i k => ?_, fun i => ?_⟩
  · rw [Matrix.zero_apply, norm_zero]
    exact mul_nonneg hρ ((norm_nonneg _).trans (hb i k))
  · have := congrFun (congrFun (Matrix.mul_nonsing_inv T ((Matrix.isUnit_iff_isUnit_det T).1 hT)) i) j
    rw [Matrix.mul_apply, Matrix.one_apply] at this
    simpa using this

/-- **C169.** In exact arithmetic, with exact inputs, a step is the exact one. -/
theorem C169_exact_step (c : StepInputs N B M) (hta : c.ta.Covers) (htb : c.tb.Covers) (ht : c.t.Covers) (g : Matrix (Fin N) (Fin N) ℂ) :
    donaldsonStep .complex g c.vol c.mon c.w = .ok (c.step Fl.exact exactDivAbs (·⁻¹) g) :=
  C165_exact c.ta c.tb hta htb c.t ht g c.vol c.mon c.w

/-! Two sections and two points, at each of which one of the sections vanishes: the unit matrix is balanced. Any number of steps from it in
`p`-digit arithmetic. -/

private def exMon : Fin 1 → Fin 2 → Fin 2 → ℂ := fun _ k => Pi.single k 1

private theorem exMon_ne (i : Fin 1) (k : Fin 2) : exMon i k ≠ 0 := fun h => by
  have := congrFun h k
  simp [exMon] at this

private theorem exMon_span (c : Fin 2 → ℂ) (h : ∀ (i : Fin 1) (k : Fin 2), (0 : ℝ) < 1 → ∑ a, c a * exMon i k a = 0) : c = 0 := by
  funext k
  have := h 0 k one_pos
  simpa [exMon, Pi.single_apply] using this

private theorem exStep : donaldsonStep .complex (1 : Matrix (Fin 2) (Fin 2) ℂ) 1 exMon (fun _ _ => 1) = .ok 1 := by
  have hT : stepT (1 : Matrix (Fin 2) (Fin 2) ℂ) 1 exMon (fun _ _ => 1) = 1 := by
    ext a b
    rw [stepT_apply, symmetrise_of_isHermitian Matrix.isHermitian_one]
    have hd : ∀ k, stepDen (1 : Matrix (Fin 2) (Fin 2) ℂ) (exMon 0 k) = 1 := by
      intro k
      simp [stepDen, exMon, Pi.single_apply, Matrix.one_apply]
    simp only [Finset.univ_unique, Fin.default_eq_zero, Finset.sum_singleton, hd, Fin.sum_univ_two]
    fin_cases a <;> fin_cases b <;> simp [exMon]
  show Except.ok _ = _
  rw [hT, inv_one, Matrix.transpose_one]

example (k : ℕ) : ∃ (C : ℝ) (p₀ : ℕ), ∀ p, p₀ ≤ p → ∀ g : ℕ → Matrix (Fin 2) (Fin 2) ℂ, g 0 = 1 →
    (∀ j < k, g (j + 1) = donaldsonStepF (ofRounding (rnd p)) (divAbsOfRounding (rnd p)) (·⁻¹) (.node (.leaf 0) (.leaf 1))
      (.node (.leaf 1) (.leaf 0)) (.node (.leaf 0) (.leaf 1)) (g j) 1 exMon fun _ _ => 1) →
    ∀ j ≤ k, ∀ a b, ‖g j a b - (1 : Matrix (Fin 2) (Fin 2) ℂ) a b‖ ≤ C * 2 ^ (-(p : ℤ)) := by
  obtain ⟨C, p₀, H⟩ := C169_binary (N := 2) (B := 1) (M := 2) (mon := fun _ => exMon) (w := fun _ _ _ => 1) (vol := fun _ => 1) one_ne_zero
    (fun _ => exMon_ne) (fun _ _ _ => zero_le_one) (fun _ => one_pos) (fun _ => exMon_span) (h := fun _ => 1) Matrix.PosDef.one
    (fun _ => exStep) 1 k
  refine ⟨C, p₀, fun p hp g hg hstep => H p hp _ (C169_exact_inverse (by positivity))
    (fun _ => ⟨exMon, fun _ _ => 1, 1, .node (.leaf 0) (.leaf 1), .node (.leaf 1) (.leaf 0), .node (.leaf 0) (.leaf 1)⟩) (fun j _ => ?_) g hg hstep⟩
  have hr : ∀ x : ℂ, RelErr (4 * 2 ^ (-(p : ℤ))) x x := fun x => by
    rw [RelErr, sub_self, norm_zero]
    positivity
  exact ⟨fun _ _ _ => hr _, fun _ _ => hr _, hr _, ⟨by unfold RTree.Covers; decide, by decide⟩, ⟨by unfold RTree.Covers; decide, by decide⟩,
    ⟨by unfold RTree.Covers; decide, by decide⟩⟩

private def exMet : AlgebraicMetric 1 := ⟨.dwork 2 (.flag true), ⟨1, [![1, 0], ![0, 1]]⟩⟩

private def exTree : RTree (Fin 2) := .node (.leaf 0) (.leaf 1)

private theorem exTree_covers : exTree.Covers := by unfold RTree.Covers; decide

private noncomputable def exInputs (mon' : Fin 1 → Fin 2 → Fin 2 → ℂ) : StepInputs 2 1 2 := ⟨mon', fun _ _ => 1, 1, exTree, exTree, exTree⟩

private theorem exInputs_accurate {mon' : Fin 1 → Fin 2 → Fin 2 → ℂ} {τ : ℝ} (h0 : 0 ≤ τ) (h : ∀ i k a, RelErr τ (mon' i k a) (exMon i k a)) :
    (exInputs mon').Accurate 1 τ exMon (fun _ _ => 1) 1 := by
  have hr : ∀ x : ℂ, RelErr τ x x := fun x => by
    rw [RelErr, sub_self, norm_zero]
    positivity
  have hd : exTree.depth ≤ 1 := by decide
  exact ⟨h, fun _ _ => hr _, hr _, ⟨exTree_covers, hd⟩, ⟨exTree_covers, hd⟩, ⟨exTree_covers, hd⟩⟩

private theorem exExact {τ : ℝ} (h0 : 0 ≤ τ) : Fl.exact.Accurate τ ∧ exactDivAbs.Accurate τ := by
  refine ⟨⟨h0, fun a b => ?_, fun a b => ?_, fun r => ?_⟩, fun a b _ => ?_, fun a => ?_⟩
  all_goals
    simp only [Fl.exact, exactDivAbs, sub_self, norm_zero, abs_zero]
    positivity

/-- The potentials for the two linear sections in one affine coordinate, in exact arithmetic with relative errors of the sections. -/
example (k : ℕ) : ∃ C τ₀ : ℝ, 0 ≤ C ∧ 0 < τ₀ ∧ ∀ τ, 0 ≤ τ → τ ≤ τ₀ → ∀ (mon' : Fin 1 → Fin 2 → Fin 2 → ℂ),
    (∀ i k a, RelErr τ (mon' i k a) (exMon i k a)) → ∀ g : ℕ → Matrix (Fin 2) (Fin 2) ℂ, g 0 = 1 →
    (∀ j < k, donaldsonStep .complex (g j) 1 mon' (fun _ _ => 1) = .ok (g (j + 1))) →
    ∀ (zs : List ℂ) (patch : Option ℕ) (x y : ℂ), exMet.kahlerPotential (symmetrise (g k)) zs patch = .ok x →
      exMet.kahlerPotential (1 : Matrix (Fin 2) (Fin 2) ℂ) zs patch = .ok y → ‖x - y‖ ≤ C * τ := by
  have H := C169_potential (B := 1) (M := 2) exMet one_ne_zero
    (mon := fun _ => exMon) (w := fun _ _ _ => 1) (vol := fun _ => 1) one_ne_zero
    (fun _ => exMon_ne) (fun _ _ _ => zero_le_one) (fun _ => one_pos) (fun _ => exMon_span)
    (h := fun _ => (1 : Matrix (Fin 2) (Fin 2) ℂ)) Matrix.PosDef.one (fun _ => exStep) 1 k
  obtain ⟨C, τ₀, hC, hτ₀, H⟩ := H
  refine ⟨C, τ₀, hC, hτ₀, fun τ h0 hτ mon' hmon' g hg hstep zs patch x y hx hy => ?_⟩
  have h1 : ∀ j < k, g (j + 1) = (exInputs mon').step Fl.exact exactDivAbs (·⁻¹) (g j) := fun j hj =>
    Except.ok.inj ((hstep j hj).symm.trans (C169_exact_step (exInputs mon') exTree_covers exTree_covers exTree_covers (g j)))
  have h2 : ∀ a b, ‖g 0 a b - (1 : Matrix (Fin 2) (Fin 2) ℂ) a b‖ ≤ τ := fun a b => by rw [hg, sub_self, norm_zero]; exact h0
  exact H τ Fl.exact exactDivAbs (·⁻¹) hτ (exExact h0).1 (exExact h0).2 (C169_exact_inverse h0) (fun _ => exInputs mon')
    (fun _ _ => exInputs_accurate h0 hmon') g h2 h1 k le_rfl zs patch x y hx hy

end Cyjax
