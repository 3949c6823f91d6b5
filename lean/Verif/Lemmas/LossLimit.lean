import Verif.Spec.LossLimit
import Verif.Lemmas.RicciFlat
import Verif.Props.Training

/-! # The training loss from a sample and its limit -/

namespace Cyjax

open MeasureTheory MvPolynomial Cyjax.Spec Cyjax.Donaldson Cyjax.Polynomial Cyjax.Variety Cyjax.Projective Cyjax.Ml Set
open scoped ENNReal ComplexOrder

/-- The loss from three means. -/
theorem loss_means {N : ℕ} (hN : N ≠ 0) (η w : Fin N → ℝ) (hη : ∀ i, 0 < η i) (hw : ∀ i, 0 < w i) :
    varianceEtaLoss η w = ((∑ i, w i) / N) ^ 2 * ((∑ i, η i ^ 2 * w i) / N) / ((∑ i, η i * w i) / N) ^ 2 - (∑ i, w i) / N := by
  have : Nonempty (Fin N) := ⟨⟨0, Nat.pos_of_ne_zero hN⟩⟩
  have hW : 0 < ∑ i, w i := Finset.sum_pos (fun i _ => hw i) Finset.univ_nonempty
  have hE : 0 < ∑ i, η i * w i := Finset.sum_pos (fun i _ => mul_pos (hη i) (hw i)) Finset.univ_nonempty
  have hcomm : ∑ j, w j * η j = ∑ j, η j * w j := Finset.sum_congr rfl fun i _ => mul_comm _ _
  have hN' : (0 : ℝ) < N := Nat.cast_pos.2 (Nat.pos_of_ne_zero hN)
  have hm : wavg w η = (∑ i, η i * w i) / ∑ i, w i := by rw [wavg, hcomm]
  rw [C82_variance η w hW (by rw [hm]; positivity) hη]
  have hv : wvar w η = (∑ i, η i ^ 2 * w i) / (∑ i, w i) - wavg w η ^ 2 := by
    unfold wvar
    obtain ⟨m, hmd⟩ : ∃ m, m = wavg w η := ⟨_, rfl⟩
    rw [← hmd]
    have e : ∑ i, w i * (η i - m) ^ 2 = (∑ i, η i ^ 2 * w i) - 2 * m * (∑ i, η i * w i) + m ^ 2 * ∑ i, w i := by
      rw [Finset.mul_sum, Finset.mul_sum, ← Finset.sum_sub_distrib, ← Finset.sum_add_distrib]
      exact Finset.sum_congr rfl fun i _ => by ring
    have hmE : ∑ i, η i * w i = m * ∑ i, w i := by
      rw [hmd, hm]
      field_simp
    unfold wavg
    rw [e, hmE]
    field_simp
    ring
  rw [hv, hm]
  generalize (∑ i, η i ^ 2 * w i) = S
  field_simp

/-- The loss as a function of three means. -/
theorem loss_close (a b c α β δ m t : ℝ) (hm : 0 < m) (hb : 0 < b) (hα : 0 < α) (hβ : 0 < β) (hδ : 0 ≤ δ)
    (ha : 0 < a) (hab : m * a ≤ b) (hαβ : m * α ≤ β) (h1 : |a - α| ≤ t) (h2 : |b - β| ≤ t) (h3 : |c - δ| ≤ t) :
    |(a ^ 2 * c / b ^ 2 - a) - (α ^ 2 * δ / β ^ 2 - α)| ≤ t * (1 + m⁻¹ ^ 2 + (m⁻¹ + 1) * (2 * m⁻¹) * (δ / β)) := by
  have ht : 0 ≤ t := (abs_nonneg _).trans h1
  obtain ⟨r, hr⟩ : ∃ r, r = a / b := ⟨_, rfl⟩
  obtain ⟨ρ, hρ⟩ : ∃ ρ, ρ = α / β := ⟨_, rfl⟩
  have hm' : 0 < m⁻¹ := inv_pos.2 hm
  have hr0 : 0 < r := by rw [hr]; positivity
  have hρ0 : 0 < ρ := by rw [hρ]; positivity
  have hr1 : r ≤ m⁻¹ := by
    rw [hr, div_le_iff₀ hb, inv_mul_eq_div, le_div_iff₀ hm]
    linarith
  have hρ1 : ρ ≤ m⁻¹ := by
    rw [hρ, div_le_iff₀ hβ, inv_mul_eq_div, le_div_iff₀ hm]
    linarith
  have hd : |r - ρ| ≤ t * (m⁻¹ + 1) / β := by
    have e : r - ρ = (r * (β - b) + (a - α)) / β := by
      rw [hr, hρ]
      field_simp
      ring
    rw [e, abs_div, abs_of_pos hβ]
    refine div_le_div_of_nonneg_right ?_ hβ.le
    refine (abs_add_le _ _).trans ?_
    rw [abs_mul, abs_of_pos hr0, abs_sub_comm]
    have : r * |b - β| ≤ m⁻¹ * t := mul_le_mul hr1 h2 (abs_nonneg _) hm'.le
    linarith
  have e : (a ^ 2 * c / b ^ 2 - a) - (α ^ 2 * δ / β ^ 2 - α) = r ^ 2 * (c - δ) + (r - ρ) * (r + ρ) * δ - (a - α) := by
    rw [hr, hρ]
    field_simp
    ring
  rw [e]
  refine (abs_sub _ _).trans ?_
  have b1 : |r ^ 2 * (c - δ)| ≤ m⁻¹ ^ 2 * t := by
    rw [abs_mul, abs_of_nonneg (sq_nonneg r)]
    exact mul_le_mul (pow_le_pow_left₀ hr0.le hr1 2) h3 (abs_nonneg _) (by positivity)
  have b2 : |(r - ρ) * (r + ρ) * δ| ≤ t * (m⁻¹ + 1) / β * (2 * m⁻¹) * δ := by
    rw [abs_mul, abs_mul, abs_of_pos (by positivity : 0 < r + ρ), abs_of_nonneg hδ]
    refine mul_le_mul_of_nonneg_right (mul_le_mul hd (by linarith) (by positivity) (by positivity)) hδ
  have b3 := abs_add_le (r ^ 2 * (c - δ)) ((r - ρ) * (r + ρ) * δ)
  have e2 : t * (m⁻¹ + 1) / β * (2 * m⁻¹) * δ = t * ((m⁻¹ + 1) * (2 * m⁻¹) * (δ / β)) := by ring
  rw [e2] at b2
  nlinarith

variable {n : ℕ} {F : MvPolynomial (Fin (n + 2)) ℂ} {A : AlgebraicMetric (n + 1)} {ps : List ℂ} (hsm : SmoothHypersurface F)
  (hF : Hypersurface A.variety (.vec ps) (n + 1) (n + 2) F) (hB : SpansModulo F A.sections.degree A.sections.rows)
  (hk : A.sections.degree ≠ 0) (h : A.H) (hh : h.PosDef)

include hsm hF hB hk hh

/-- `eta` has a positive lower bound on the hypersurface. -/
theorem etaAt_lower : ∃ m > 0, ∀ Z : Fin (n + 2) → ℂ, Z ≠ 0 → eval Z F = 0 → m ≤ etaAt A h ps Z := by
  have hK : IsCompact (Metric.sphere (0 : Fin (n + 2) → ℂ) 1 ∩ {Z | eval Z F = 0}) :=
    (isCompact_sphere _ _).inter_right (isClosed_singleton.preimage (MvPolynomial.continuous_eval F))
  have hcont : ContinuousOn (fun Z => Real.log (etaAt A h ps Z)) (Metric.sphere (0 : Fin (n + 2) → ℂ) 1 ∩ {Z | eval Z F = 0}) :=
    (continuousOn_etaAt hsm hF hB hk h hh).mono fun Z hZ => ⟨by
      rintro rfl
      simpa using hZ.1, hZ.2⟩
  obtain ⟨M, hM⟩ := hK.exists_bound_of_continuousOn hcont
  refine ⟨Real.exp (-M), Real.exp_pos _, fun Z hZ h0 => ?_⟩
  have hnz : ‖Z‖ ≠ 0 := norm_ne_zero_iff.2 hZ
  have hc : ((‖Z‖⁻¹ : ℝ) : ℂ) ≠ 0 := by exact_mod_cast inv_ne_zero hnz
  obtain ⟨Y, hY⟩ : ∃ Y, Y = ((‖Z‖⁻¹ : ℝ) : ℂ) • Z := ⟨_, rfl⟩
  have hYn : ‖Y‖ = 1 := by
    rw [hY, norm_smul, Complex.norm_real, Real.norm_eq_abs, abs_of_pos (by positivity), inv_mul_cancel₀ hnz]
  have hY0 : eval Y F = 0 := by
    rw [hY, show ((‖Z‖⁻¹ : ℝ) : ℂ) • Z = fun i => ((‖Z‖⁻¹ : ℝ) : ℂ) * Z i from rfl, eval_smul_homogeneous hF.homogeneous, h0,
      mul_zero]
  have h1 := hM Y ⟨by simp [hYn], hY0⟩
  have h2 : etaAt A h ps Y = etaAt A h ps Z := by rw [hY, etaAt_smul hF h _ hc]
  have hpos := (etaAt_pos hF h hB hh hsm hk Z hZ h0).1
  rw [h2, Real.norm_eq_abs] at h1
  rw [← Real.le_log_iff_exp_le hpos]
  exact (abs_le.1 h1).1

/-- The loss on a row made of points on the hypersurface and their weights. -/
theorem row_loss (Zs : List (Fin (n + 2) → ℂ)) (hne : Zs ≠ []) (hZs : ∀ Z ∈ Zs, Z ≠ 0 ∧ eval Z F = 0) (w : (Fin (n + 2) → ℂ) → ℝ)
    (hw : ∀ Z ∈ Zs, 0 < w Z) :
    varianceEtaLossRow A h ⟨ps, Zs.map homToAffineAuto, Zs.map w⟩ = .ok
      (((Zs.map w).sum / Zs.length) ^ 2 * ((Zs.map fun Z => etaAt A h ps Z ^ 2 * w Z).sum / Zs.length) /
        ((Zs.map fun Z => etaAt A h ps Z * w Z).sum / Zs.length) ^ 2 - (Zs.map w).sum / Zs.length) := by
  have hm : (Zs.map homToAffineAuto).mapM (fun x => A.eta h (List.ofFn x.1) (.vec ps) (some (x.2 : ℕ)) none none) =
      .ok (Zs.map fun Z => (etaAt A h ps Z : ℂ)) := by
    rw [List.mapM_map]
    refine mapM_ok fun Z hZ => ?_
    rw [← (etaAt_pos hF h hB hh hsm hk Z (hZs Z hZ).1 (hZs Z hZ).2).2]
    exact ((C103_homogeneous A hF.dim h (.vec ps) none none Z).2.2.1).symm
  unfold varianceEtaLossRow
  simp only
  rw [hm]
  simp only [bind, Except.bind]
  rw [if_pos (by rw [List.length_map, List.length_map]),
    loss_list (fun i : Fin Zs.length => etaAt A h ps (Zs.get i)) (fun i => w (Zs.get i)) _ (Zs.map w) ?_ ?_,
    loss_means (by simpa using hne) _ _ (fun i => (etaAt_pos hF h hB hh hsm hk _ (hZs _ (List.get_mem _ _)).1
      (hZs _ (List.get_mem _ _)).2).1) fun i => hw _ (List.get_mem _ _)]
  · rw [sum_get Zs w, sum_get Zs fun Z => etaAt A h ps Z ^ 2 * w Z, sum_get Zs fun Z => etaAt A h ps Z * w Z]
    rfl
  · conv_lhs => rw [← List.ofFn_get Zs, List.map_ofFn]
    rfl
  · conv_lhs => rw [← List.ofFn_get Zs, List.map_ofFn]
    rfl

end Cyjax
