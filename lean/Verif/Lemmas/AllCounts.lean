import Verif.Lemmas.StepNormal
import Verif.Lemmas.LossNormal
import Verif.Lemmas.CyMeasure
import Mathlib.Topology.Algebra.Order.LiminfLimsup

/-! # From full lines to any number of points -/

namespace Cyjax

open MeasureTheory ProbabilityTheory MvPolynomial Cyjax.Spec Set Filter Topology
open scoped ENNReal NNReal

/-- The weights of a smooth hypersurface are bounded from below. -/
theorem pointWeight_lower {n : ℕ} {F : MvPolynomial (Fin (n + 2)) ℂ} (hom : F.IsHomogeneous (n + 2)) (hsm : SmoothHypersurface F) :
    ∃ c : ℝ, 0 < c ∧ ∀ Z : Fin (n + 2) → ℂ, Z ≠ 0 → eval Z F = 0 → c ≤ pointWeight (n + 2) F Z := by
  have hK : IsCompact (Metric.sphere (0 : Fin (n + 2) → ℂ) 1 ∩ {Z | eval Z F = 0}) :=
    (isCompact_sphere _ _).inter_right (isClosed_singleton.preimage (MvPolynomial.continuous_eval F))
  have hne : ∀ Z ∈ Metric.sphere (0 : Fin (n + 2) → ℂ) 1 ∩ {Z | eval Z F = 0}, Z ≠ 0 := by
    rintro Z hZ rfl
    simpa using hZ.1
  have hcont : ContinuousOn (fun Z : Fin (n + 2) → ℂ => Real.pi ^ n / n.factorial *
      ((∑ i, ‖Z i‖ ^ 2) ^ (n + 1) / ∑ i, ‖eval Z (pderiv i F)‖ ^ 2))
      (Metric.sphere (0 : Fin (n + 2) → ℂ) 1 ∩ {Z | eval Z F = 0}) := by
    refine continuousOn_const.mul (ContinuousOn.div (by fun_prop) ?_ fun Z hZ => ?_)
    · refine (continuous_finsetSum _ fun i _ => ?_).continuousOn
      exact ((MvPolynomial.continuous_eval _).norm).pow 2
    · obtain ⟨i, hi⟩ := hsm Z (hne Z hZ) hZ.2
      exact (sum_norm_sq_pos (fun i => eval Z (pderiv i F)) i hi).ne'
  obtain ⟨c, hc, hb⟩ := hK.exists_forall_le' hcont (a := 0) fun Z hZ => by
    have := pointWeight_pos (e := n + 2) Z (hne Z hZ) (hsm Z (hne Z hZ) hZ.2)
    rwa [(C111_calabi_yau hom Z (hne Z hZ)).1] at this
  refine ⟨c, hc, fun Z hZ h0 => ?_⟩
  have hn : (‖Z‖⁻¹ : ℂ) ≠ 0 := by simpa using hZ
  have hZ' : (‖Z‖⁻¹ : ℂ) • Z ≠ 0 := smul_ne_zero hn hZ
  rw [← pointWeight_smul hom _ hn Z, (C111_calabi_yau hom _ hZ').1]
  refine hb _ ⟨?_, ?_⟩
  · rw [mem_sphere_zero_iff_norm, norm_smul, norm_inv, Complex.norm_real, norm_norm, inv_mul_cancel₀ (norm_ne_zero_iff.2 hZ)]
  · change eval _ F = 0
    rw [eval_smul_point hom, h0, mul_zero]

/-- Leaving out a few points changes a weighted average by little. -/
theorem average_take {X : Type*} (l : List X) (f w : X → ℝ) {c B M : ℝ} (hc : 0 < c) (hM : 0 ≤ M)
    (hl : ∀ Z ∈ l, c ≤ w Z ∧ w Z ≤ B ∧ |f Z| ≤ M) {k m : ℕ} (hk : k ≠ 0) (h1 : k ≤ l.length) (h2 : l.length ≤ k + m) :
    |((l.take k).map fun Z => f Z * w Z).sum / ((l.take k).map w).sum - (l.map fun Z => f Z * w Z).sum / (l.map w).sum| ≤
      2 * M * m * B / c / k := by
  have bound : ∀ u : List X, (∀ Z ∈ u, c ≤ w Z ∧ w Z ≤ B ∧ |f Z| ≤ M) → |(u.map fun Z => f Z * w Z).sum| ≤ M * (u.map w).sum ∧
      c * u.length ≤ (u.map w).sum ∧ (u.map w).sum ≤ B * u.length := by
    intro u
    induction u with
    | nil => intro _; simp
    | cons Z u ih =>
      intro hu
      obtain ⟨i1, i2, i3⟩ := ih fun Y hY => hu Y (List.mem_cons_of_mem _ hY)
      obtain ⟨a1, a2, a3⟩ := hu Z List.mem_cons_self
      simp only [List.map_cons, List.sum_cons, List.length_cons]
      push_cast
      refine ⟨?_, by linarith, by linarith⟩
      refine (abs_add_le _ _).trans ?_
      rw [abs_mul, abs_of_pos (hc.trans_le a1), mul_add]
      exact add_le_add (mul_le_mul_of_nonneg_right a3 (hc.trans_le a1).le) i1
  obtain ⟨a1, a2, -⟩ := bound (l.take k) fun Z hZ => hl Z (List.mem_of_mem_take hZ)
  obtain ⟨d1, d2, d3⟩ := bound (l.drop k) fun Z hZ => hl Z (List.mem_of_mem_drop hZ)
  rw [List.length_take, min_eq_left h1] at a2
  rw [List.length_drop] at d2 d3
  have hB : 0 ≤ B := by
    obtain ⟨Z, hZ⟩ : ∃ Z, Z ∈ l := List.exists_mem_of_length_pos (by omega)
    exact hc.le.trans ((hl Z hZ).1.trans (hl Z hZ).2.1)
  have e1 : (l.map fun Z => f Z * w Z).sum = ((l.take k).map fun Z => f Z * w Z).sum + ((l.drop k).map fun Z => f Z * w Z).sum := by
    rw [← List.sum_append, ← List.map_append, List.take_append_drop]
  have e2 : (l.map w).sum = ((l.take k).map w).sum + ((l.drop k).map w).sum := by
    rw [← List.sum_append, ← List.map_append, List.take_append_drop]
  rw [e1, e2]
  generalize ((l.take k).map fun Z => f Z * w Z).sum = A at *
  generalize ((l.drop k).map fun Z => f Z * w Z).sum = D at *
  generalize ((l.take k).map w).sum = a at *
  generalize ((l.drop k).map w).sum = e at *
  have hk0 : (0 : ℝ) < k := by exact_mod_cast Nat.pos_of_ne_zero hk
  have ha : 0 < a := (mul_pos hc hk0).trans_le a2
  have he : 0 ≤ e := (mul_nonneg hc.le (Nat.cast_nonneg _)).trans d2
  have hem : e ≤ B * m := d3.trans (mul_le_mul_of_nonneg_left (by exact_mod_cast (by omega : l.length - k ≤ m)) hB)
  have hid : A / a - (A + D) / (a + e) = (A * e - D * a) / (a * (a + e)) := by
    field_simp
    ring
  have hnum : |A * e - D * a| ≤ 2 * M * e * a := by
    refine (abs_sub _ _).trans ?_
    rw [abs_mul, abs_mul, abs_of_nonneg he, abs_of_pos ha]
    nlinarith [mul_le_mul_of_nonneg_right a1 he, mul_le_mul_of_nonneg_right d1 ha.le]
  rw [hid, abs_div, abs_of_pos (by positivity : 0 < a * (a + e)), div_le_iff₀ (by positivity)]
  refine hnum.trans ?_
  have h3 : 2 * M * e ≤ 2 * M * m * B := by nlinarith
  have h4 : 2 * M * m * B ≤ 2 * M * m * B / c / k * a := by
    rw [div_div, div_mul_eq_mul_div, le_div_iff₀ (by positivity)]
    exact mul_le_mul_of_nonneg_left a2 (by positivity)
  have h5 : 2 * M * m * B / c / k * a * a ≤ 2 * M * m * B / c / k * (a * (a + e)) := by
    rw [mul_assoc]
    exact mul_le_mul_of_nonneg_left (mul_le_mul_of_nonneg_left (by linarith) ha.le) (by positivity)
  nlinarith [mul_le_mul_of_nonneg_right (h3.trans h4) ha.le]

/-- The normal probability of a slightly larger interval. -/
theorem gaussian_above (v : ℝ≥0) (t : ℝ) :
    Tendsto (fun k : ℕ => gaussianReal 0 v (Icc (-(t + 1 / ((k : ℝ) + 1))) (t + 1 / ((k : ℝ) + 1)))) atTop
      (𝓝 (gaussianReal 0 v (Icc (-t) t))) := by
  have e : Icc (-t) t = ⋂ k : ℕ, Icc (-(t + 1 / ((k : ℝ) + 1))) (t + 1 / ((k : ℝ) + 1)) := by
    ext x
    simp only [mem_iInter, ← abs_le, mem_Icc]
    refine ⟨fun h k => h.trans (by have : (0 : ℝ) < 1 / ((k : ℝ) + 1) := by positivity
                                   linarith), fun h => ?_⟩
    refine ge_of_tendsto (x := atTop) (f := fun k : ℕ => t + 1 / ((k : ℝ) + 1)) ?_ (Eventually.of_forall h)
    simpa using tendsto_const_nhds.add (tendsto_one_div_add_atTop_nhds_zero_nat (𝕜 := ℝ))
  rw [e]
  refine tendsto_measure_iInter_atTop (fun k => measurableSet_Icc.nullMeasurableSet) (fun i j hij => ?_) ⟨0, measure_ne_top _ _⟩
  have := Nat.one_div_le_one_div (α := ℝ) hij
  exact Icc_subset_Icc (by linarith) (by linarith)

/-- The normal probability of a slightly smaller interval. -/
theorem gaussian_below (v : ℝ≥0) {t : ℝ} (ht : 0 < t) :
    Tendsto (fun k : ℕ => gaussianReal 0 v (Icc (-(t - t / ((k : ℝ) + 2))) (t - t / ((k : ℝ) + 2)))) atTop
      (𝓝 (gaussianReal 0 v (Icc (-t) t))) := by
  have e : Ioo (-t) t = ⋃ k : ℕ, Icc (-(t - t / ((k : ℝ) + 2))) (t - t / ((k : ℝ) + 2)) := by
    ext x
    simp only [mem_iUnion, mem_Icc, ← abs_le]
    rw [mem_Ioo, ← abs_lt]
    constructor
    · intro h
      have h1 : Tendsto (fun k : ℕ => t - t / ((k : ℝ) + 2)) atTop (𝓝 (t - 0)) :=
        tendsto_const_nhds.sub (tendsto_const_nhds.div_atTop (tendsto_atTop_add_const_right _ _ tendsto_natCast_atTop_atTop))
      rw [sub_zero] at h1
      obtain ⟨k, hk⟩ := (h1.eventually (lt_mem_nhds h)).exists
      exact ⟨k, hk.le⟩
    · rintro ⟨k, hk⟩
      have : 0 < t / ((k : ℝ) + 2) := by positivity
      linarith
  have h0 : gaussianReal 0 v (Icc (-t) t) = gaussianReal 0 v (Ioo (-t) t) := by
    refine measure_congr ?_
    by_cases hv : v = 0
    · rw [hv, gaussianReal_zero_var]
      refine (ae_dirac_eq (a := (0 : ℝ))).symm ▸ ?_
      exact Filter.eventually_pure.2 (propext ⟨fun _ => ⟨by linarith, ht⟩, fun _ => ⟨by linarith, ht.le⟩⟩)
    · have := nullSingletonClass_gaussianReal (μ := 0) hv
      exact Ioo_ae_eq_Icc.symm
  rw [h0, e]
  refine tendsto_measure_iUnion_atTop fun i j hij => ?_
  have h1 : t / ((j : ℝ) + 2) ≤ t / ((i : ℝ) + 2) := by gcongr
  exact Icc_subset_Icc (by linarith) (by linarith)

/-- Leaving out a few points changes a mean by little. -/
theorem mean_take {X : Type*} (l : List X) (w : X → ℝ) {B : ℝ} (hl : ∀ Z ∈ l, 0 ≤ w Z ∧ w Z ≤ B) {k m : ℕ} (hk : k ≠ 0)
    (h1 : k ≤ l.length) (h2 : l.length ≤ k + m) :
    |((l.take k).map w).sum / k - (l.map w).sum / l.length| ≤ 2 * B * m / k := by
  have bound : ∀ u : List X, (∀ Z ∈ u, 0 ≤ w Z ∧ w Z ≤ B) → 0 ≤ (u.map w).sum ∧ (u.map w).sum ≤ B * u.length := by
    intro u
    induction u with
    | nil => intro _; simp
    | cons Z u ih =>
      intro hu
      obtain ⟨i1, i2⟩ := ih fun Y hY => hu Y (List.mem_cons_of_mem _ hY)
      obtain ⟨a1, a2⟩ := hu Z List.mem_cons_self
      simp only [List.map_cons, List.sum_cons, List.length_cons]
      push_cast
      exact ⟨by linarith, by linarith⟩
  obtain ⟨a1, a2⟩ := bound (l.take k) fun Z hZ => hl Z (List.mem_of_mem_take hZ)
  obtain ⟨d1, d2⟩ := bound (l.drop k) fun Z hZ => hl Z (List.mem_of_mem_drop hZ)
  rw [List.length_take, min_eq_left h1] at a2
  rw [List.length_drop] at d2
  have e2 : (l.map w).sum = ((l.take k).map w).sum + ((l.drop k).map w).sum := by
    rw [← List.sum_append, ← List.map_append, List.take_append_drop]
  obtain ⟨j, hj⟩ := Nat.exists_eq_add_of_le h1
  rw [e2, hj]
  rw [hj, Nat.add_sub_cancel_left] at d2
  generalize ((l.take k).map w).sum = a at *
  generalize ((l.drop k).map w).sum = e at *
  have hk0 : (0 : ℝ) < k := by exact_mod_cast Nat.pos_of_ne_zero hk
  have hj0 : (0 : ℝ) ≤ j := Nat.cast_nonneg j
  have hjm : (j : ℝ) ≤ m := by exact_mod_cast (by omega : j ≤ m)
  have hB : 0 ≤ B := by
    by_contra hB
    nlinarith
  push_cast
  have hid : a / k - (a + e) / ((k : ℝ) + j) = (a * j - e * k) / (k * (k + j)) := by
    field_simp
    ring
  rw [hid, abs_div, abs_of_pos (by positivity : (0 : ℝ) < k * (k + j)), div_le_div_iff₀ (by positivity) hk0]
  have hnum : |a * j - e * k| ≤ 2 * B * j * k := by
    rw [abs_le]
    constructor <;> nlinarith [mul_nonneg a1 hj0, mul_nonneg d1 hk0.le, mul_le_mul_of_nonneg_right a2 hj0,
      mul_le_mul_of_nonneg_right d2 hk0.le, mul_nonneg (mul_nonneg hB hj0) hk0.le]
  calc |a * j - e * k| * k ≤ 2 * B * j * k * k := mul_le_mul_of_nonneg_right hnum hk0.le
    _ ≤ 2 * B * m * k * (k + j) := by
        refine mul_le_mul (mul_le_mul_of_nonneg_right (mul_le_mul_of_nonneg_left hjm (by positivity)) hk0.le) (by linarith) hk0.le
          (by positivity)
    _ = 2 * B * m * (k * (k + j)) := by ring

/-- The loss as a function of three averages is Lipschitz. -/
theorem loss_lipschitz {u u' q q' r r' B Q M μ a b g : ℝ} (hμ : 0 < μ) (hr : μ ≤ r) (hr' : μ ≤ r') (hrM : r ≤ M) (hrM' : r' ≤ M)
    (hq : |q| ≤ Q) (hq' : |q'| ≤ Q) (hu' : |u'| ≤ B) (ha : |u - u'| ≤ a) (hb : |q - q'| ≤ b) (hg : |r - r'| ≤ g) :
    |u * (q / r ^ 2 - 1) - u' * (q' / r' ^ 2 - 1)| ≤ a * (Q / μ ^ 2 + 1) + B * (b / μ ^ 2 + Q * (2 * M * g) / μ ^ 4) := by
  have hr0 : 0 < r := hμ.trans_le hr
  have hr0' : 0 < r' := hμ.trans_le hr'
  have hQ : 0 ≤ Q := (abs_nonneg _).trans hq
  have ha0 : 0 ≤ a := (abs_nonneg _).trans ha
  have hb0 : 0 ≤ b := (abs_nonneg _).trans hb
  have hg0 : 0 ≤ g := (abs_nonneg _).trans hg
  have hB : 0 ≤ B := (abs_nonneg _).trans hu'
  have hM : 0 ≤ M := hr0.le.trans hrM
  have p2 : μ ^ 2 ≤ r ^ 2 := pow_le_pow_left₀ hμ.le hr 2
  have p2' : μ ^ 2 ≤ r' ^ 2 := pow_le_pow_left₀ hμ.le hr' 2
  have e1 : u * (q / r ^ 2 - 1) - u' * (q' / r' ^ 2 - 1) = (u - u') * (q / r ^ 2 - 1) + u' * (q / r ^ 2 - q' / r' ^ 2) := by ring
  have e2 : q / r ^ 2 - q' / r' ^ 2 = (q - q') / r ^ 2 + q' * ((r' - r) * (r' + r)) / (r ^ 2 * r' ^ 2) := by
    field_simp
    ring
  have x1 : |q / r ^ 2 - 1| ≤ Q / μ ^ 2 + 1 := by
    refine (abs_sub _ _).trans ?_
    rw [abs_one, abs_div, abs_of_pos (by positivity : 0 < r ^ 2)]
    exact add_le_add (div_le_div₀ hQ hq (by positivity) p2) le_rfl
  have x2 : |q / r ^ 2 - q' / r' ^ 2| ≤ b / μ ^ 2 + Q * (2 * M * g) / μ ^ 4 := by
    rw [e2]
    refine (abs_add_le _ _).trans (add_le_add ?_ ?_)
    · rw [abs_div, abs_of_pos (by positivity : 0 < r ^ 2)]
      exact div_le_div₀ hb0 hb (by positivity) p2
    · rw [abs_div, abs_mul, abs_mul, abs_of_pos (by positivity : 0 < r ^ 2 * r' ^ 2), abs_of_pos (by positivity : 0 < r' + r),
        abs_sub_comm r' r]
      refine div_le_div₀ (by positivity) (mul_le_mul hq' ?_ (by positivity) hQ) (by positivity) ?_
      · calc |r - r'| * (r' + r) ≤ g * (2 * M) := mul_le_mul hg (by linarith) (by positivity) hg0
          _ = 2 * M * g := by ring
      · calc μ ^ 4 = μ ^ 2 * μ ^ 2 := by ring
          _ ≤ r ^ 2 * r' ^ 2 := mul_le_mul p2 p2' (by positivity) (by positivity)
  rw [e1]
  refine (abs_add_le _ _).trans (add_le_add ?_ ?_)
  · rw [abs_mul]
    exact mul_le_mul ha x1 (abs_nonneg _) ha0
  · rw [abs_mul]
    exact mul_le_mul hu' x2 (abs_nonneg _) hB

/-- A normal limit for `N count` points holds for `count` points if the two statistics differ by at most `C / count`. -/
theorem interval_counts {Ω : ℕ → Type*} [∀ c, MeasurableSpace (Ω c)] {P : (c : ℕ) → Measure (Ω c)} {S T : (c : ℕ) → Ω c → ℝ}
    {N : ℕ → ℕ} {m : ℕ} {C a : ℝ} {v : ℝ≥0} (hC : ∀ c, c ≠ 0 → ∀ᵐ x ∂P c, |S c x - T c x| ≤ C / c)
    (hN : ∀ c, c ≠ 0 → c ≤ N c ∧ N c ≤ c + m)
    (hlin : ∀ t : ℝ, 0 < t → Tendsto (fun c => P c {x | |√(N c : ℝ) * (T c x - a)| ≤ t}) atTop (𝓝 (gaussianReal 0 v (Icc (-t) t))))
    {t : ℝ} (ht : 0 < t) :
    Tendsto (fun c => P c {x | |S c x - a| ≤ t / √(c : ℝ)}) atTop (𝓝 (gaussianReal 0 v (Icc (-t) t))) := by
  have hroot : Tendsto (fun count : ℕ => √(count : ℝ)) atTop atTop := Real.tendsto_sqrt_atTop.comp tendsto_natCast_atTop_atTop
  have hsmall : Tendsto (fun count : ℕ => C / √(count : ℝ)) atTop (𝓝 0) := tendsto_const_nhds.div_atTop hroot
  have hfac : Tendsto (fun count : ℕ => √(1 + (m : ℝ) / count) * (t + C / √(count : ℝ))) atTop (𝓝 t) := by
    have h1 : Tendsto (fun count : ℕ => 1 + (m : ℝ) / count) atTop (𝓝 (1 + 0)) :=
      tendsto_const_nhds.add (tendsto_const_nhds.div_atTop tendsto_natCast_atTop_atTop)
    have h2 := h1.sqrt.mul (tendsto_const_nhds (x := t) |>.add hsmall)
    simpa using h2
  have lower : ∀ δ > 0, ∀ᶠ c : ℕ in atTop, P c {x | |√(N c : ℝ) * (T c x - a)| ≤ t - δ} ≤ P c {x | |S c x - a| ≤ t / √(c : ℝ)} := by
    intro δ hδ
    filter_upwards [eventually_ne_atTop 0, hsmall.eventually (gt_mem_nhds hδ)] with c hc hcδ
    refine measure_mono_ae ?_
    filter_upwards [hC c hc] with x hx hgood
    have hct : 0 < √(c : ℝ) := Real.sqrt_pos.2 (by exact_mod_cast Nat.pos_of_ne_zero hc)
    replace hgood : |√(N c : ℝ) * (T c x - a)| ≤ t - δ := hgood
    change |S c x - a| ≤ t / √(c : ℝ)
    rw [le_div_iff₀ hct]
    rw [abs_mul, abs_of_nonneg (Real.sqrt_nonneg _)] at hgood
    have h2 := mul_le_mul_of_nonneg_right ((abs_sub_le (S c x) (T c x) a).trans (add_le_add hx le_rfl)) hct.le
    have h3 : C / (c : ℝ) * √(c : ℝ) = C / √(c : ℝ) := by
      conv_lhs => rw [← Real.mul_self_sqrt (Nat.cast_nonneg c)]
      rw [Real.sqrt_mul_self hct.le]
      field_simp
    have h4 := mul_le_mul_of_nonneg_right (Real.sqrt_le_sqrt (show (c : ℝ) ≤ N c by exact_mod_cast (hN c hc).1)) (abs_nonneg (T c x - a))
    rw [add_mul, h3] at h2
    linarith
  have upper : ∀ δ > 0, ∀ᶠ c : ℕ in atTop, P c {x | |S c x - a| ≤ t / √(c : ℝ)} ≤ P c {x | |√(N c : ℝ) * (T c x - a)| ≤ t + δ} := by
    intro δ hδ
    filter_upwards [eventually_ne_atTop 0, hfac.eventually (gt_mem_nhds (show t < t + δ by linarith))] with c hc hcδ
    refine measure_mono_ae ?_
    filter_upwards [hC c hc] with x hx hgood
    have hc0 : (0 : ℝ) < c := by exact_mod_cast Nat.pos_of_ne_zero hc
    have hct : 0 < √(c : ℝ) := Real.sqrt_pos.2 hc0
    replace hgood : |S c x - a| ≤ t / √(c : ℝ) := hgood
    change |√(N c : ℝ) * (T c x - a)| ≤ t + δ
    rw [abs_mul, abs_of_nonneg (Real.sqrt_nonneg _)]
    have h1 := abs_sub_le (T c x) (S c x) a
    rw [abs_sub_comm (T c x) (S c x)] at h1
    have h2 := h1.trans (add_le_add hx hgood)
    have h3 : √(N c : ℝ) ≤ √(c : ℝ) * √(1 + (m : ℝ) / c) := by
      rw [← Real.sqrt_mul (Nat.cast_nonneg c)]
      refine Real.sqrt_le_sqrt ?_
      have e : (c : ℝ) * (1 + (m : ℝ) / c) = (c + m : ℕ) := by
        push_cast
        field_simp
      rw [e]
      exact_mod_cast (hN c hc).2
    refine (mul_le_mul h3 h2 (abs_nonneg _) (by positivity)).trans (le_trans (le_of_eq ?_) hcδ.le)
    have h4 : C / (c : ℝ) + t / √(c : ℝ) = (t + C / √(c : ℝ)) / √(c : ℝ) := by
      rw [add_div, div_div, Real.mul_self_sqrt (Nat.cast_nonneg c), add_comm]
    rw [h4]
    field_simp
  refine tendsto_order.2 ⟨fun b hb => ?_, fun b hb => ?_⟩
  · obtain ⟨k, hk⟩ := ((gaussian_below v ht).eventually (lt_mem_nhds hb)).exists
    have hk0 : (0 : ℝ) ≤ k := Nat.cast_nonneg k
    have hd : 0 < t / ((k : ℝ) + 2) := by positivity
    have hd2 : t / ((k : ℝ) + 2) < t := div_lt_self ht (by linarith)
    filter_upwards [lower _ hd, (hlin (t - t / ((k : ℝ) + 2)) (by linarith)).eventually (lt_mem_nhds hk)] with count h1 h2
    exact h2.trans_le h1
  · obtain ⟨k, hk⟩ := ((gaussian_above v t).eventually (gt_mem_nhds hb)).exists
    have hd : (0 : ℝ) < 1 / ((k : ℝ) + 1) := by positivity
    filter_upwards [upper _ hd, (hlin (t + 1 / ((k : ℝ) + 1)) (by linarith)).eventually (gt_mem_nhds hk)] with count h1 h2
    exact h1.trans_lt h2

/-- The points on the sampled lines are at least `count`, and at most `n + 2` more. -/
theorem sampleCount_near (n : ℕ) {count : ℕ} (hc : count ≠ 0) : Variety.sampleCount count (n + 2) ≠ 0 ∧
    count ≤ Variety.sampleCount count (n + 2) * (n + 2) ∧ Variety.sampleCount count (n + 2) * (n + 2) ≤ count + (n + 2) := by
  obtain ⟨h1, h2⟩ := sampleCount_mul count (n + 2) (by omega)
  generalize Variety.sampleCount count (n + 2) = L at *
  cases L with
  | zero => omega
  | succ k =>
    have h3 := h2 k (Nat.lt_succ_self k)
    rw [Nat.succ_mul] at h1 ⊢
    exact ⟨Nat.succ_ne_zero k, h1, by omega⟩

theorem sampleCount_tendsto (n : ℕ) : Tendsto (fun count : ℕ => Variety.sampleCount count (n + 2) - 1) atTop atTop := by
  refine tendsto_atTop.2 fun b => ?_
  filter_upwards [eventually_ge_atTop ((b + 1) * (n + 2))] with count hcount
  have h1 := (sampleCount_mul count (n + 2) (by omega)).1
  have h2 := Nat.le_of_mul_le_mul_right (hcount.trans h1) (by omega)
  omega

end Cyjax
