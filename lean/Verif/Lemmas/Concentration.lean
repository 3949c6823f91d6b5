import Verif.Lemmas.MonteCarlo

/-! # Concentration of the means over a sample -/

namespace Cyjax

open MeasureTheory ProbabilityTheory MvPolynomial Cyjax.Spec Cyjax.Polynomial Cyjax.Variety Set
open scoped ENNReal

theorem abs_list_sum_le {α : Type*} (g : α → ℝ) {K : ℝ} (l : List α) (h : ∀ a ∈ l, |g a| ≤ K) :
    |(l.map g).sum| ≤ l.length * K := by
  induction l with
  | nil => simp
  | cons a l ih =>
    rw [List.map_cons, List.sum_cons, List.length_cons, Nat.cast_succ, add_mul, one_mul, add_comm (_ * K)]
    exact (abs_add_le _ _).trans (add_le_add (h a (by simp)) (ih fun b hb => h b (by simp [hb])))

instance (m : ℕ) : IsProbabilityMeasure (lineLaw m) := by unfold lineLaw; infer_instance

theorem sampleCount_le (count m : ℕ) (hm : 0 < m) :
    sampleCount count m ≤ count ∧ sampleCount count m * m < count + m := by
  unfold sampleCount
  have h1 := Nat.div_mul_le_self (count + m - 1) m
  refine ⟨?_, by omega⟩
  rw [Nat.div_le_iff_le_mul_add_pred hm]
  have : count * 1 ≤ count * m := Nat.mul_le_mul_left _ hm
  rw [mul_comm m]
  omega

variable {n e : ℕ} {F : MvPolynomial (Fin (n + 2)) ℂ} {V : HomKind} {ps : List ℂ}

theorem realSum_bound (hS : Samplable V (n + 1) e ps) (hF : Hypersurface V (.vec ps) (n + 1) e F)
    (hsm : SmoothHypersurface F) (hirr : Irreducible F) (he : e ≠ 0) {g : (Fin (n + 2) → ℂ) → ℝ} {K : ℝ}
    (hK : ∀ Z, Z ≠ 0 → eval Z F = 0 → |g Z| ≤ K) : ∀ᵐ x ∂lineLaw (n + 2), |realSum F g x| ≤ e * K := by
  obtain ⟨R, hR, -⟩ := sample_all hS hF someOrder_valid someRoots_complete
  filter_upwards [ae_admissible_line F (smooth_ne_zero hsm), ae_transversal hirr hF.homogeneous he] with x hx htr
  have h1 := sum_roots hx.2 (hR x hx).2 htr
  rw [realSum_roots hx.2 (hR x hx).2 htr, ← (hR x hx).1]
  exact abs_list_sum_le (fun t => g (linePoint x t)) _ fun t ht => hK _ (hx.ne.2 t) ((h1.2 t).2 ht)

/-- The mean of a bounded function over the first `count` points: up to a bounded term, its error is that of the sums over
the lines. -/
theorem mean_deviation (hS : Samplable V (n + 1) (n + 2) ps) (hF : Hypersurface V (.vec ps) (n + 1) (n + 2) F)
    (hsm : SmoothHypersurface F) (hn : n ≠ 0) (p : Fin (n + 2)) (d : Fin (n + 1))
    {g : (Fin (n + 2) → ℂ) → ℝ} (hg : Measurable g) (hinv : ∀ c : ℂ, c ≠ 0 → ∀ Z, g (c • Z) = g Z) {K : ℝ}
    (hK : ∀ Z, Z ≠ 0 → eval Z F = 0 → |g Z| ≤ K) (count L : ℕ) (hc : count ≠ 0)
    (hL2 : count ≤ L * (n + 2)) (hL3 : L * (n + 2) < count + (n + 2))
    (pts : (Fin 2 → Fin L → Fin (2 * (n + 2)) → ℝ) → List (Fin (n + 2) → ℂ))
    (hpts : ∀ᵐ x ∂normalsLaw (n + 2) L, (pts x).length = L * (n + 2) ∧
      (∀ Z ∈ pts x, Z ≠ 0 ∧ eval Z F = 0) ∧ ((pts x).map g).sum = ∑ j, realSum F g (rawLines x j)) :
    0 ≤ (n + 2) * K ∧ (∀ᵐ x ∂lineLaw (n + 2), |realSum F g x| ≤ (n + 2) * K) ∧
    ∫ x, realSum F g x ∂lineLaw (n + 2) = ∫ Z, g Z ∂fsMeasure p d F ∧
    ∀ᵐ x ∂normalsLaw (n + 2) L,
      |(((pts x).take count).map g).sum / count - (∫ Z, g Z ∂fsMeasure p d F) / (n + 2)| * count ≤
        |∑ j, realSum F g (rawLines x j) - L * ∫ Z, g Z ∂fsMeasure p d F| + 2 * ((n + 2) * K) := by
  have hom := hF.homogeneous
  have he0 : n + 2 ≠ 0 := by omega
  have hirr := smooth_irreducible (by omega) hom he0 hsm
  have hd := smooth_pderiv_ne_zero hom (by omega) hsm (p.succAbove d)
  have hbd := realSum_bound hS hF hsm hirr he0 hK
  have hK0 : 0 ≤ (n + 2) * K := by
    obtain ⟨x, hx⟩ := hbd.exists
    have := (abs_nonneg _).trans hx
    push_cast at this
    exact this
  have hmass := fs_mass hS hF hsm hirr p d he0 hd
  have hfin : IsFiniteMeasure (fsMeasure p d F) := ⟨by rw [hmass]; exact ENNReal.natCast_lt_top _⟩
  have hint : Integrable g (fsMeasure p d F) := by
    refine (integrable_const K).mono' hg.aestronglyMeasurable ?_
    filter_upwards [ae_fsMeasure hom p d] with Z hZ
    exact hK Z hZ.1 hZ.2.1
  obtain ⟨-, hμ⟩ := realSum_integral p d hirr hom he0 hd hg hinv hint
  set μ := ∫ Z, g Z ∂fsMeasure p d F with hμd
  have hμA : |μ| ≤ (n + 2) * K := by
    have h := norm_integral_le_of_norm_le_const (μ := lineLaw (n + 2)) (f := realSum F g) (C := (n + 2 : ℕ) * K) (by
      filter_upwards [hbd] with x hx
      rwa [Real.norm_eq_abs])
    rw [hμ, Real.norm_eq_abs] at h
    simpa using h
  have hc0 : (0 : ℝ) < count := by exact_mod_cast Nat.pos_of_ne_zero hc
  refine ⟨hK0, by simpa using hbd, hμ, ?_⟩
  filter_upwards [hpts] with x hx
  obtain ⟨hlen, hmemx, hsum⟩ := hx
  have hsplit : ((pts x).map g).sum = (((pts x).take count).map g).sum + (((pts x).drop count).map g).sum := by
    rw [← List.sum_append, ← List.map_append, List.take_append_drop]
  have hdrop := abs_list_sum_le g ((pts x).drop count) (K := K) fun Z hZ =>
    hK Z (hmemx Z (List.mem_of_mem_drop hZ)).1 (hmemx Z (List.mem_of_mem_drop hZ)).2
  rw [List.length_drop, hlen] at hdrop
  have hr1 : ((L * (n + 2) - count : ℕ) : ℝ) = L * (n + 2) - count := by
    rw [Nat.cast_sub hL2]
    push_cast
    ring
  have hr2 : (L : ℝ) * (n + 2) - count ≤ n + 2 := by
    have : ((L * (n + 2) : ℕ) : ℝ) ≤ (count + (n + 2) : ℕ) := by exact_mod_cast hL3.le
    push_cast at this
    linarith
  have hr3 : (0 : ℝ) ≤ L * (n + 2) - count := by rw [← hr1]; positivity
  have hn2 : (0 : ℝ) < n + 2 := by positivity
  have hKn : 0 ≤ K := (mul_nonneg_iff_of_pos_left hn2).1 hK0
  rw [hr1] at hdrop
  have hdrop' : |(((pts x).drop count).map g).sum| ≤ (n + 2) * K := hdrop.trans (mul_le_mul_of_nonneg_right hr2 hKn)
  have hthird : |(L * (n + 2) - count) * (μ / (n + 2))| ≤ (n + 2) * K := by
    rw [abs_mul, abs_of_nonneg hr3, abs_div, abs_of_pos hn2]
    calc ((L : ℝ) * (n + 2) - count) * (|μ| / (n + 2)) ≤ (n + 2) * (|μ| / (n + 2)) :=
          mul_le_mul_of_nonneg_right hr2 (by positivity)
      _ = |μ| := by field_simp
      _ ≤ _ := hμA
  set A := (n + 2) * K
  set T := ∑ j, realSum F g (rawLines x j)
  set S := (((pts x).take count).map g).sum
  set D := (((pts x).drop count).map g).sum
  have hid : count * (S / count - μ / (n + 2)) = (T - L * μ) + (-D + (L * (n + 2) - count) * (μ / (n + 2))) := by
    rw [show T = S + D from hsum.symm.trans hsplit]
    field_simp
    ring
  calc |S / count - μ / (n + 2)| * count = |count * (S / count - μ / (n + 2))| := by rw [abs_mul, abs_of_pos hc0, mul_comm]
    _ ≤ |T - L * μ| + 2 * A := by
      rw [hid]
      refine (abs_add_le _ _).trans (add_le_add_right ?_ _)
      refine (abs_add_le _ _).trans ?_
      rw [abs_neg]
      linarith

/-- The mean of a bounded function over the first `count` points is close to its integral. -/
theorem mean_concentration (hS : Samplable V (n + 1) (n + 2) ps) (hF : Hypersurface V (.vec ps) (n + 1) (n + 2) F)
    (hsm : SmoothHypersurface F) (hn : n ≠ 0) (p : Fin (n + 2)) (d : Fin (n + 1))
    {g : (Fin (n + 2) → ℂ) → ℝ} (hg : Measurable g) (hinv : ∀ c : ℂ, c ≠ 0 → ∀ Z, g (c • Z) = g Z) {K : ℝ}
    (hK : ∀ Z, Z ≠ 0 → eval Z F = 0 → |g Z| ≤ K) (count L : ℕ) (hc : count ≠ 0)
    (hL1 : L ≤ count) (hL2 : count ≤ L * (n + 2)) (hL3 : L * (n + 2) < count + (n + 2))
    (pts : (Fin 2 → Fin L → Fin (2 * (n + 2)) → ℝ) → List (Fin (n + 2) → ℂ))
    (hpts : ∀ᵐ x ∂normalsLaw (n + 2) L, (pts x).length = L * (n + 2) ∧
      (∀ Z ∈ pts x, Z ≠ 0 ∧ eval Z F = 0) ∧ ((pts x).map g).sum = ∑ j, realSum F g (rawLines x j)) (ε : ℝ) (hε : 0 < ε) :
    normalsLaw (n + 2) L
      {x | ε ≤ |(((pts x).take count).map g).sum / count - (∫ Z, g Z ∂fsMeasure p d F) / (n + 2)|} ≤
      ENNReal.ofReal (10 * ((n + 2) * K) ^ 2 / (count * ε ^ 2)) := by
  obtain ⟨hK0, hbd, hμ, hdev⟩ := mean_deviation hS hF hsm hn p d hg hinv hK count L hc hL2 hL3 pts hpts
  have hmem : MemLp (realSum F g) 2 (lineLaw (n + 2)) :=
    MemLp.of_bound (measurable_realSum hg).aestronglyMeasurable ((n + 2) * K) (by
      filter_upwards [hbd] with x hx
      rwa [Real.norm_eq_abs])
  set μ := ∫ Z, g Z ∂fsMeasure p d F with hμd
  have hvar : Var[realSum F g; lineLaw (n + 2)] ≤ ((n + 2) * K) ^ 2 := by
    refine (variance_le_expectation_sq hmem.aestronglyMeasurable).trans ?_
    have h := integral_mono_of_nonneg (μ := lineLaw (n + 2)) (f := realSum F g ^ 2) (g := fun _ => ((n + 2) * K) ^ 2)
      (Filter.Eventually.of_forall fun x => by simp only [Pi.zero_apply, Pi.pow_apply]; positivity) (integrable_const _) (by
        filter_upwards [hbd] with x hx
        simp only [Pi.pow_apply]
        exact sq_le_sq' (by linarith [neg_abs_le (realSum F g x)]) ((le_abs_self _).trans hx))
    simpa using h
  have hX : HasLaw (fun x : Fin 2 → Fin L → Fin (2 * (n + 2)) → ℝ => x) (normalsLaw (n + 2) L) (normalsLaw (n + 2) L) := HasLaw.id
  have hv := lines_variance hX hmem
  rw [hμ] at hv
  have hsq : Integrable (fun x => (∑ j, realSum F g (rawLines x j) - L * μ) ^ 2) (normalsLaw (n + 2) L) := by
    have h1 : MemLp (fun x : Fin 2 → Fin L → Fin (2 * (n + 2)) → ℝ => ∑ j, realSum F g (rawLines x j)) 2
        (normalsLaw (n + 2) L) := by
      refine memLp_finsetSum _ fun j _ => ?_
      exact hmem.comp_measurePreserving ((measurePreserving_eval (fun _ : Fin L => lineLaw (n + 2)) j).comp
        (rawLines_preserving (n + 2) L))
    exact (h1.sub (memLp_const (L * μ))).integrable_sq
  set h : (Fin 2 → Fin L → Fin (2 * (n + 2)) → ℝ) → ℝ := fun x =>
    2 * (∑ j, realSum F g (rawLines x j) - L * μ) ^ 2 + 8 * ((n + 2) * K) ^ 2 with hh
  have hhi : Integrable h (normalsLaw (n + 2) L) := (hsq.const_mul 2).add (integrable_const _)
  have hhE : ∫ x, h x ∂normalsLaw (n + 2) L ≤ 10 * count * ((n + 2) * K) ^ 2 := by
    rw [hh, integral_add (hsq.const_mul 2) (integrable_const _), integral_const_mul, hv, integral_const, probReal_univ, one_smul]
    have h1 : (L : ℝ) ≤ count := by exact_mod_cast hL1
    have h2 : (1 : ℝ) ≤ count := by exact_mod_cast Nat.one_le_iff_ne_zero.2 hc
    have h3 := sq_nonneg ((n + 2) * K)
    nlinarith [mul_le_mul h1 hvar (variance_nonneg _ _) (by positivity), mul_le_mul_of_nonneg_right h2 h3]
  have hc0 : (0 : ℝ) < count := by exact_mod_cast Nat.pos_of_ne_zero hc
  have hmark := mul_meas_ge_le_integral_of_nonneg (μ := normalsLaw (n + 2) L) (f := h)
    (Filter.Eventually.of_forall fun x => by simp only [hh, Pi.zero_apply]; positivity) hhi ((ε * count) ^ 2)
  have hle : normalsLaw (n + 2) L {x | ε ≤ |(((pts x).take count).map g).sum / count - μ / (n + 2)|} ≤
      normalsLaw (n + 2) L {x | (ε * count) ^ 2 ≤ h x} := by
    refine measure_mono_ae ?_
    filter_upwards [hdev] with x hx hbad
    change (ε * count) ^ 2 ≤ h x
    change ε ≤ |(((pts x).take count).map g).sum / count - μ / (n + 2)| at hbad
    have hbound := (mul_le_mul_of_nonneg_right hbad hc0.le).trans hx
    set A := (n + 2) * K
    set T := ∑ j, realSum F g (rawLines x j)
    calc (ε * count) ^ 2 ≤ (|T - L * μ| + 2 * A) ^ 2 := pow_le_pow_left₀ (by positivity) hbound 2
      _ ≤ 2 * |T - L * μ| ^ 2 + 8 * A ^ 2 := by nlinarith [sq_nonneg (|T - L * μ| - 2 * A)]
      _ = h x := by rw [sq_abs]
  refine hle.trans ?_
  rw [← ofReal_measureReal]
  refine ENNReal.ofReal_le_ofReal ?_
  rw [le_div_iff₀ (by positivity)]
  have hpos : 0 < (count : ℝ) := hc0
  have := hmark.trans hhE
  set m := (normalsLaw (n + 2) L).real {x | (ε * count) ^ 2 ≤ h x}
  have h2 : count * (m * (count * ε ^ 2)) ≤ count * (10 * ((n + 2) * K) ^ 2) := by
    calc count * (m * (count * ε ^ 2)) = (ε * count) ^ 2 * m := by ring
      _ ≤ _ := this
      _ = _ := by ring
  exact le_of_mul_le_mul_left h2 hpos

end Cyjax
