import Verif.Lemmas.ApproxRoots
import Verif.Props.Sampling

/-! # C163: sampling with an inexact root finder -/

namespace Cyjax

open Cyjax.Spec Cyjax.Polynomial Cyjax.Projective Cyjax.Variety MvPolynomial

/-- **C163.** With a root finder of backward error `τ`, sampling returns the same number of points on the same lines as with an
exact one, and the defining polynomial at a point is at most `τ` times the sum of the absolute values of the terms of the
polynomial along the line. -/
theorem C163_homogeneous {V : HomKind} {m d : ℕ} {ps : List ℂ} (h : Samplable V m d ps) {F : MvPolynomial (Fin (m + 1)) ℂ}
    (hF : Hypersurface V (.vec ps) m d F) {o : SymOrder} (ho : o.Valid) {roots : List ℂ → List ℂ} {τ : ℝ} (hτ : 0 ≤ τ)
    (hr : ApproxRoots roots τ) (count : ℕ) (draws : List ((Fin (m + 1) → ℂ) × (Fin (m + 1) → ℂ)))
    (hd : ∀ x ∈ draws, Admissible F x) :
    ∃ zs, sampleIntersect V o roots ps count (asLists draws) = .ok zs ∧ zs.length = min count (draws.length * d) ∧
      ∀ (k : ℕ) (z : List ℂ), zs[k]? = some z → ∃ x, draws[k / d]? = some x ∧ ∃ r v : ℂ,
        z = List.ofFn (fun i => x.1 i + r * x.2 i) ∧ defining V z (.vec ps) none = .ok v ∧
        ‖v‖ ≤ τ * ∑ e ∈ F.support, ‖coeff e F‖ * ∏ i, (‖x.1 i‖ + ‖x.2 i‖ * ‖r‖) ^ e i := by
  obtain ⟨Zs, h1, h2, h3⟩ := sample_approx h hF ho hτ hr count draws hd
  refine ⟨_, h1, by rw [List.length_map, h2], fun k z hz => ?_⟩
  rw [List.getElem?_map, Option.map_eq_some_iff] at hz
  obtain ⟨Z, hZ, rfl⟩ := hz
  obtain ⟨hne, x, hx, r, rfl, hb⟩ := h3 k Z hZ
  exact ⟨x, hx, r, _, rfl, h.defining hF _ hne, hb⟩

/-- **C163.** In affine coordinates, for lines through points `p` and `q` of the unit sphere (as drawn by the sampler), the
defining polynomial is at most `τ` times the sum of the absolute values of its coefficients times
`(2 (m + 1) / (1 - |⟨p, q⟩|))^(d/2)`: the bound does not depend on the root, and fails only for nearly parallel `p` and `q`. -/
theorem C163_affine {V : HomKind} {m d : ℕ} {ps : List ℂ} (h : Samplable V m d ps) {F : MvPolynomial (Fin (m + 1)) ℂ}
    (hF : Hypersurface V (.vec ps) m d F) {o : SymOrder} (ho : o.Valid) {roots : List ℂ → List ℂ} {τ : ℝ} (hτ : 0 ≤ τ)
    (hr : ApproxRoots roots τ) (count : ℕ) (draws : List ((Fin (m + 1) → ℂ) × (Fin (m + 1) → ℂ)))
    (hd : ∀ x ∈ draws, Admissible F x) (hunit : ∀ x ∈ draws, ∑ i, ‖x.1 i‖ ^ 2 = 1 ∧ ∑ i, ‖x.2 i‖ ^ 2 = 1) :
    ∃ zs, sampleIntersectAffine m V o roots ps count (asLists draws) = .ok zs ∧ zs.length = min count (draws.length * d) ∧
      ∀ (k : ℕ) (z : (Fin m → ℂ) × Fin (m + 1)), zs[k]? = some z → (∀ i, ‖z.1 i‖ ≤ 1) ∧ ∃ x, draws[k / d]? = some x ∧ ∃ v : ℂ,
        defining V (List.ofFn z.1) (.vec ps) (some (.index z.2)) = .ok v ∧
        ‖v‖ ≤ τ * coeffNorm F * Real.sqrt (2 * (m + 1) / (1 - ‖∑ i, (starRingEnd ℂ) (x.1 i) * x.2 i‖)) ^ d := by
  obtain ⟨Zs, h1, h2, h3⟩ := sample_approx h hF ho hτ hr count draws hd
  refine ⟨Zs.map homToAffineAuto, ?_, by rw [List.length_map, h2], ?_⟩
  · unfold sampleIntersectAffine
    rw [h1]
    simp only
    rw [List.map_map]
    exact congrArg Except.ok (List.map_congr_left fun Z _ => by
      rw [Function.comp_apply, toArr_ofFn'])
  · intro k z hz
    rw [List.getElem?_map, Option.map_eq_some_iff] at hz
    obtain ⟨Z, hZ, rfl⟩ := hz
    obtain ⟨hne, x, hx, r, hZr, hb⟩ := h3 k Z hZ
    have hxm := List.mem_of_getElem? hx
    refine ⟨fun i => (C17_bounded Z hne i).2, x, hx, _, hF.defining _ _, ?_⟩
    obtain ⟨hp1, -, hp3⟩ := C17_patch Z
    have hpn : Z (homToAffineAuto Z).2 ≠ 0 := by
      intro h0
      apply hne
      funext i
      have := hp1 i
      rw [h0, norm_zero] at this
      simpa using this
    rw [hp3, C16_roundtrip Z _ hpn]
    set p := (homToAffineAuto Z).2
    have hpos : 0 < ‖Z p‖ := norm_pos_iff.2 hpn
    -- the value scales
    have e1 : eval (fun i => Z i / Z p) F = (Z p)⁻¹ ^ d * eval Z F := by
      rw [← eval_smul_homogeneous hF.homogeneous]
      congr 2
      funext i
      rw [div_eq_inv_mul]
    -- the sum along the line
    obtain ⟨hu1, hu2⟩ := hunit x hxm
    have hle : ∀ (w : Fin (m + 1) → ℂ), ∑ i, ‖w i‖ ^ 2 = 1 → ∀ i, ‖w i‖ ≤ 1 := fun w hw i => by
      have := Finset.single_le_sum (f := fun i => ‖w i‖ ^ 2) (fun _ _ => by positivity) (Finset.mem_univ i)
      rw [hw] at this
      exact (sq_le_one_iff₀ (norm_nonneg _)).1 this
    have e2 : ∑ e ∈ F.support, ‖coeff e F‖ * ∏ i, (‖x.1 i‖ + ‖x.2 i‖ * ‖r‖) ^ e i ≤ coeffNorm F * (1 + ‖r‖) ^ d := by
      unfold coeffNorm
      rw [Finset.sum_mul]
      refine Finset.sum_le_sum fun e he => mul_le_mul_of_nonneg_left ?_ (norm_nonneg _)
      calc ∏ i, (‖x.1 i‖ + ‖x.2 i‖ * ‖r‖) ^ e i ≤ ∏ i, (1 + ‖r‖) ^ e i := by
            refine Finset.prod_le_prod (fun i _ => by positivity) fun i _ => pow_le_pow_left₀ (by positivity) ?_ _
            have a1 := hle _ hu1 i
            have a2 := mul_le_mul_of_nonneg_right (hle _ hu2 i) (norm_nonneg r)
            linarith
        _ = (1 + ‖r‖) ^ d := by
            rw [Finset.prod_pow_eq_pow_sum]
            congr 1
            have := hF.homogeneous (mem_support_iff.1 he)
            rw [← this, Finsupp.weight_apply, Finsupp.sum_fintype _ _ (by simp)]
            simp
    -- the size of the point
    have hc := inner_lt_one x.1 x.2 hu1 hu2 (hd x hxm).ne.2
    have e3 := combination_bound x.1 x.2 hu1 hu2 r hc.le
    have e4 := max_coord_bound Z p hp1
    have e5 : ∑ i, ‖x.1 i + r * x.2 i‖ ^ 2 = ∑ i, ‖Z i‖ ^ 2 := by rw [hZr]
    rw [e5] at e3
    set c := ‖∑ i, (starRingEnd ℂ) (x.1 i) * x.2 i‖
    have hc' : 0 < 1 - c := by linarith
    have e6 : (1 + ‖r‖) / ‖Z p‖ ≤ Real.sqrt (2 * (m + 1) / (1 - c)) := by
      refine Real.le_sqrt_of_sq_le ?_
      rw [div_pow, div_le_div_iff₀ (by positivity) hc']
      nlinarith
    rw [e1, norm_mul, norm_pow, norm_inv]
    calc (‖Z p‖⁻¹) ^ d * ‖eval Z F‖ ≤ (‖Z p‖⁻¹) ^ d * (τ * (coeffNorm F * (1 + ‖r‖) ^ d)) :=
          mul_le_mul_of_nonneg_left (hb.trans (mul_le_mul_of_nonneg_left e2 hτ)) (by positivity)
      _ = τ * coeffNorm F * ((1 + ‖r‖) / ‖Z p‖) ^ d := by rw [div_eq_mul_inv, mul_pow]; ring
      _ ≤ _ := by
          refine mul_le_mul_of_nonneg_left (pow_le_pow_left₀ (by positivity) e6 d) (mul_nonneg hτ ?_)
          exact Finset.sum_nonneg fun _ _ => norm_nonneg _

/-- **C163.** An exact root finder has backward error zero. -/
theorem C163_exact {roots : List ℂ → List ℂ} (h : ExactRoots roots) : ApproxRoots roots 0 := fun c cs hc =>
  ⟨(h c cs hc).1, fun r hr => by rw [(h c cs hc).2 r hr, norm_zero, zero_mul]⟩

/-- **C163.** Residual and backward error are the same: every returned number is an exact root of a polynomial whose coefficients
differ from the given ones by at most the factor `τ`. -/
theorem C163_backward (cs : List ℂ) (r : ℂ) (τ : ℝ) (h0 : 0 ≤ τ) :
    ‖polyval cs r‖ ≤ τ * polyvalAbs cs ‖r‖ ↔
      ∃ cs' : List ℂ, cs'.length = cs.length ∧ (∀ k, ‖cs'.getD k 0 - cs.getD k 0‖ ≤ τ * ‖cs.getD k 0‖) ∧ polyval cs' r = 0 := by
  constructor
  · exact backward_of_residual cs r τ h0
  · rintro ⟨cs', h1, h2, h3⟩
    have e : polyval cs r = -∑ k ∈ Finset.range cs.length,
        (cs'.getD (cs.length - 1 - k) 0 - cs.getD (cs.length - 1 - k) 0) * r ^ k := by
      simp only [sub_mul, Finset.sum_sub_distrib]
      have : ∑ k ∈ Finset.range cs.length, cs'.getD (cs.length - 1 - k) 0 * r ^ k = 0 := by
        have h3' := h3
        unfold polyval at h3'
        rwa [h1] at h3'
      rw [this]
      unfold polyval
      ring
    rw [e, norm_neg]
    unfold polyvalAbs
    rw [Finset.mul_sum]
    refine (norm_sum_le _ _).trans (Finset.sum_le_sum fun k _ => ?_)
    rw [norm_mul, norm_pow, ← mul_assoc]
    exact mul_le_mul_of_nonneg_right (h2 _) (by positivity)

/-- **C163.** Exact roots of coefficients with relative errors `τ < 1` are approximate roots. -/
theorem C163_perturbed {roots : List ℂ → List ℂ} (h : ExactRoots roots) (f : List ℂ → List ℂ) (τ : ℝ) (h0 : 0 ≤ τ) (h1 : τ < 1)
    (hf : ∀ cs, (f cs).length = cs.length ∧ ∀ k, ‖(f cs).getD k 0 - cs.getD k 0‖ ≤ τ * ‖cs.getD k 0‖) :
    ApproxRoots (fun cs => roots (f cs)) τ := by
  intro c cs hc
  obtain ⟨e1, e2⟩ := hf (c :: cs)
  simp only
  rcases hfc : f (c :: cs) with _ | ⟨c', cs'⟩
  · rw [hfc] at e1
    simp at e1
  rw [hfc] at e1 e2
  have hc' : c' ≠ 0 := by
    rintro rfl
    have := e2 0
    simp only [List.getD_cons_zero, zero_sub, norm_neg] at this
    have hpos : 0 < ‖c‖ := norm_pos_iff.2 hc
    nlinarith
  obtain ⟨g1, g2⟩ := h c' cs' hc'
  refine ⟨by rw [g1]; simpa using e1, fun r hr => ?_⟩
  exact (C163_backward _ _ _ h0).2 ⟨_, e1, e2, g2 r hr⟩

/-- The cubic `z0^3 + z1^3 + z2^3`, the line through the first two coordinate points, and a root finder that is not exact: all
coefficients but the leading one are off by a factor `1 + 1/1000`. -/
example : ∃ F : MvPolynomial (Fin 3) ℂ, Samplable (.fermat 3) 2 3 [] ∧ Hypersurface (.fermat 3) (.vec []) 2 3 F ∧ someOrder.Valid ∧
    ApproxRoots (fun cs => someRoots (cs.mapIdx fun k c => if k = 0 then c else 1.001 * c)) (1 / 1000) ∧
    Admissible F (![1, 0, 0], ![0, 1, 0]) ∧ ∑ i, ‖(![1, 0, 0] : Fin 3 → ℂ) i‖ ^ 2 = 1 ∧
    ∑ i, ‖(![0, 1, 0] : Fin 3 → ℂ) i‖ ^ 2 = 1 := by
  refine ⟨_, .fermat 2, hypersurface_fermat 2 _, someOrder_valid, ?_, ⟨?_, ?_⟩, by simp [Fin.sum_univ_three],
    by simp [Fin.sum_univ_three]⟩
  · refine C163_perturbed someRoots_exact _ _ (by norm_num) (by norm_num) fun cs => ⟨by simp, fun k => ?_⟩
    by_cases hk : k < cs.length
    · simp only [List.getD_eq_getElem?_getD, List.getElem?_mapIdx, List.getElem?_eq_getElem hk, Option.map_some, Option.getD_some]
      split_ifs
      · rw [sub_self, norm_zero]; positivity
      · rw [show (1.001 : ℂ) * cs[k] - cs[k] = ((1 / 1000 : ℝ) : ℂ) * cs[k] by push_cast; ring, norm_mul, Complex.norm_real]
        norm_num
    · simp [List.getD_eq_getElem?_getD, hk]
  · rw [LinearIndependent.pair_iff]
    intro s t hst
    have h0 := congrFun hst 0
    have h1 := congrFun hst 1
    simp at h0 h1
    exact ⟨h0, h1⟩
  · simp [Fin.sum_univ_three]

end Cyjax
