import Verif.Spec.ApproxRoots
import Verif.Lemmas.Samplable

/-! # Points from approximate roots -/

namespace Cyjax

open Cyjax.Polynomial Cyjax.Variety Cyjax.Spec

/-- The coefficients of `P` are bounded by those of `Q`. -/
def Dom (P : _root_.Polynomial ℂ) (Q : _root_.Polynomial ℝ) : Prop := ∀ k, ‖P.coeff k‖ ≤ Q.coeff k

theorem Dom.add {P P' : _root_.Polynomial ℂ} {Q Q' : _root_.Polynomial ℝ} (h : Dom P Q) (h' : Dom P' Q') : Dom (P + P') (Q + Q') :=
  fun k => by
    rw [_root_.Polynomial.coeff_add, _root_.Polynomial.coeff_add]
    exact (norm_add_le _ _).trans (add_le_add (h k) (h' k))

theorem Dom.mul {P P' : _root_.Polynomial ℂ} {Q Q' : _root_.Polynomial ℝ} (h : Dom P Q) (h' : Dom P' Q') : Dom (P * P') (Q * Q') :=
  fun k => by
    rw [_root_.Polynomial.coeff_mul, _root_.Polynomial.coeff_mul]
    refine (norm_sum_le _ _).trans (Finset.sum_le_sum fun x _ => ?_)
    rw [norm_mul]
    exact mul_le_mul (h _) (h' _) (norm_nonneg _) ((norm_nonneg _).trans (h _))

theorem Dom.C (c : ℂ) : Dom (_root_.Polynomial.C c) (_root_.Polynomial.C ‖c‖) := fun k => by
  rw [_root_.Polynomial.coeff_C, _root_.Polynomial.coeff_C]
  split_ifs <;> simp

theorem Dom.X : Dom _root_.Polynomial.X _root_.Polynomial.X := fun k => by
  rw [_root_.Polynomial.coeff_X, _root_.Polynomial.coeff_X]
  split_ifs <;> simp

theorem Dom.one : Dom 1 1 := by simpa using Dom.C 1

theorem Dom.pow {P : _root_.Polynomial ℂ} {Q : _root_.Polynomial ℝ} (h : Dom P Q) (n : ℕ) : Dom (P ^ n) (Q ^ n) := by
  induction n with
  | zero => rw [pow_zero, pow_zero]; exact Dom.one
  | succ n ih => rw [pow_succ, pow_succ]; exact ih.mul h

theorem Dom.sum {ι : Type*} (s : Finset ι) {P : ι → _root_.Polynomial ℂ} {Q : ι → _root_.Polynomial ℝ} (h : ∀ i, Dom (P i) (Q i)) :
    Dom (∑ i ∈ s, P i) (∑ i ∈ s, Q i) := by
  classical
  induction s using Finset.induction_on with
  | empty => intro k; simp
  | insert a s ha ih => rw [Finset.sum_insert ha, Finset.sum_insert ha]; exact (h a).add ih

theorem Dom.prod {ι : Type*} (s : Finset ι) {P : ι → _root_.Polynomial ℂ} {Q : ι → _root_.Polynomial ℝ} (h : ∀ i, Dom (P i) (Q i)) :
    Dom (∏ i ∈ s, P i) (∏ i ∈ s, Q i) := by
  classical
  induction s using Finset.induction_on with
  | empty => simpa using Dom.one
  | insert a s ha ih => rw [Finset.prod_insert ha, Finset.prod_insert ha]; exact (h a).mul ih

theorem Dom.eval {P : _root_.Polynomial ℂ} {Q : _root_.Polynomial ℝ} (h : Dom P Q) (n : ℕ) (x : ℝ) (hx : 0 ≤ x) :
    ∑ k ∈ Finset.range n, ‖P.coeff k‖ * x ^ k ≤ Q.eval x := by
  have hQ : ∀ k, 0 ≤ Q.coeff k := fun k => (norm_nonneg _).trans (h k)
  rw [_root_.Polynomial.eval_eq_sum_range' (n := max n (Q.natDegree + 1)) (by omega)]
  calc ∑ k ∈ Finset.range n, ‖P.coeff k‖ * x ^ k ≤ ∑ k ∈ Finset.range n, Q.coeff k * x ^ k :=
        Finset.sum_le_sum fun k _ => mul_le_mul_of_nonneg_right (h k) (by positivity)
    _ ≤ _ := Finset.sum_le_sum_of_subset_of_nonneg (Finset.range_mono (le_max_left _ _))
        fun k _ _ => mul_nonneg (hQ k) (by positivity)

open MvPolynomial in
/-- The coefficients of a polynomial along a line. -/
theorem polyvalAbs_line {m : ℕ} (F : MvPolynomial (Fin m) ℂ) (p q : Fin m → ℂ) (cs : List ℂ)
    (h : ∀ r, polyval cs r = MvPolynomial.eval (fun i => p i + r * q i) F) (x : ℝ) (hx : 0 ≤ x) :
    polyvalAbs cs x ≤ ∑ e ∈ F.support, ‖coeff e F‖ * ∏ i, (‖p i‖ + ‖q i‖ * x) ^ e i := by
  set P : _root_.Polynomial ℂ := ∑ e ∈ F.support, _root_.Polynomial.C (coeff e F) *
    ∏ i, (_root_.Polynomial.C (p i) + _root_.Polynomial.C (q i) * _root_.Polynomial.X) ^ e i with hP
  set Q : _root_.Polynomial ℝ := ∑ e ∈ F.support, _root_.Polynomial.C ‖coeff e F‖ *
    ∏ i, (_root_.Polynomial.C ‖p i‖ + _root_.Polynomial.C ‖q i‖ * _root_.Polynomial.X) ^ e i with hQ
  have hd : Dom P Q := Dom.sum _ fun e => (Dom.C _).mul (Dom.prod _ fun i => ((Dom.C _).add ((Dom.C _).mul Dom.X)).pow _)
  have heq : toPoly cs = P := by
    refine _root_.Polynomial.funext fun r => ?_
    rw [toPoly_eval, h, MvPolynomial.eval_eq', hP, _root_.Polynomial.eval_finsetSum]
    refine Finset.sum_congr rfl fun e _ => ?_
    rw [_root_.Polynomial.eval_mul, _root_.Polynomial.eval_C, _root_.Polynomial.eval_prod]
    congr 1
    refine Finset.prod_congr rfl fun i _ => ?_
    simp only [_root_.Polynomial.eval_pow, _root_.Polynomial.eval_add, _root_.Polynomial.eval_C, _root_.Polynomial.eval_mul,
      _root_.Polynomial.eval_X]
    rw [mul_comm r]
  have h1 := hd.eval cs.length x hx
  rw [← heq] at h1
  unfold polyvalAbs
  calc _ = ∑ k ∈ Finset.range cs.length, ‖(toPoly cs).coeff k‖ * x ^ k := by
        refine Finset.sum_congr rfl fun k hk => ?_
        rw [toPoly_coeff _ _ (Finset.mem_range.1 hk)]
    _ ≤ Q.eval x := h1
    _ = _ := by
        rw [hQ, _root_.Polynomial.eval_finsetSum]
        refine Finset.sum_congr rfl fun e _ => ?_
        rw [_root_.Polynomial.eval_mul, _root_.Polynomial.eval_C, _root_.Polynomial.eval_prod]
        congr 1
        refine Finset.prod_congr rfl fun i _ => ?_
        simp

open MvPolynomial in
/-- The points returned by the sampler with an approximate root finder; point `k` lies on line `k / d`. -/
theorem sample_approx {V : HomKind} {m d : ℕ} {ps : List ℂ} (h : Samplable V m d ps) {F : MvPolynomial (Fin (m + 1)) ℂ}
    (hF : Hypersurface V (.vec ps) m d F) {o : SymOrder} (ho : o.Valid) {roots : List ℂ → List ℂ} {τ : ℝ} (hτ : 0 ≤ τ)
    (hr : ApproxRoots roots τ) (count : ℕ) (draws : List ((Fin (m + 1) → ℂ) × (Fin (m + 1) → ℂ)))
    (hd : ∀ x ∈ draws, Admissible F x) :
    ∃ Zs : List (Fin (m + 1) → ℂ), sampleIntersect V o roots ps count (asLists draws) = .ok (Zs.map List.ofFn) ∧
      Zs.length = min count (draws.length * d) ∧
      ∀ (k : ℕ) (Z : Fin (m + 1) → ℂ), Zs[k]? = some Z → Z ≠ 0 ∧
        ∃ x, draws[k / d]? = some x ∧ ∃ r : ℂ, (Z = fun i => x.1 i + r * x.2 i) ∧
          ‖eval Z F‖ ≤ τ * ∑ e ∈ F.support, ‖coeff e F‖ * ∏ i, (‖x.1 i‖ + ‖x.2 i‖ * ‖r‖) ^ e i := by
  obtain ⟨e, he⟩ := h.line ho
  obtain ⟨Q, cs, h1, h2, h3⟩ := line_solve ho he h.scales
  obtain ⟨ptss, g1, g2, g3⟩ := mapM_flatten
    (fun x : (Fin (m + 1) → ℂ) × (Fin (m + 1) → ℂ) => solveIntersect roots cs ps (List.ofFn x.1, List.ofFn x.2)) d
    (fun x z => ∃ Z : Fin (m + 1) → ℂ, z = List.ofFn Z ∧ Z ≠ 0 ∧ ∃ r : ℂ, (Z = fun i => x.1 i + r * x.2 i) ∧
      ‖eval Z F‖ ≤ τ * ∑ e ∈ F.support, ‖coeff e F‖ * ∏ i, (‖x.1 i‖ + ‖x.2 i‖ * ‖r‖) ^ e i) draws
    (by
      intro x hx
      have hx' := hd x hx
      obtain ⟨rest, k1, k2, k3⟩ := h3 x.1 x.2 ps _ h.params (h.defining hF x.2 hx'.ne.1) hx'.2
      obtain ⟨r1, r2⟩ := hr _ rest hx'.2
      have hv : ∀ r, polyval (eval x.2 F :: rest) r = eval (fun i => x.1 i + r * x.2 i) F := fun r => by
        have := k2 r
        rw [h.defining hF _ (hx'.ne.2 r)] at this
        exact (Except.ok.inj this).symm
      refine ⟨_, k3 roots, by rw [List.length_map, r1, k1], fun z hz => ?_⟩
      obtain ⟨r, hr', rfl⟩ := List.mem_map.1 hz
      refine ⟨_, rfl, hx'.ne.2 r, r, rfl, ?_⟩
      rw [← hv]
      exact (r2 r hr').trans (mul_le_mul_of_nonneg_left (polyvalAbs_line F x.1 x.2 _ hv ‖r‖ (norm_nonneg _)) hτ))
  have g1' : (asLists draws).mapM (solveIntersect roots cs ps) = .ok ptss := by
    unfold asLists
    rw [← g1, List.mapM_map]
    rfl
  have key : ∀ z ∈ ptss.flatten, ∃ Z : Fin (m + 1) → ℂ, List.ofFn Z = z := by
    intro z hz
    obtain ⟨k, hk⟩ := List.mem_iff_getElem?.1 hz
    obtain ⟨x, -, Z, rfl, -⟩ := g3 k z hk
    exact ⟨_, rfl⟩
  choose! g hg using key
  refine ⟨(ptss.flatten.take count).map g, ?_, by rw [List.length_map, List.length_take, g2], ?_⟩
  · unfold sampleIntersect
    rw [h1]
    simp only
    rw [h2]
    simp only
    rw [g1', List.map_map]
    exact congrArg Except.ok ((List.map_id _).symm.trans (List.map_congr_left fun z hz => (hg z (List.mem_of_mem_take hz)).symm))
  · intro k Z hZ
    rw [List.getElem?_map, Option.map_eq_some_iff] at hZ
    obtain ⟨z, hz, rfl⟩ := hZ
    have hz' : ptss.flatten[k]? = some z := by
      rw [List.getElem?_take] at hz
      split at hz
      · exact hz
      · cases hz
    obtain ⟨x, hx, Z, hZ1, hZ2⟩ := g3 k z hz'
    have : g z = Z := List.ofFn_injective ((hg z (List.mem_of_getElem? hz')).trans hZ1)
    rw [this]
    exact ⟨hZ2.1, x, hx, hZ2.2⟩

theorem combination_eq {m : ℕ} (p q : Fin m → ℂ) (hp : ∑ i, ‖p i‖ ^ 2 = 1) (hq : ∑ i, ‖q i‖ ^ 2 = 1) (r : ℂ) :
    ∑ i, ‖p i + r * q i‖ ^ 2 = 1 + ‖r‖ ^ 2 + 2 * (r * ∑ i, (starRingEnd ℂ) (p i) * q i).re := by
  have : ∀ i, ‖p i + r * q i‖ ^ 2 = ‖p i‖ ^ 2 + ‖r‖ ^ 2 * ‖q i‖ ^ 2 + 2 * (r * ((starRingEnd ℂ) (p i) * q i)).re := fun i => by
    rw [← Complex.normSq_eq_norm_sq, Complex.normSq_add, Complex.normSq_eq_norm_sq, Complex.normSq_eq_norm_sq, norm_mul, mul_pow]
    congr 2
    simp [Complex.mul_re, Complex.mul_im]
    ring
  rw [Finset.sum_congr rfl fun i _ => this i, Finset.sum_add_distrib, Finset.sum_add_distrib, ← Finset.mul_sum, ← Finset.mul_sum,
    hp, hq, mul_one, ← Complex.re_sum, ← Finset.mul_sum]

/-- Independent unit vectors are not parallel. -/
theorem inner_lt_one {m : ℕ} (p q : Fin m → ℂ) (hp : ∑ i, ‖p i‖ ^ 2 = 1) (hq : ∑ i, ‖q i‖ ^ 2 = 1)
    (hne : ∀ r : ℂ, (fun i => p i + r * q i) ≠ 0) : ‖∑ i, (starRingEnd ℂ) (p i) * q i‖ < 1 := by
  set s := ∑ i, (starRingEnd ℂ) (p i) * q i with hs
  have e := combination_eq p q hp hq (-(starRingEnd ℂ) s)
  rw [← hs, norm_neg, Complex.norm_conj, neg_mul, mul_comm ((starRingEnd ℂ) s), Complex.mul_conj, Complex.neg_re, Complex.ofReal_re,
    Complex.normSq_eq_norm_sq] at e
  have hpos : 0 < ∑ i, ‖p i + -(starRingEnd ℂ) s * q i‖ ^ 2 := by
    obtain ⟨k, hk⟩ := Function.ne_iff.1 (hne (-(starRingEnd ℂ) s))
    refine Finset.sum_pos' (fun _ _ => by positivity) ⟨k, Finset.mem_univ _, ?_⟩
    have : 0 < ‖p k + -(starRingEnd ℂ) s * q k‖ := norm_pos_iff.2 hk
    positivity
  have h0 := norm_nonneg s
  nlinarith

/-- A combination of two unit vectors is not small unless they are nearly parallel. -/
theorem combination_bound {m : ℕ} (p q : Fin m → ℂ) (hp : ∑ i, ‖p i‖ ^ 2 = 1) (hq : ∑ i, ‖q i‖ ^ 2 = 1) (r : ℂ)
    (hc : ‖∑ i, (starRingEnd ℂ) (p i) * q i‖ ≤ 1) :
    (1 - ‖∑ i, (starRingEnd ℂ) (p i) * q i‖) * (1 + ‖r‖) ^ 2 ≤ 2 * ∑ i, ‖p i + r * q i‖ ^ 2 := by
  have e := combination_eq p q hp hq r
  set c := ‖∑ i, (starRingEnd ℂ) (p i) * q i‖
  have h1 : -(‖r‖ * c) ≤ (r * ∑ i, (starRingEnd ℂ) (p i) * q i).re := by
    have := Complex.abs_re_le_norm (r * ∑ i, (starRingEnd ℂ) (p i) * q i)
    rw [norm_mul] at this
    exact neg_le_of_abs_le this
  rw [e]
  have hc0 : 0 ≤ c := norm_nonneg _
  nlinarith [sq_nonneg (1 - ‖r‖), norm_nonneg r, mul_nonneg hc0 (sq_nonneg (1 - ‖r‖)), mul_nonneg (sub_nonneg.2 hc) (sq_nonneg (1 - ‖r‖))]

/-- The largest coordinate is not small. -/
theorem max_coord_bound {m : ℕ} (Z : Fin (m + 1) → ℂ) (p : Fin (m + 1)) (hp : ∀ i, ‖Z i‖ ≤ ‖Z p‖) :
    ∑ i, ‖Z i‖ ^ 2 ≤ (m + 1) * ‖Z p‖ ^ 2 := by
  calc ∑ i, ‖Z i‖ ^ 2 ≤ ∑ _i : Fin (m + 1), ‖Z p‖ ^ 2 :=
        Finset.sum_le_sum fun i _ => pow_le_pow_left₀ (norm_nonneg _) (hp i) 2
    _ = _ := by simp

/-- A small residual is a small backward error. -/
theorem backward_of_residual (cs : List ℂ) (r : ℂ) (τ : ℝ) (h0 : 0 ≤ τ) (h : ‖polyval cs r‖ ≤ τ * polyvalAbs cs ‖r‖) :
    ∃ cs' : List ℂ, cs'.length = cs.length ∧ (∀ k, ‖cs'.getD k 0 - cs.getD k 0‖ ≤ τ * ‖cs.getD k 0‖) ∧ polyval cs' r = 0 := by
  set W := polyvalAbs cs ‖r‖ with hW
  rcases eq_or_ne W 0 with hz | hz
  · rw [hz, mul_zero] at h
    exact ⟨cs, rfl, fun k => by rw [sub_self, norm_zero]; positivity, norm_le_zero_iff.1 h⟩
  have hWpos : 0 < W := lt_of_le_of_ne (Finset.sum_nonneg fun _ _ => by positivity) (Ne.symm hz)
  obtain ⟨u, hu1, hu2⟩ : ∃ u : ℂ, ‖u‖ = 1 ∧ u * r = (‖r‖ : ℂ) := by
    rcases eq_or_ne r 0 with rfl | hr
    · exact ⟨1, norm_one, by simp⟩
    · refine ⟨(‖r‖ : ℂ) / r, ?_, div_mul_cancel₀ _ hr⟩
      rw [norm_div, Complex.norm_real, norm_norm, div_self (norm_ne_zero_iff.2 hr)]
  set θ := polyval cs r / (W : ℂ) with hθ
  have hθn : ‖θ‖ ≤ τ := by
    rw [hθ, norm_div, Complex.norm_real, Real.norm_of_nonneg hWpos.le, div_le_iff₀ hWpos]
    exact h
  set f : ℕ → ℂ := fun j => cs.getD j 0 - θ * ‖cs.getD j 0‖ * u ^ (cs.length - 1 - j) with hf
  have hget : ∀ j < cs.length, ((List.range cs.length).map f).getD j 0 = f j := by
    intro j hj
    simp [List.getD_eq_getElem?_getD, hj]
  refine ⟨(List.range cs.length).map f, by simp, fun k => ?_, ?_⟩
  · by_cases hk : k < cs.length
    · rw [hget k hk, hf]
      simp only
      rw [sub_sub_cancel_left, norm_neg, norm_mul, norm_mul, norm_pow, hu1, one_pow, mul_one, Complex.norm_real, norm_norm]
      exact mul_le_mul_of_nonneg_right hθn (norm_nonneg _)
    · simp [List.getD_eq_getElem?_getD, hk]
  · unfold polyval
    rw [List.length_map, List.length_range]
    have : ∀ k ∈ Finset.range cs.length, ((List.range cs.length).map f).getD (cs.length - 1 - k) 0 * r ^ k =
        cs.getD (cs.length - 1 - k) 0 * r ^ k - θ * ((‖cs.getD (cs.length - 1 - k) 0‖ * ‖r‖ ^ k : ℝ) : ℂ) := by
      intro k hk
      have hk' := Finset.mem_range.1 hk
      rw [hget _ (by omega), hf]
      simp only
      rw [show cs.length - 1 - (cs.length - 1 - k) = k by omega]
      push_cast
      rw [← hu2, mul_pow]
      ring
    rw [Finset.sum_congr rfl this, Finset.sum_sub_distrib, ← Finset.mul_sum, ← Complex.ofReal_sum]
    change polyval cs r - θ * (W : ℂ) = 0
    rw [hθ, div_mul_cancel₀ _ (by exact_mod_cast hz), sub_self]

end Cyjax
