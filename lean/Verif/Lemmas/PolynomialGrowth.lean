import Mathlib.Analysis.Complex.Liouville
import Mathlib.Analysis.Complex.RemovableSingularity
import Mathlib.Analysis.Complex.Polynomial.Basic
import Mathlib.LinearAlgebra.Lagrange
import Mathlib.Algebra.MvPolynomial.Basic
import Mathlib.Topology.Algebra.MvPolynomial
import Mathlib.LinearAlgebra.Complex.FiniteDimensional
import Mathlib.Topology.Algebra.Module.Cardinality

/-! # Functions of polynomial growth, and functions that are polynomial in each variable (for C138) -/

namespace Cyjax

open Set Filter Topology

/-- An entire function of polynomial growth is a polynomial. -/
theorem poly_of_growth : ∀ (d : ℕ) (f : ℂ → ℂ) (K : ℝ), Differentiable ℂ f → (∀ s, ‖f s‖ ≤ K * (1 + ‖s‖) ^ d) →
    ∃ q : Polynomial ℂ, q.natDegree ≤ d ∧ ∀ s, f s = q.eval s
  | 0, f, K, hf, hb => by
    refine ⟨Polynomial.C (f 0), (Polynomial.natDegree_C _).le, fun s => ?_⟩
    rw [Polynomial.eval_C]
    refine hf.apply_eq_apply_of_bounded ?_ s 0
    refine isBounded_iff_forall_norm_le.2 ⟨K, ?_⟩
    rintro _ ⟨x, rfl⟩
    simpa using hb x
  | d + 1, f, K, hf, hb => by
    have hK : 0 ≤ K := by
      have := (norm_nonneg _).trans (hb 0)
      simpa using this
    have hg : Differentiable ℂ (dslope f 0) := by
      rw [← differentiableOn_univ, Complex.differentiableOn_dslope univ_mem]
      exact hf.differentiableOn
    obtain ⟨M, hM⟩ := (isCompact_closedBall (0 : ℂ) 1).exists_bound_of_continuousOn hg.continuous.continuousOn
    obtain ⟨q, hq, hqe⟩ := poly_of_growth d (dslope f 0) (4 * K + |M|) hg fun s => by
      have h1 : (1 : ℝ) ≤ 1 + ‖s‖ := by linarith [norm_nonneg s]
      have hp : 1 ≤ (1 + ‖s‖) ^ d := one_le_pow₀ h1
      rcases le_or_gt ‖s‖ 1 with hs | hs
      · have := hM s (by simpa using hs)
        have h2 : |M| * 1 ≤ |M| * (1 + ‖s‖) ^ d := mul_le_mul_of_nonneg_left hp (abs_nonneg M)
        have h3 : 0 ≤ 4 * K * (1 + ‖s‖) ^ d := by positivity
        calc _ ≤ M := this
          _ ≤ |M| := le_abs_self M
          _ ≤ _ := by nlinarith
      · have hs0 : s ≠ 0 := fun h => by rw [h, norm_zero] at hs; linarith
        rw [dslope_of_ne _ hs0, slope_def_field, norm_div, sub_zero, div_le_iff₀ (by linarith)]
        have h2 := (norm_sub_le (f s) (f 0)).trans (add_le_add (hb s) (hb 0))
        have h3 : K * (1 + ‖(0 : ℂ)‖) ^ (d + 1) ≤ K * (1 + ‖s‖) ^ (d + 1) := by
          refine mul_le_mul_of_nonneg_left (pow_le_pow_left₀ (by simp) ?_ _) hK
          simp
        have h4 : K * (1 + ‖s‖) ^ (d + 1) ≤ 2 * K * (1 + ‖s‖) ^ d * ‖s‖ := by
          rw [pow_succ]
          have : 0 ≤ K * (1 + ‖s‖) ^ d := by positivity
          nlinarith
        have h5 : 0 ≤ |M| * (1 + ‖s‖) ^ d * ‖s‖ := by positivity
        linarith
    refine ⟨Polynomial.C (f 0) + Polynomial.X * q, ?_, fun s => ?_⟩
    · refine (Polynomial.natDegree_add_le _ _).trans (max_le (by simp) ?_)
      refine Polynomial.natDegree_mul_le.trans ?_
      have := Polynomial.natDegree_X_le (R := ℂ)
      omega
    · rw [Polynomial.eval_add, Polynomial.eval_C, Polynomial.eval_mul, Polynomial.eval_X, ← hqe]
      have := sub_smul_dslope f 0 s
      rw [sub_zero, smul_eq_mul] at this
      rw [this]
      ring

/-- The same with finitely many exceptional points. -/
theorem poly_of_growth_off {S : Set ℂ} (hS : S.Finite) {f : ℂ → ℂ} (hd : ∀ s, s ∉ S → DifferentiableAt ℂ f s) {d : ℕ} {K : ℝ}
    (hb : ∀ s, ‖f s‖ ≤ K * (1 + ‖s‖) ^ d) :
    ∃ q : Polynomial ℂ, q.natDegree ≤ d ∧ ∀ s, s ∉ S → f s = q.eval s := by
  classical
  set g : ℂ → ℂ := fun s => if s ∈ S then limUnder (𝓝[≠] s) f else f s with hg
  have hoff : ∀ s, s ∉ S → g s = f s := fun s hs => if_neg hs
  have hdiff : Differentiable ℂ g := by
    intro s
    by_cases hs : s ∈ S
    · have ho : IsOpen (S \ {s})ᶜ := (hS.subset diff_subset).isClosed.isOpen_compl
      have hmem : (S \ {s})ᶜ ∩ Metric.closedBall s 1 ∈ 𝓝 s :=
        inter_mem (ho.mem_nhds fun h => h.2 rfl) (Metric.closedBall_mem_nhds s one_pos)
      have h1 := Complex.differentiableOn_update_limUnder_of_bddAbove (f := f) hmem (fun x hx => by
          refine (hd x fun hxS => ?_).differentiableWithinAt
          exact hx.1.1 ⟨hxS, hx.2⟩) (by
          refine ⟨|K| * (1 + (‖s‖ + 1)) ^ d, ?_⟩
          rintro _ ⟨x, hx, rfl⟩
          refine (hb x).trans ?_
          have hx1 : ‖x‖ ≤ ‖s‖ + 1 := by
            have h3 := norm_sub_norm_le x s
            have h4 := hx.1.2
            rw [mem_closedBall_iff_norm] at h4
            linarith
          have : (1 + ‖x‖) ^ d ≤ (1 + (‖s‖ + 1)) ^ d := pow_le_pow_left₀ (by positivity) (by linarith) _
          exact (mul_le_mul_of_nonneg_right (le_abs_self K) (by positivity)).trans
            (mul_le_mul_of_nonneg_left this (abs_nonneg K)))
      refine (h1.differentiableAt hmem).congr_of_eventuallyEq ?_
      filter_upwards [hmem] with x hx
      rcases eq_or_ne x s with rfl | hxs
      · simp [hg, hs]
      · rw [Function.update_of_ne hxs]
        exact hoff x fun hxS => hx.1 ⟨hxS, hxs⟩
    · refine (hd s hs).congr_of_eventuallyEq ?_
      filter_upwards [hS.isClosed.isOpen_compl.mem_nhds hs] with x hx
      exact hoff x hx
  have hclosed : IsClosed {s | ‖g s‖ ≤ K * (1 + ‖s‖) ^ d} :=
    isClosed_le hdiff.continuous.norm (by fun_prop)
  have hdense : Dense Sᶜ := hS.countable.dense_compl ℂ
  have hall : ∀ s, ‖g s‖ ≤ K * (1 + ‖s‖) ^ d := by
    intro s
    have : closure Sᶜ ⊆ {s | ‖g s‖ ≤ K * (1 + ‖s‖) ^ d} := hclosed.closure_subset_iff.2 fun x hx => by
      rw [mem_ofPred_eq, hoff x hx]
      exact hb x
    exact this (hdense s)
  obtain ⟨q, hq, hqe⟩ := poly_of_growth d g K hdiff hall
  exact ⟨q, hq, fun s hs => by rw [← hoff s hs, hqe]⟩

open MvPolynomial in
/-- A function on a product of infinite sets that is a polynomial of bounded degree in each variable is a polynomial. -/
theorem poly_of_separate (d : ℕ) : ∀ (m : ℕ) (D : Fin m → Set ℂ) (_ : ∀ i, (D i).Infinite) (g : (Fin m → ℂ) → ℂ),
    (∀ x, (∀ i, x i ∈ D i) → ∀ i, ∃ q : Polynomial ℂ, q.natDegree ≤ d ∧ ∀ t ∈ D i, g (Function.update x i t) = q.eval t) →
    ∃ P : MvPolynomial (Fin m) ℂ, ∀ x, (∀ i, x i ∈ D i) → g x = eval x P
  | 0, D, _, g, _ => ⟨C (g 0), fun x _ => by rw [eval_C, Subsingleton.elim x 0]⟩
  | m + 1, D, hD, g, hg => by
    obtain ⟨T, hT, hc⟩ := (hD 0).exists_subset_card_eq (d + 1)
    have hrec : ∀ a ∈ T, ∃ P : MvPolynomial (Fin m) ℂ, ∀ y : Fin m → ℂ, (∀ i, y i ∈ D i.succ) →
        g (Fin.cons (α := fun _ => ℂ) a y) = eval y P := by
      intro a ha
      refine poly_of_separate d m (fun i => D i.succ) (fun i => hD _) (fun y => g (Fin.cons (α := fun _ => ℂ) a y)) ?_
      intro y hy i
      obtain ⟨q, hq, hqe⟩ := hg (Fin.cons (α := fun _ => ℂ) a y) (Fin.cases (hT ha) hy) i.succ
      refine ⟨q, hq, fun t ht => ?_⟩
      rw [← hqe t ht, Fin.cons_update]
    choose! P hP using hrec
    refine ⟨∑ a ∈ T, rename Fin.succ (P a) * Polynomial.aeval (X 0) (Lagrange.basis T id a), fun x hx => ?_⟩
    obtain ⟨q, hq, hqe⟩ := hg x hx 0
    have hlag := Lagrange.eq_interpolate (s := T) (v := id) (f := q) (injOn_id _) (by
      rw [hc]
      exact (Polynomial.degree_le_of_natDegree_le hq).trans_lt (by exact_mod_cast Nat.lt_succ_self d))
    have h0 : g x = q.eval (x 0) := by rw [← hqe _ (hx 0), Function.update_eq_self]
    rw [h0, hlag, Lagrange.interpolate_apply, Polynomial.eval_finsetSum, map_sum]
    refine Finset.sum_congr rfl fun a ha => ?_
    rw [Polynomial.eval_mul, Polynomial.eval_C, map_mul, eval_rename, id_eq]
    congr 1
    · rw [← hqe a (hT ha)]
      have : Function.update x 0 a = Fin.cons (α := fun _ => ℂ) a (fun i => x i.succ) := by
        funext i
        refine Fin.cases ?_ (fun j => ?_) i
        · simp
        · simp
      rw [this, hP a ha _ fun i => hx i.succ]
      rfl
    · have := Polynomial.aeval_algHom_apply (MvPolynomial.aeval (R := ℂ) x) (X 0) (Lagrange.basis T id a)
      rw [aeval_X] at this
      exact this
end Cyjax
