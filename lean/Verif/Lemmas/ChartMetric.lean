import Verif.Lemmas.Geometry
import Verif.Lemmas.Jet
import Verif.Props.FubiniStudy
import Verif.Props.Sections
import Mathlib.RingTheory.MvPolynomial.EulerIdentity

/-! # Transformation of sections and metric under a change of chart (for C101, C102) -/

namespace Cyjax

open Cyjax.Projective MvPolynomial
open scoped ComplexConjugate

variable {n : ℕ}

/-- `M[a, i] = ∂w_a/∂z_i` is the Jacobian at `z` of the change of chart from patch `p` to patch `q`. -/
def IsChartJac (z : Fin (n + 1) → ℂ) (p q : Fin (n + 2)) (M : Matrix (Fin (n + 1)) (Fin (n + 1)) ℂ) : Prop :=
  ∀ a i, HasDerivAt (fun t => changeChart (Function.update z i t) (p : ℕ) (q : ℕ) a) (M a i) (z i)

theorem affineToHom_update (z : Fin n → ℂ) (p : Fin (n + 1)) (i : Fin n) (t : ℂ) :
    affineToHom (Function.update z i t) (p : ℕ) = Function.update (affineToHom z (p : ℕ)) (p.succAbove i) t := by
  funext k
  rcases eq_or_ne k p with rfl | hk
  · rw [affineToHom_same, Function.update_of_ne (Fin.succAbove_ne _ _).symm, affineToHom_same]
  · obtain ⟨l, rfl⟩ := Fin.exists_succAbove_eq hk
    rw [affineToHom_succAbove]
    by_cases hl : l = i
    · subst hl; simp
    · rw [Function.update_of_ne hl, Function.update_of_ne (by simpa using hl), affineToHom_succAbove]

theorem eval_smul_homogeneous {σ : Type*} {F : MvPolynomial σ ℂ} {k : ℕ} (hF : F.IsHomogeneous k) (c : ℂ) (x : σ → ℂ) :
    eval (fun i => c * x i) F = c ^ k * eval x F := by
  rw [eval_eq, eval_eq, Finset.mul_sum]
  refine Finset.sum_congr rfl fun m hm => ?_
  simp only [mul_pow, Finset.prod_mul_distrib, Finset.prod_pow_eq_pow_sum]
  rw [hF.degree_eq_sum_deg_support hm]
  ring

/-- A derivative in chart `p` of a homogeneous function in terms of the derivatives in chart `q`. -/
theorem pderiv_chart {F : MvPolynomial (Fin (n + 2)) ℂ} {k : ℕ} (hF : F.IsHomogeneous k) (z : Fin (n + 1) → ℂ)
    (p q : Fin (n + 2)) (hpq : p ≠ q) (hq : affineToHom z (p : ℕ) q ≠ 0) {M : Matrix (Fin (n + 1)) (Fin (n + 1)) ℂ}
    (hM : IsChartJac z p q M) (i : Fin (n + 1)) :
    eval (affineToHom z (p : ℕ)) (pderiv (p.succAbove i) F) =
      affineToHom z (p : ℕ) q ^ k * ∑ b, M b i *
          eval (affineToHom (changeChart z (p : ℕ) (q : ℕ)) (q : ℕ)) (pderiv (q.succAbove b) F) +
        k * (if p.succAbove i = q then 1 else 0) / affineToHom z (p : ℕ) q * eval (affineToHom z (p : ℕ)) F := by
  set Z := affineToHom z (p : ℕ) with hZ
  set W := affineToHom (changeChart z (p : ℕ) (q : ℕ)) (q : ℕ) with hW
  have hWZ : ∀ j, Z j = Z q * W j := fun j => (C19_same_point z p q hpq hq j).symm
  have hX : ∀ j, Z q * eval Z (pderiv j F) = Z q ^ k * eval W (pderiv j F) := by
    intro j
    rcases Nat.eq_zero_or_pos k with rfl | hk
    · have : pderiv j F = 0 := by
        rw [← totalDegree_zero_iff_isHomogeneous, totalDegree_eq_zero_iff_eq_C] at hF
        rw [hF, pderiv_C]
      simp [this]
    · have h := eval_smul_homogeneous (hF.pderiv (i := j)) (Z q) W
      rw [← funext hWZ] at h
      rw [h, ← mul_assoc, ← pow_succ', Nat.sub_add_cancel hk]
  have hE : ∑ j, Z j * eval Z (pderiv j F) = k * eval Z F := by
    have := congrArg (eval Z) hF.sum_X_mul_pderiv
    simpa using this
  -- entries of the Jacobian
  have hMe : ∀ b, M b i = ((if p.succAbove i = q.succAbove b then 1 else 0) * Z q -
      Z (q.succAbove b) * (if p.succAbove i = q then 1 else 0)) / Z q ^ 2 := by
    intro b
    have hlin : ∀ k, HasDerivAt (fun t => affineToHom (Function.update z i t) (p : ℕ) k)
        (if p.succAbove i = k then 1 else 0) (z i) := by
      intro k
      simp only [affineToHom_update]
      by_cases h : p.succAbove i = k
      · subst h; simpa using hasDerivAt_id' (z i)
      · simp only [Function.update_of_ne (Ne.symm h), if_neg h]; exact hasDerivAt_const _ _
    have e : (fun t => changeChart (Function.update z i t) (p : ℕ) (q : ℕ) b) = fun t =>
        affineToHom (Function.update z i t) (p : ℕ) (q.succAbove b) /
          affineToHom (Function.update z i t) (p : ℕ) q := by
      funext t; rw [C19_change_chart _ p q hpq, homToAffine_apply]
    have h1 := (hlin (q.succAbove b)).div (hlin q) (by simpa using hq)
    simp only [Function.update_eq_self] at h1
    have h2 := hM b i
    rw [e] at h2
    exact h2.unique h1
  rw [Finset.mul_sum]
  have h1 : ∀ b, Z q ^ k * (M b i * eval W (pderiv (q.succAbove b) F)) =
      (if p.succAbove i = q.succAbove b then 1 else 0) * eval Z (pderiv (q.succAbove b) F) -
      (if p.succAbove i = q then 1 else 0) / Z q * (Z (q.succAbove b) * eval Z (pderiv (q.succAbove b) F)) := by
    intro b
    rw [mul_left_comm, ← hX, hMe]
    field_simp
  simp only [h1, Finset.sum_sub_distrib, ← Finset.mul_sum]
  rw [Fin.sum_univ_succAbove _ q] at hE
  have h2 : ∑ b, Z (q.succAbove b) * eval Z (pderiv (q.succAbove b) F) = k * eval Z F - Z q * eval Z (pderiv q F) := by
    linear_combination hE
  rw [h2]
  have h3 : eval Z (pderiv (p.succAbove i) F) = ∑ j, (if p.succAbove i = j then 1 else 0) * eval Z (pderiv j F) := by
    simp
  rw [h3, Fin.sum_univ_succAbove _ q]
  field_simp
  ring

end Cyjax

namespace Cyjax.Donaldson

open Cyjax.Projective Cyjax.Spec MvPolynomial
open scoped ComplexConjugate

variable {N n : ℕ}

/-- The quotient metric of a Hermitian form: invariant under `v ↦ λ(v + μ s)`, `s ↦ λ s`. -/
theorem quotient_invariant {H : Matrix (Fin N) (Fin N) ℂ} (s u v : Fin N → ℂ) (c a b : ℂ) (hc : c ≠ 0)
    (hs : bil H s s ≠ 0) :
    bil H (c • (u + a • s)) (c • (v + b • s)) / bil H (c • s) (c • s) -
      bil H (c • (u + a • s)) (c • s) * bil H (c • s) (c • (v + b • s)) / bil H (c • s) (c • s) ^ 2 =
    bil H u v / bil H s s - bil H u s * bil H s v / bil H s s ^ 2 := by
  have hcc : conj c ≠ 0 := (map_ne_zero _).2 hc
  simp only [bil_smul_left, bil_smul_right, bil_add_left, bil_add_right]
  field_simp
  ring

/-- The metric in terms of the form `bil`. -/
theorem gProj_bil {H : Matrix (Fin N) (Fin N) ℂ} (hH : H.IsHermitian) (J : Jet N n) (degree : ℕ) (i j : Fin n) :
    Graph.gProj (.full H) J degree i j =
      (bil H (fun a => J.s1 a i) (fun a => J.s1 a j) / bil H J.s J.s -
        bil H (fun a => J.s1 a i) J.s * bil H J.s (fun a => J.s1 a j) / bil H J.s J.s ^ 2) / (degree * Real.pi) := by
  rw [← bil_conj hH (fun a => J.s1 a j) J.s]
  rfl

/-- Covariance of the metric when sections and derivatives transform with a common factor and a Jacobian. -/
theorem gProj_covariant {H : Matrix (Fin N) (Fin N) ℂ} (hH : H.IsHermitian) (J J' : Jet N n) (degree : ℕ) (c : ℂ)
    (hc : c ≠ 0) (μ : Fin n → ℂ) (M : Matrix (Fin n) (Fin n) ℂ) (hs : J.s = c • J'.s)
    (h1 : ∀ i, (fun a => J.s1 a i) = c • ((∑ b, M b i • fun a => J'.s1 a b) + μ i • J'.s))
    (h0 : bil H J'.s J'.s ≠ 0) :
    Graph.gProj (.full H) J degree = M.transpose * Graph.gProj (.full H) J' degree * M.map conj := by
  ext i j
  rw [gProj_bil hH, hs, h1, h1, quotient_invariant _ _ _ _ _ _ hc h0]
  simp only [bil_sum_left, bil_smul_left]
  simp only [bil_sum_right, bil_smul_right]
  have hR : (M.transpose * Graph.gProj (.full H) J' degree * M.map conj) i j =
      ∑ b, ∑ d, M b i * Graph.gProj (.full H) J' degree b d * conj (M d j) := by
    simp only [Matrix.mul_apply, Matrix.transpose_apply, Matrix.map_apply, Finset.sum_mul]
    exact Finset.sum_comm
  rw [hR, Finset.sum_mul_sum]
  simp only [Finset.mul_sum, Finset.sum_div, ← Finset.sum_sub_distrib]
  refine Finset.sum_congr rfl fun b _ => ?_
  refine Finset.sum_congr rfl fun d _ => ?_
  rw [gProj_bil hH]
  ring

/-- The first derivatives of sections given by homogeneous polynomials. -/
theorem jet_first {S : (Fin n → ℂ) → Jet N n} (hS : IsJet S) (p : Fin (n + 1)) (F : Fin N → MvPolynomial (Fin (n + 1)) ℂ)
    (hs : ∀ z a, (S z).s a = eval (affineToHom z (p : ℕ)) (F a)) (z : Fin n → ℂ) (a : Fin N) (i : Fin n) :
    (S z).s1 a i = eval (affineToHom z (p : ℕ)) (pderiv (p.succAbove i) (F a)) := by
  have h1 := hS.first z a i
  simp only [hs, affineToHom_update] at h1
  have h2 := eval_hasDerivAt (F a) (p.succAbove i) (affineToHom z (p : ℕ))
  rw [affineToHom_succAbove] at h2
  exact h1.unique h2

/-- Sections given by homogeneous polynomials of equal degree, in two charts. -/
theorem gProj_chart {H : Matrix (Fin N) (Fin N) ℂ} (hH : H.IsHermitian) (degree : ℕ) {k : ℕ}
    (F : Fin N → MvPolynomial (Fin (n + 2)) ℂ) (hF : ∀ a, (F a).IsHomogeneous k) (p q : Fin (n + 2)) (hpq : p ≠ q)
    {S S' : (Fin (n + 1) → ℂ) → Jet N (n + 1)} (hS : IsJet S) (hS' : IsJet S')
    (hs : ∀ z a, (S z).s a = eval (affineToHom z (p : ℕ)) (F a))
    (hs' : ∀ z a, (S' z).s a = eval (affineToHom z (q : ℕ)) (F a)) (z : Fin (n + 1) → ℂ)
    (hq : affineToHom z (p : ℕ) q ≠ 0) {M : Matrix (Fin (n + 1)) (Fin (n + 1)) ℂ} (hM : IsChartJac z p q M)
    (h0 : Graph.psi (.full H) (S z) ≠ 0) :
    Graph.gProj (.full H) (S z) degree =
      M.transpose * Graph.gProj (.full H) (S' (changeChart z (p : ℕ) (q : ℕ))) degree * M.map conj := by
  set c := affineToHom z (p : ℕ) q with hc
  set w := changeChart z (p : ℕ) (q : ℕ) with hw
  have hsc : (S z).s = (c ^ k) • (S' w).s := by
    funext a
    rw [Pi.smul_apply, smul_eq_mul, hs, hs', ← eval_smul_homogeneous (hF a)]
    congr 2
    funext j
    exact (C19_same_point z p q hpq hq j).symm
  refine gProj_covariant hH (S z) (S' w) degree (c ^ k) (pow_ne_zero _ hq)
    (fun i => k * (if p.succAbove i = q then 1 else 0) / c) M hsc ?_ ?_
  · intro i
    funext a
    rw [jet_first hS p F hs, pderiv_chart (hF a) z p q hpq hq hM i, ← hs, hsc]
    simp only [Pi.smul_apply, Pi.add_apply, Finset.sum_apply, smul_eq_mul, jet_first hS' q F hs']
    ring
  · intro h
    apply h0
    change bil H (S z).s (S z).s = 0
    rw [hsc, bil_smul_left, bil_smul_right, h, mul_zero, mul_zero]

end Cyjax.Donaldson
