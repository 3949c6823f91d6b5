import Verif.Spec.Samplable
import Mathlib.RingTheory.Nullstellensatz
import Mathlib.Analysis.Complex.Polynomial.Basic
import Mathlib.RingTheory.MvPolynomial.Homogeneous
import Mathlib.RingTheory.MvPolynomial.EulerIdentity
import Mathlib.Algebra.Order.Antidiag.Finsupp
import Mathlib.LinearAlgebra.Matrix.Determinant.Basic
import Mathlib.LinearAlgebra.Matrix.NonsingularInverse
import Mathlib.LinearAlgebra.Matrix.ToLinearEquiv

/-! # If one member of a family of hypersurfaces is smooth, the moduli of the others satisfy an equation -/

namespace Cyjax

open MvPolynomial Cyjax.Spec

variable {m P : ℕ}

theorem homogeneousComponent_mul_right {R : Type*} [CommRing R] {d : ℕ} {g : MvPolynomial (Fin m) R} (hg : g.IsHomogeneous d)
    (h : MvPolynomial (Fin m) R) (n : ℕ) :
    homogeneousComponent (n + d) (h * g) = homogeneousComponent n h * g := by
  conv_lhs => rw [← sum_homogeneousComponent h, Finset.sum_mul, map_sum]
  have : ∀ i, homogeneousComponent (n + d) (homogeneousComponent i h * g) = if i = n then homogeneousComponent i h * g else 0 := by
    intro i
    rw [homogeneousComponent_of_mem (m := n + d) (n := i + d) ((homogeneousComponent_isHomogeneous i h).mul hg)]
    by_cases hi : i = n
    · simp [hi]
    · rw [if_neg hi, if_neg fun h => hi (by omega)]
  simp only [this]
  rw [Finset.sum_ite_eq']
  split_ifs with hn
  · rfl
  · rw [homogeneousComponent_eq_zero _ _ (by simpa using hn), zero_mul]

/-- If finitely many forms have no common zero but the origin, all monomials of some large degree are combinations of them. -/
theorem monomials_mem_span {ι : Type*} [Fintype ι] (g : ι → MvPolynomial (Fin m) ℂ) (h0 : ∀ Z, (∀ i, eval Z (g i) = 0) → Z = 0)
    (hm : 0 < m) : ∃ D₀, ∀ D, D₀ ≤ D → ∀ t : Fin m →₀ ℕ, t.degree = D → monomial t (1 : ℂ) ∈ Ideal.span (Set.range g) := by
  have hX : ∀ j : Fin m, ∃ N, (X j : MvPolynomial (Fin m) ℂ) ^ N ∈ Ideal.span (Set.range g) := by
    intro j
    have : (X j : MvPolynomial (Fin m) ℂ) ∈ (Ideal.span (Set.range g)).radical := by
      rw [← vanishingIdeal_zeroLocus_eq_radical (k := ℂ) (K := ℂ), mem_vanishingIdeal_iff]
      intro Z hZ
      rw [zeroLocus_span] at hZ
      have hZ0 := h0 Z fun i => by
        have := hZ (g i) ⟨i, rfl⟩
        rwa [aeval_eq_eval] at this
      simp [hZ0]
    exact Ideal.mem_radical_iff.1 this
  choose N hN using hX
  refine ⟨∑ j, N j, fun D hD t ht => ?_⟩
  obtain ⟨j, hj⟩ : ∃ j, N j ≤ t j := by
    by_contra hcon
    push Not at hcon
    have : ∑ j, t j < ∑ j, N j := Finset.sum_lt_sum_of_nonempty ⟨⟨0, hm⟩, Finset.mem_univ _⟩ fun j _ => hcon j
    rw [Finsupp.degree_eq_sum] at ht
    omega
  have : monomial t (1 : ℂ) = monomial (t - Finsupp.single j (N j)) 1 * X j ^ N j := by
    rw [X_pow_eq_monomial, monomial_mul, mul_one, tsub_add_cancel_of_le]
    rwa [Finsupp.single_le_iff]
  rw [this]
  exact Ideal.mul_mem_left _ _ (hN j)

/-- If forms with coefficients that are polynomials in parameters have no common zero but the origin for one choice of
parameters, the other choices for which they have one satisfy a non-trivial equation. -/
theorem generic_no_zero {ι : Type*} [Fintype ι] {d : ℕ} (G : ι → MvPolynomial (Fin m) (MvPolynomial (Fin P) ℂ))
    (hG : ∀ i, (G i).IsHomogeneous d) (ps₀ : Fin P → ℂ) (h0 : ∀ Z, (∀ i, eval Z (map (eval ps₀) (G i)) = 0) → Z = 0) :
    ∃ a : MvPolynomial (Fin P) ℂ, eval ps₀ a ≠ 0 ∧
      ∀ ps, eval ps a ≠ 0 → ∀ Z, (∀ i, eval Z (map (eval ps) (G i)) = 0) → Z = 0 := by
  rcases Nat.eq_zero_or_pos m with rfl | hm
  · exact ⟨1, by simp, fun _ _ Z _ => Subsingleton.elim _ _⟩
  obtain ⟨D₀, hD₀⟩ := monomials_mem_span _ h0 hm
  set D := D₀ + 1 + d with hD
  have hrep : ∀ t : Fin m →₀ ℕ, ∃ h : ι → MvPolynomial (Fin m) ℂ, t.degree = D →
      (∀ i, (h i).IsHomogeneous (D₀ + 1)) ∧ ∑ i, h i * map (eval ps₀) (G i) = monomial t 1 := by
    intro t
    by_cases ht : t.degree = D
    · obtain ⟨c, hc⟩ := Ideal.mem_span_range_iff_exists_fun.1 (hD₀ D (by omega) t ht)
      refine ⟨fun i => homogeneousComponent (D₀ + 1) (c i), fun _ => ⟨fun i => homogeneousComponent_isHomogeneous _ _, ?_⟩⟩
      have := congrArg (homogeneousComponent D) hc
      rw [map_sum, homogeneousComponent_of_mem (n := D) (isHomogeneous_monomial 1 ht), if_pos rfl] at this
      rw [← this]
      exact Finset.sum_congr rfl fun i _ => (homogeneousComponent_mul_right ((hG i).map _) _ _).symm
    · exact ⟨0, fun h => absurd h ht⟩
  choose h hh using hrep
  set T := (Finset.univ : Finset (Fin m)).finsuppAntidiag D with hT
  have hmem : ∀ t : Fin m →₀ ℕ, t ∈ T ↔ t.degree = D := by
    intro t
    rw [hT, Finset.mem_finsuppAntidiag, Finsupp.degree_eq_sum]
    simp
  set Q : T → MvPolynomial (Fin m) (MvPolynomial (Fin P) ℂ) := fun t => ∑ i, map C (h t i) * G i with hQ
  have hQhom : ∀ t, (Q t).IsHomogeneous D := fun t => IsHomogeneous.sum _ _ _ fun i _ =>
    (((hh t ((hmem t).1 t.2)).1 i).map C).mul (hG i)
  set q : Matrix T T (MvPolynomial (Fin P) ℂ) := fun t s => coeff (s : Fin m →₀ ℕ) (Q t) with hq
  have hmapQ : ∀ ps t, map (eval ps) (Q t) = ∑ i, h t i * map (eval ps) (G i) := by
    intro ps t
    rw [hQ, map_sum]
    refine Finset.sum_congr rfl fun i _ => ?_
    rw [map_mul, map_map]
    congr 1
    have : (eval ps).comp C = RingHom.id ℂ := by ext x; simp
    rw [this, map_id]
  refine ⟨q.det, ?_, ?_⟩
  · have : (eval ps₀).mapMatrix q = 1 := by
      ext t s
      rw [RingHom.mapMatrix_apply, Matrix.map_apply, hq]
      simp only
      rw [← coeff_map, hmapQ, (hh t ((hmem t).1 t.2)).2, coeff_monomial, Matrix.one_apply]
      simp only [Subtype.ext_iff]
    rw [RingHom.map_det, this, Matrix.det_one]
    exact one_ne_zero
  · intro ps hps Z hZ
    have hdet : ((eval ps).mapMatrix q).det ≠ 0 := by rwa [← RingHom.map_det]
    have hker : ((eval ps).mapMatrix q).mulVec (fun s : T => ∏ i, Z i ^ (s : Fin m →₀ ℕ) i) = 0 := by
      funext t
      have hev : eval Z (map (eval ps) (Q t)) = 0 := by
        rw [hmapQ, map_sum]
        refine Finset.sum_eq_zero fun i _ => ?_
        rw [map_mul, hZ i, mul_zero]
      rw [eval_eq'] at hev
      rw [Matrix.mulVec, dotProduct, Pi.zero_apply, ← hev]
      have hsub : (map (eval ps) (Q t)).support ⊆ T := fun s hs => (hmem s).2 (by
        have := ((hQhom t).map (eval ps)) (mem_support_iff.1 hs)
        exact (DFunLike.congr_fun Finsupp.degree_eq_weight_one s).trans this)
      rw [Finset.sum_subset hsub fun s _ hs => by rw [notMem_support_iff.1 hs, zero_mul], ← Finset.sum_coe_sort T]
      refine Finset.sum_congr rfl fun s _ => ?_
      rw [RingHom.mapMatrix_apply, Matrix.map_apply, coeff_map]
    have hz := Matrix.eq_zero_of_mulVec_eq_zero hdet hker
    funext j
    have hs : Finsupp.single j D ∈ T := (hmem _).2 (by simp)
    have := congrFun hz ⟨_, hs⟩
    simp only [Pi.zero_apply] at this
    rw [Finset.prod_eq_single j (fun i _ hi => by rw [Finsupp.single_eq_of_ne hi, pow_zero]) (by simp),
      Finsupp.single_eq_same] at this
    exact pow_eq_zero_iff (by omega) |>.1 this

/-- A form of positive degree is smooth exactly if its partial derivatives have no common zero but the origin. -/
theorem smooth_iff_pderiv {e : ℕ} (he : e ≠ 0) {F : MvPolynomial (Fin m) ℂ} (hF : F.IsHomogeneous e) :
    SmoothHypersurface F ↔ ∀ Z, (∀ i, eval Z (pderiv i F) = 0) → Z = 0 := by
  constructor
  · intro h Z hZ
    by_contra hZ0
    have hE := congrArg (eval Z) (hF.sum_X_mul_pderiv)
    have h0 : eval Z F = 0 := by
      rw [map_sum, Finset.sum_eq_zero fun i _ => by rw [map_mul, hZ i, mul_zero]] at hE
      simpa [he] using hE.symm
    obtain ⟨i, hi⟩ := h Z hZ0 h0
    exact hi (hZ i)
  · intro h Z hZ0 _
    by_contra hcon
    push Not at hcon
    exact hZ0 (h Z hcon)

/-- **Generic smoothness.** If one member of a family of hypersurfaces of positive degree is smooth, there is a non-trivial
equation satisfied by the moduli of all members that are not. -/
theorem generic_smooth {e : ℕ} (he : e ≠ 0) (Φ : MvPolynomial (Fin m) (MvPolynomial (Fin P) ℂ)) (hΦ : Φ.IsHomogeneous e)
    (ps₀ : Fin P → ℂ) (h0 : SmoothHypersurface (map (eval ps₀) Φ)) :
    ∃ a : MvPolynomial (Fin P) ℂ, a ≠ 0 ∧ ∀ ps, eval ps a ≠ 0 → SmoothHypersurface (map (eval ps) Φ) := by
  have hsm : ∀ ps, SmoothHypersurface (map (eval ps) Φ) ↔ ∀ Z, (∀ i, eval Z (map (eval ps) (pderiv i Φ)) = 0) → Z = 0 := by
    intro ps
    rw [smooth_iff_pderiv he (hΦ.map _)]
    simp only [pderiv_map]
  obtain ⟨a, ha0, ha⟩ := generic_no_zero (fun i => pderiv i Φ) (d := e - 1) (fun i => hΦ.pderiv) ps₀ ((hsm ps₀).1 h0)
  refine ⟨a, ?_, fun ps hps => (hsm ps).2 (ha ps hps)⟩
  rintro rfl
  exact ha0 (map_zero _)

end Cyjax
