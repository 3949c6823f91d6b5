import Verif.Spec.Samplable
import Mathlib.RingTheory.Nullstellensatz
import Mathlib.Algebra.MvPolynomial.Funext
import Mathlib.RingTheory.KrullDimension.Field
import Mathlib.RingTheory.Ideal.KrullsHeightTheorem
import Mathlib.RingTheory.KrullDimension.Polynomial
import Mathlib.Algebra.Polynomial.RingDivision
import Mathlib.Analysis.Complex.Polynomial.Basic
import Mathlib.RingTheory.MvPolynomial.Homogeneous

/-! # Smooth hypersurfaces in at least three homogeneous coordinates are irreducible -/

namespace Cyjax

open MvPolynomial Cyjax.Spec

variable {m : ℕ}

/-- Translation by `x`. -/
private noncomputable def translate (x : Fin m → ℂ) : MvPolynomial (Fin m) ℂ ≃ₐ[ℂ] MvPolynomial (Fin m) ℂ :=
  AlgEquiv.ofAlgHom (aeval fun i => X i + C (x i)) (aeval fun i => X i - C (x i))
    (by ext i; simp) (by ext i; simp)

private theorem eval_translate (x y : Fin m → ℂ) (f : MvPolynomial (Fin m) ℂ) :
    eval y (translate x f) = eval (fun i => y i + x i) f := by
  change eval y (aeval _ f) = _
  rw [← aeval_eq_eval, ← aeval_eq_eval, comp_aeval_apply]
  refine congrArg (fun g => aeval g f) (funext fun i => ?_)
  simp

/-- All maximal ideals of the polynomial ring have the same height. -/
private theorem height_point (x : Fin m → ℂ) :
    (vanishingIdeal ℂ {x}).height = (vanishingIdeal ℂ {(0 : Fin m → ℂ)}).height := by
  rw [← RingEquiv.height_comap (translate x).toRingEquiv (vanishingIdeal ℂ {(0 : Fin m → ℂ)})]
  congr 1
  ext f
  rw [Ideal.mem_comap, mem_vanishingIdeal_singleton_iff, mem_vanishingIdeal_singleton_iff]
  have := eval_translate x 0 f
  simp only [Pi.zero_apply, zero_add] at this
  simp only [aeval_eq_eval]
  change _ ↔ eval 0 (translate x f) = 0
  rw [this]

/-- Two polynomials that vanish at the origin have another common zero, in at least three variables. -/
theorem exists_common_zero (hm : 3 ≤ m) (G H : MvPolynomial (Fin m) ℂ) (hG : eval 0 G = 0) (hH : eval 0 H = 0) :
    ∃ Z : Fin m → ℂ, Z ≠ 0 ∧ eval Z G = 0 ∧ eval Z H = 0 := by
  by_contra hcon
  push Not at hcon
  have hz : zeroLocus ℂ (Ideal.span {G, H}) = {(0 : Fin m → ℂ)} := by
    rw [zeroLocus_span]
    ext Z
    simp only [Set.mem_setOf_eq, Set.mem_insert_iff, Set.mem_singleton_iff, forall_eq_or_imp, forall_eq, aeval_eq_eval]
    constructor
    · rintro ⟨h1, h2⟩
      by_contra h0
      exact hcon Z h0 h1 h2
    · rintro rfl
      exact ⟨hG, hH⟩
  have hr := vanishingIdeal_zeroLocus_eq_radical (k := ℂ) (K := ℂ) (Ideal.span {G, H})
  rw [hz] at hr
  have hmax : (vanishingIdeal ℂ {(0 : Fin m → ℂ)}).IsMaximal :=
    isMaximal_iff_eq_vanishingIdeal_singleton.2 ⟨0, rfl⟩
  have hmin : vanishingIdeal ℂ {(0 : Fin m → ℂ)} ∈ (Ideal.span {G, H}).minimalPrimes := by
    refine ⟨⟨hmax.isPrime, ?_⟩, ?_⟩
    · rw [hr]
      exact Ideal.le_radical
    · rintro q ⟨hq, hle⟩ -
      rw [hr]
      exact hq.radical_le_iff.2 hle
  have hh : (vanishingIdeal ℂ {(0 : Fin m → ℂ)}).height ≤ 2 := by
    refine (Ideal.height_le_card_of_mem_minimalPrimes_span (Set.toFinite _) hmin).trans ?_
    exact_mod_cast Set.ncard_insert_le G {H} |>.trans (by simp)
  have hdim : ringKrullDim (MvPolynomial (Fin m) ℂ) ≤ (2 : ℕ∞) := by
    rw [ringKrullDim_le_iff_isMaximal_height_le]
    intro I hI
    obtain ⟨x, rfl⟩ := isMaximal_iff_eq_vanishingIdeal_singleton.1 hI
    rw [height_point]
    exact_mod_cast hh
  rw [MvPolynomial.ringKrullDim_of_isNoetherianRing, ringKrullDim_eq_zero_of_field, zero_add, Nat.card_fin] at hdim
  have : m ≤ 2 := by exact_mod_cast hdim
  omega

/-- The polynomial `f(T x)` in `T`. -/
private noncomputable def scaleT : MvPolynomial (Fin m) ℂ →ₐ[ℂ] Polynomial (MvPolynomial (Fin m) ℂ) :=
  aeval fun i => Polynomial.C (X i) * Polynomial.X

private theorem eval_scaleT (f : MvPolynomial (Fin m) ℂ) (Z : Fin m → ℂ) (t : ℂ) :
    eval Z ((scaleT f).eval (C t)) = eval (fun i => t * Z i) f := by
  have h1 : ∀ g : MvPolynomial (Fin m) ℂ, eval Z ((scaleT g).eval (C t)) =
      ((eval Z).comp ((Polynomial.evalRingHom (C t)).comp (scaleT (m := m)).toRingHom)) g := fun _ => rfl
  rw [h1, show (eval fun i => t * Z i) f = (eval fun i => t * Z i : MvPolynomial (Fin m) ℂ →+* ℂ) f from rfl]
  congr 1
  refine MvPolynomial.ringHom_ext (fun r => ?_) fun i => ?_
  · change eval Z ((scaleT (C r)).eval (C t)) = _
    rw [show scaleT (C r : MvPolynomial (Fin m) ℂ) = Polynomial.C (C r) from (scaleT (m := m)).commutes r, Polynomial.eval_C,
      eval_C, eval_C]
  · change eval Z ((scaleT (X i)).eval (C t)) = _
    rw [scaleT, aeval_X, Polynomial.eval_mul, Polynomial.eval_C, Polynomial.eval_X, map_mul, eval_X, eval_C, eval_X, mul_comm]

private theorem scaleT_homogeneous {F : MvPolynomial (Fin m) ℂ} {e : ℕ} (hom : F.IsHomogeneous e) :
    scaleT F = Polynomial.C F * Polynomial.X ^ e := by
  rw [scaleT, aeval_eq_eval₂Hom]
  conv_lhs => rw [← F.support_sum_monomial_coeff]
  rw [map_sum]
  conv_rhs => rw [← F.support_sum_monomial_coeff]
  rw [map_sum, Finset.sum_mul]
  refine Finset.sum_congr rfl fun d hd => ?_
  have hdeg : ∑ i, d i = e := by
    have := hom (mem_support_iff.1 hd)
    rw [← this]
    simp [Finsupp.weight_apply, Finsupp.sum_fintype]
  rw [coe_eval₂Hom, eval₂_monomial, monomial_eq, Finsupp.prod_fintype _ _ (by simp), Finsupp.prod_fintype _ _ (by simp)]
  simp only [mul_pow, Finset.prod_mul_distrib, Finset.prod_pow_eq_pow_sum, hdeg, map_mul, map_prod, map_pow]
  rw [← mul_assoc]
  rfl

/-- Factors of homogeneous polynomials scale with a power of the factor. -/
private theorem factor_scales {F G H : MvPolynomial (Fin m) ℂ} {e : ℕ} (hom : F.IsHomogeneous e) (hF : F ≠ 0)
    (h : F = G * H) : ∃ k, ∀ (t : ℂ) (Z : Fin m → ℂ), eval (fun i => t * Z i) G = t ^ k * eval Z G := by
  have h1 : scaleT G * scaleT H = Polynomial.C F * Polynomial.X ^ e := by
    rw [← map_mul, ← h, scaleT_homogeneous hom]
  have hne : scaleT G * scaleT H ≠ 0 := by
    rw [h1]
    exact mul_ne_zero (Polynomial.C_ne_zero.2 hF) (pow_ne_zero _ Polynomial.X_ne_zero)
  have hG0 := left_ne_zero_of_mul hne
  have hH0 := right_ne_zero_of_mul hne
  have d1 := Polynomial.natDegree_mul hG0 hH0
  have d2 := Polynomial.natTrailingDegree_mul hG0 hH0
  rw [h1, Polynomial.C_mul_X_pow_eq_monomial, Polynomial.natDegree_monomial_eq e hF] at d1
  rw [h1, Polynomial.C_mul_X_pow_eq_monomial, Polynomial.natTrailingDegree_monomial hF] at d2
  have e1 := (scaleT G).natTrailingDegree_le_natDegree
  have e2 := (scaleT H).natTrailingDegree_le_natDegree
  have e3 : (scaleT G).natTrailingDegree = (scaleT G).natDegree := by omega
  refine ⟨(scaleT G).natDegree, fun t Z => ?_⟩
  have hmono : scaleT G = Polynomial.monomial (scaleT G).natDegree (scaleT G).leadingCoeff := by
    ext1 j
    rw [Polynomial.coeff_monomial]
    split
    · next hj => rw [← hj]; rfl
    · next hj =>
      rcases lt_or_gt_of_ne hj with h2 | h2
      · exact Polynomial.coeff_eq_zero_of_natDegree_lt h2
      · exact Polynomial.coeff_eq_zero_of_lt_natTrailingDegree (e3 ▸ h2)
  have h2 : ∀ t, eval (fun i => t * Z i) G = t ^ (scaleT G).natDegree * eval Z (scaleT G).leadingCoeff := by
    intro t
    rw [← eval_scaleT]
    conv_lhs => rw [hmono]
    rw [Polynomial.eval_monomial, map_mul, map_pow, eval_C, mul_comm]
  have h3 := h2 1
  simp only [one_mul, one_pow] at h3
  rw [h2 t, h3]

private theorem factor_zero {F G H : MvPolynomial (Fin m) ℂ} {e : ℕ} (hom : F.IsHomogeneous e) (hF : F ≠ 0)
    (h : F = G * H) (hu : ¬ IsUnit G) : eval 0 G = 0 := by
  obtain ⟨k, hk⟩ := factor_scales hom hF h
  rcases Nat.eq_zero_or_pos k with h0 | h0
  · exfalso
    apply hu
    have hc : G = C (eval 0 G) := by
      refine MvPolynomial.funext fun Z => ?_
      have := hk 0 Z
      rw [h0, pow_zero, one_mul] at this
      rw [eval_C, ← this]
      congr 1
      simp [← Pi.zero_def]
    have hne : eval 0 G ≠ 0 := by
      intro h1
      rw [h1, map_zero] at hc
      exact hF (by rw [h, hc, zero_mul])
    rw [hc]
    exact (IsUnit.mk0 _ hne).map C
  · have := hk 0 0
    rw [zero_pow h0.ne', zero_mul] at this
    rw [← this]
    congr 1
    simp [← Pi.zero_def]

/-- A smooth hypersurface of positive degree in at least three homogeneous coordinates is irreducible. -/
theorem smooth_irreducible (hm : 3 ≤ m) {F : MvPolynomial (Fin m) ℂ} {e : ℕ} (hom : F.IsHomogeneous e) (he : e ≠ 0)
    (hsm : SmoothHypersurface F) : Irreducible F := by
  have hF : F ≠ 0 := by
    rintro rfl
    obtain ⟨i, hi⟩ := hsm (fun _ => 1) (fun h => by
      have := congrFun h ⟨0, by omega⟩
      simp at this) (map_zero _)
    simp at hi
  refine ⟨fun hu => ?_, fun {G H} h => ?_⟩
  · have h0 : eval 0 F = 0 := by
      rw [eval_eq']
      refine Finset.sum_eq_zero fun d hd => ?_
      have hdeg : ∑ i, d i = e := by
        have := hom (mem_support_iff.1 hd)
        rw [← this]
        simp [Finsupp.weight_apply, Finsupp.sum_fintype]
      simp only [Pi.zero_apply]
      rw [Finset.prod_pow_eq_pow_sum, hdeg, zero_pow he, mul_zero]
    have := hu.map (eval (0 : Fin m → ℂ))
    rw [h0] at this
    exact not_isUnit_zero this
  · by_contra hcon
    push Not at hcon
    obtain ⟨Z, hZ, h1, h2⟩ := exists_common_zero hm G H (factor_zero hom hF h hcon.1)
      (factor_zero hom hF (h.trans (mul_comm _ _)) hcon.2)
    obtain ⟨i, hi⟩ := hsm Z hZ (by rw [h, map_mul, h1, zero_mul])
    apply hi
    rw [h, Derivation.leibniz, map_add, smul_eq_mul, smul_eq_mul, map_mul, map_mul, h1, h2, zero_mul, zero_mul, add_zero]

end Cyjax
