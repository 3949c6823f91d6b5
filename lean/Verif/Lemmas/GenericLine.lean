import Verif.Lemmas.ChartMetric
import Mathlib.RingTheory.Polynomial.GaussLemma
import Mathlib.RingTheory.Polynomial.UniqueFactorization
import Mathlib.RingTheory.MvPolynomial.Homogeneous
import Mathlib.RingTheory.Localization.Integral
import Mathlib.RingTheory.PrincipalIdealDomain
import Mathlib.Algebra.Polynomial.FieldDivision
import Mathlib.RingTheory.Bezout
import Mathlib.Analysis.Complex.Polynomial.Basic

/-! # A line in general position avoids a subvariety of a hypersurface -/

namespace Cyjax

open MvPolynomial

variable {m : ℕ}


/-- Substitution of `p + t q` for the variables, with `p` and `t` indeterminate. -/
noncomputable def subst (q : Fin m → ℂ) : MvPolynomial (Fin m) ℂ →+* Polynomial (MvPolynomial (Fin m) ℂ) :=
  eval₂Hom (Polynomial.C.comp C) fun i => Polynomial.C (X i) + Polynomial.X * Polynomial.C (C (q i))

/-- The same on polynomials that contain `t`. -/
noncomputable def substT (q : Fin m → ℂ) :
    Polynomial (MvPolynomial (Fin m) ℂ) →+* Polynomial (MvPolynomial (Fin m) ℂ) :=
  Polynomial.eval₂RingHom (subst q) Polynomial.X

theorem substT_comp (q : Fin m → ℂ) : (substT (fun i => -q i)).comp (substT q) = RingHom.id _ := by
  refine Polynomial.ringHom_ext' (MvPolynomial.ringHom_ext (fun r => ?_) fun i => ?_) ?_
  · simp [substT, subst]
  · simp [substT, subst]
    ring
  · simp [substT]

/-- It is an automorphism. -/
noncomputable def substE (q : Fin m → ℂ) :
    Polynomial (MvPolynomial (Fin m) ℂ) ≃+* Polynomial (MvPolynomial (Fin m) ℂ) :=
  RingEquiv.ofRingHom (substT q) (substT fun i => -q i)
    (by simpa using substT_comp fun i => -q i) (substT_comp q)

theorem substE_C (q : Fin m → ℂ) (F : MvPolynomial (Fin m) ℂ) : substE q (Polynomial.C F) = subst q F := by
  change substT q (Polynomial.C F) = _
  simp [substT]

theorem eval_subst (q p : Fin m → ℂ) (t : ℂ) (F : MvPolynomial (Fin m) ℂ) :
    Polynomial.eval₂ (eval p) t (subst q F) = eval (fun i => p i + t * q i) F := by
  have : (Polynomial.eval₂RingHom (eval p) t).comp (subst q) = eval fun i => p i + t * q i := by
    refine MvPolynomial.ringHom_ext (fun r => ?_) fun i => ?_
    · simp [subst]
    · simp [subst]
      ring
  exact congrArg (fun g : MvPolynomial (Fin m) ℂ →+* ℂ => g F) this

/-- Two polynomials without common factor: their ideal contains a non-zero constant. -/
theorem bezout_clear {R : Type*} (K : Type*) [CommRing R] [IsDomain R] [UniqueFactorizationMonoid R] [Field K]
    [Algebra R K] [IsFractionRing R K] (P f : Polynomial R) (hP : Prime P) (hdeg : P.natDegree ≠ 0) (hf : ¬ P ∣ f) :
    ∃ D : R, D ≠ 0 ∧ ∃ A B : Polynomial R, A * P + B * f = Polynomial.C D := by
  have := UniqueFactorizationMonoid.toGCDMonoid R
  have hclear : ∀ g : Polynomial K, ∃ d : R, d ≠ 0 ∧ ∃ g' : Polynomial R,
      g'.map (algebraMap R K) = Polynomial.C (algebraMap R K d) * g := by
    intro g
    obtain ⟨b, hbm, hb⟩ := IsLocalization.integerNormalization_spec (nonZeroDivisors R) g
    refine ⟨b, nonZeroDivisors.ne_zero hbm, _, hb.trans ?_⟩
    rw [Algebra.smul_def]
    rfl
  have hinj : Function.Injective (Polynomial.map (algebraMap R K)) :=
    Polynomial.map_injective _ (IsFractionRing.injective R K)
  have hirrK : Irreducible (P.map (algebraMap R K)) :=
    (Polynomial.IsPrimitive.irreducible_iff_irreducible_map_fraction_map
      (hP.irreducible.isPrimitive hdeg)).1 hP.irreducible
  have hnd : ¬ P.map (algebraMap R K) ∣ f.map (algebraMap R K) := by
    rintro ⟨g, hg⟩
    obtain ⟨d, hd, g', hg'⟩ := hclear g
    have h1 : Polynomial.C d * f = P * g' := by
      apply hinj
      rw [Polynomial.map_mul, Polynomial.map_mul, hg', Polynomial.map_C, hg]
      ring
    rcases hP.dvd_or_dvd (Dvd.intro g' h1.symm) with h2 | h2
    · have := Polynomial.natDegree_le_of_dvd h2 (by simpa using hd)
      rw [Polynomial.natDegree_C] at this
      exact hdeg (Nat.le_zero.1 this)
    · exact hf h2
  obtain ⟨a, b, hab⟩ := (Irreducible.coprime_iff_not_dvd hirrK).2 hnd
  obtain ⟨da, hda, A, hA⟩ := hclear a
  obtain ⟨db, hdb, B, hB⟩ := hclear b
  have key : Polynomial.C db * A * P + Polynomial.C da * B * f = Polynomial.C (da * db) := by
    apply hinj
    simp only [Polynomial.map_add, Polynomial.map_mul, Polynomial.map_C, hA, hB, map_mul]
    linear_combination (Polynomial.C (algebraMap R K da) * Polynomial.C (algebraMap R K db)) * hab
  exact ⟨da * db, mul_ne_zero hda hdb, _, _, key⟩

/-- For fixed direction `q`, the base points `p` of lines that meet `F = f = 0` satisfy an equation. -/
theorem line_avoid (F f : MvPolynomial (Fin m) ℂ) (hF : Irreducible F) {e : ℕ} (hom : F.IsHomogeneous e) (hf : ¬ F ∣ f)
    (q : Fin m → ℂ) (hq : eval q F ≠ 0) :
    ∃ D : MvPolynomial (Fin m) ℂ, D ≠ 0 ∧
      ∀ (p : Fin m → ℂ) (t : ℂ), eval (fun i => p i + t * q i) F = 0 → eval (fun i => p i + t * q i) f = 0 →
        eval p D = 0 := by
  have he : e ≠ 0 := by
    rintro rfl
    have h1 := (totalDegree_zero_iff_isHomogeneous _).2 hom
    rw [totalDegree_eq_zero_iff_eq_C] at h1
    refine hF.not_isUnit ?_
    rw [h1]
    refine IsUnit.map C (isUnit_iff_ne_zero.2 fun h0 => hF.ne_zero ?_)
    rw [h1, h0, map_zero]
  have hprime : Prime (subst q F) := by
    rw [← substE_C]
    exact (MulEquiv.prime_iff (substE q).toMulEquiv).2 (Polynomial.prime_C_iff.2 hF.prime)
  have hdeg : (subst q F).natDegree ≠ 0 := by
    intro h0
    rw [Polynomial.natDegree_eq_zero] at h0
    obtain ⟨r, hr⟩ := h0
    have h1 : ∀ t : ℂ, eval (fun i => t * q i) F = eval 0 r := by
      intro t
      have := eval_subst q 0 t F
      rw [← hr, Polynomial.eval₂_C] at this
      simpa using this.symm
    have h2 := h1 1
    rw [← h1 0, eval_smul_homogeneous hom, eval_smul_homogeneous hom, one_pow, one_mul, zero_pow he, zero_mul] at h2
    exact hq h2
  have hnd : ¬ subst q F ∣ subst q f := by
    intro h2
    rw [← substE_C, ← substE_C, map_dvd_iff (substE q), Polynomial.C_dvd_iff_dvd_coeff] at h2
    exact hf (by simpa using h2 0)
  obtain ⟨D, hD, A, B, key⟩ := bezout_clear (FractionRing (MvPolynomial (Fin m) ℂ)) (subst q F) (subst q f) hprime hdeg hnd
  refine ⟨D, hD, fun p t h1 h2 => ?_⟩
  have := congrArg (Polynomial.eval₂ (eval p) t) key
  rw [Polynomial.eval₂_add, Polynomial.eval₂_mul, Polynomial.eval₂_mul, eval_subst, eval_subst, h1, h2, Polynomial.eval₂_C] at this
  simpa using this.symm

end Cyjax
