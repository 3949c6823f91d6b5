import Verif.Props.DonaldsonStep
import Verif.Props.Projective
import Mathlib.RingTheory.Nullstellensatz
import Mathlib.Algebra.MvPolynomial.Division
import Mathlib.RingTheory.MvPolynomial.IrreducibleQuadratic
import Mathlib.LinearAlgebra.Basis.VectorSpace
import Mathlib.Analysis.Complex.Polynomial.Basic

/-! # `donaldson_step` with a basis of sections on the variety (C98) -/

namespace Cyjax

open Cyjax.Donaldson Cyjax.Spec Cyjax.Projective MvPolynomial
open scoped ComplexConjugate ComplexOrder

variable {n k d : ℕ}

private theorem basis_le (P : MvPolynomial (Fin (n + 1)) ℂ) (rows : List (Fin (n + 1) → ℕ))
    (hB : IsBasisModulo P k rows) (a : Fin (MonomialSections.mk k rows).size) (i : Fin (n + 1)) :
    (MonomialSections.mk k rows).powers a i ≤ (MonomialSections.mk k rows).degree := by
  have h1 := hB.1 _ (List.get_mem rows a)
  have h2 := Finset.single_le_sum (f := fun i => rows.get a i) (fun _ _ => Nat.zero_le _) (Finset.mem_univ i)
  exact h2.trans h1.le

private theorem call_eq (P : MvPolynomial (Fin (n + 1)) ℂ) (rows : List (Fin (n + 1) → ℕ))
    (hB : IsBasisModulo P k rows) (z : Fin n → ℂ) (p : Fin (n + 1)) (a : Fin (MonomialSections.mk k rows).size) :
    (MonomialSections.mk k rows).call z ((p : ℕ) : ℤ) true a =
      eval (affineToHom z ((p : ℕ) : ℤ)) (mono (rows.get a)) := by
  rw [show (MonomialSections.mk k rows).call z ((p : ℕ) : ℤ) true a = monomialsIndex z ((p : ℕ) : ℤ)
    (MonomialSections.mk k rows).powers (MonomialSections.mk k rows).degree a from rfl,
    C60_affine z p _ _ (basis_le P rows hB) a]
  unfold mono
  rw [map_prod]
  refine Finset.prod_congr rfl fun i _ => ?_
  rw [map_pow, eval_X]
  rfl

private theorem eval_mono_smul {m : ℕ} (e : Fin m → ℕ) (x : Fin m → ℂ) (c : ℂ) :
    eval (fun i => c * x i) (mono e) = c ^ (∑ i, e i) * eval x (mono e) := by
  unfold mono
  simp only [map_prod, map_pow, eval_X, mul_pow]
  rw [Finset.prod_mul_distrib, Finset.prod_pow_eq_pow_sum]

private theorem eval_hom_smul {m : ℕ} (P : MvPolynomial (Fin m) ℂ) (hP : P.IsHomogeneous d) (x : Fin m → ℂ) (c : ℂ) :
    eval (fun i => c * x i) P = c ^ d * eval x P := by
  rw [eval_eq', eval_eq', Finset.mul_sum]
  refine Finset.sum_congr rfl fun e he => ?_
  have h1 : ∑ i, e i = d := by
    have := hP (mem_support_iff.1 he)
    rw [← this]
    simp [Finsupp.weight_apply, Finsupp.sum_fintype]
  simp only [mul_pow]
  rw [Finset.prod_mul_distrib, Finset.prod_pow_eq_pow_sum, h1]
  ring

/-- **C98.** The sections of a basis modulo `P` have no common zero on the variety. -/
theorem C98_reduced_nonzero (P : MvPolynomial (Fin (n + 1)) ℂ) (rows : List (Fin (n + 1) → ℕ))
    (hB : IsBasisModulo P k rows) (z : Fin n → ℂ) (p : Fin (n + 1))
    (hz : eval (affineToHom z ((p : ℕ) : ℤ)) P = 0) : (MonomialSections.mk k rows).call z ((p : ℕ) : ℤ) true ≠ 0 := by
  intro h0
  have hX : (X p ^ k : MvPolynomial (Fin (n + 1)) ℂ).IsHomogeneous k := by
    have := (isHomogeneous_X ℂ p).pow k
    rwa [one_mul] at this
  obtain ⟨c, ⟨q, hq⟩, -⟩ := hB.2 _ hX
  have h1 := congrArg (eval (affineToHom z ((p : ℕ) : ℤ))) hq
  rw [map_sub, map_mul, hz, zero_mul, map_pow, eval_X, affineToHom_same, one_pow, map_sum] at h1
  have h2 : ∑ a, eval (affineToHom z ((p : ℕ) : ℤ)) (C (c a) * mono (rows.get a)) = 0 := by
    refine Finset.sum_eq_zero fun a _ => ?_
    have h3 := (call_eq P rows hB z p a).symm.trans (congrFun h0 a)
    rw [map_mul, h3]
    exact mul_zero _
  rw [h2, sub_zero] at h1
  exact one_ne_zero h1

/-- **C98.** On an irreducible hypersurface, a linear combination of a basis of sections that vanishes at all its points
is trivial. -/
theorem C98_reduced_independent (P : MvPolynomial (Fin (n + 1)) ℂ) (hP : P.IsHomogeneous d) (hirr : Irreducible P)
    (hk : k ≠ 0) (rows : List (Fin (n + 1) → ℕ)) (hB : IsBasisModulo P k rows)
    (c : Fin (MonomialSections.mk k rows).size → ℂ)
    (hc : ∀ (z : Fin n → ℂ) (p : Fin (n + 1)), eval (affineToHom z ((p : ℕ) : ℤ)) P = 0 →
      ∑ a, c a * (MonomialSections.mk k rows).call z ((p : ℕ) : ℤ) true a = 0) : c = 0 := by
  set f : MvPolynomial (Fin (n + 1)) ℂ := ∑ a : Fin rows.length, C (c a) * mono (rows.get a) with hf
  have hev : ∀ x, eval x f = ∑ a : Fin rows.length, c a * eval x (mono (rows.get a)) := by
    intro x
    rw [hf, map_sum]
    simp only [map_mul, eval_C]
  have hvan : ∀ x, eval x P = 0 → eval x f = 0 := by
    intro x hx
    rw [hev]
    by_cases hx0 : x = 0
    · refine Finset.sum_eq_zero fun a _ => ?_
      have h1 := eval_mono_smul (rows.get a) x 0
      rw [hB.1 _ (List.get_mem rows a), zero_pow hk, zero_mul] at h1
      rw [show (fun i => 0 * x i) = x from by rw [hx0]; funext i; simp] at h1
      rw [h1, mul_zero]
    · obtain ⟨p, hp⟩ := Function.ne_iff.1 hx0
      have hp' : x p ≠ 0 := hp
      have hr : (fun i => x p * affineToHom (homToAffine x ((p : ℕ) : ℤ)) ((p : ℕ) : ℤ) i) = x := by
        funext i
        rw [C16_roundtrip x p hp']
        exact mul_div_cancel₀ _ hp'
      set y := affineToHom (homToAffine x ((p : ℕ) : ℤ)) ((p : ℕ) : ℤ) with hy
      have hPy : eval y P = 0 := by
        have := eval_hom_smul P hP y (x p)
        rw [hr, hx] at this
        exact (mul_eq_zero.1 this.symm).resolve_left (pow_ne_zero _ hp')
      have h2 := hc _ p hPy
      have h3 : ∀ a : Fin rows.length, eval x (mono (rows.get a)) = x p ^ k * eval y (mono (rows.get a)) := by
        intro a
        have := eval_mono_smul (rows.get a) y (x p)
        rwa [hr, hB.1 _ (List.get_mem rows a)] at this
      have h4 : ∑ a : Fin rows.length, c a * eval x (mono (rows.get a)) =
          x p ^ k * ∑ a : Fin rows.length, c a * (MonomialSections.mk k rows).call (homToAffine x ((p : ℕ) : ℤ))
            ((p : ℕ) : ℤ) true a := by
        rw [Finset.mul_sum]
        refine Finset.sum_congr rfl fun a _ => ?_
        have h5 := call_eq P rows hB (homToAffine x ((p : ℕ) : ℤ)) p a
        rw [h3]
        exact (mul_left_comm (c a) (x p ^ k) _).trans (congrArg (fun t => x p ^ k * (c a * t)) h5.symm)
      rw [h4]
      exact mul_eq_zero_of_right _ h2
  have hprime : (Ideal.span {P}).IsPrime := (Ideal.span_singleton_prime hirr.ne_zero).2 hirr.prime
  have hmem : f ∈ vanishingIdeal ℂ (zeroLocus ℂ (Ideal.span {P})) := by
    intro x hx
    have h1 : aeval x P = 0 := (mem_zeroLocus_iff.1 hx) P (Ideal.mem_span_singleton_self P)
    rw [aeval_eq_eval] at h1 ⊢
    exact hvan x h1
  rw [IsPrime.vanishingIdeal_zeroLocus] at hmem
  have hdvd : P ∣ f := Ideal.mem_span_singleton.1 hmem
  obtain ⟨c', -, huniq⟩ := hB.2 0 (isHomogeneous_zero _ _ _)
  have e1 := huniq c (by change P ∣ 0 - f; rw [zero_sub]; exact (dvd_neg).2 hdvd)
  have e2 := huniq (fun _ => 0) (by simp)
  rw [e1, ← e2]
  rfl

/-- **C98.** On an irreducible hypersurface with a basis of sections (see C97 for `MonomialBasisReduced`) there are
finitely many points such that every sample on the variety that contains them, with non-negative weights and positive
weights at these points, gives a positive definite `T`, hence a positive definite new `H`, whatever the positive definite `H`. -/
theorem C98_reduced_partial (P : MvPolynomial (Fin (n + 1)) ℂ) (hP : P.IsHomogeneous d) (hirr : Irreducible P)
    (hk : k ≠ 0) (rows : List (Fin (n + 1) → ℕ)) (hB : IsBasisModulo P k rows) :
    ∃ pts : Finset ((Fin n → ℂ) × Fin (n + 1)),
      (∀ x ∈ pts, eval (affineToHom x.1 ((x.2 : ℕ) : ℤ)) P = 0) ∧
      ∀ (B M : ℕ) (zs : Fin B → Fin M → Fin n → ℂ) (patch : Fin B → Fin M → Fin (n + 1)) (w : Fin B → Fin M → ℝ),
        (∀ i j, eval (affineToHom (zs i j) ((patch i j : ℕ) : ℤ)) P = 0) → (∀ i j, 0 ≤ w i j) →
        (∀ x ∈ pts, ∃ i j, zs i j = x.1 ∧ patch i j = x.2 ∧ 0 < w i j) →
        ∀ (h : Matrix (Fin (MonomialSections.mk k rows).size) (Fin (MonomialSections.mk k rows).size) ℂ) (vol : ℝ),
          (h + h.conjTranspose).PosDef → 0 < vol →
          ∃ h', donaldsonStep .complex h vol
            (fun i j => (MonomialSections.mk k rows).call (zs i j) ((patch i j : ℕ) : ℤ) true) w = .ok h' ∧ h'.PosDef := by
  classical
  set mon : (Fin n → ℂ) × Fin (n + 1) → Fin (MonomialSections.mk k rows).size → ℂ :=
    fun x => (MonomialSections.mk k rows).call x.1 ((x.2 : ℕ) : ℤ) true with hmon
  set V : Set ((Fin n → ℂ) × Fin (n + 1)) := {x | eval (affineToHom x.1 ((x.2 : ℕ) : ℤ)) P = 0} with hV
  have hspan : Submodule.span ℂ (mon '' V) = ⊤ := by
    by_contra hne
    obtain ⟨φ, hφ, hker⟩ := Submodule.exists_le_ker_of_lt_top _ (lt_top_iff_ne_top.2 hne)
    apply hφ
    have hφs : ∀ v, φ v = ∑ a, φ (Pi.single a 1) * v a := by
      intro v
      conv_lhs => rw [← Finset.univ_sum_single v]
      rw [map_sum]
      refine Finset.sum_congr rfl fun a _ => ?_
      have : (Pi.single a (v a) : Fin (MonomialSections.mk k rows).size → ℂ) = v a • Pi.single a 1 := by
        rw [← Pi.single_smul, smul_eq_mul, mul_one]
      rw [this, map_smul, smul_eq_mul, mul_comm]
    have hc := C98_reduced_independent P hP hirr hk rows hB (fun a => φ (Pi.single a 1)) fun z p hz => by
      rw [← hφs]
      exact hker (Submodule.subset_span ⟨(z, p), hz, rfl⟩)
    ext a
    simpa using congrFun hc a
  obtain ⟨t, hts, htspan⟩ := (Submodule.fg_span_iff_fg_span_finset_subset (R := ℂ) (mon '' V)).1
    (by rw [hspan]; exact Module.Finite.fg_top)
  choose! g hg using fun v (hv : v ∈ mon '' V) => hv
  refine ⟨t.image g, ?_, ?_⟩
  · intro x hx
    obtain ⟨v, hv, rfl⟩ := Finset.mem_image.1 hx
    exact (hg v (hts hv)).1
  · intro B M zs patch w hzs hw hpts h vol hh hvol
    refine ⟨_, rfl, ?_⟩
    have hT := C74_invertible h hh vol hvol
      (fun i j => (MonomialSections.mk k rows).call (zs i j) ((patch i j : ℕ) : ℤ) true)
      (fun i j => C98_reduced_nonzero P rows hB _ _ (hzs i j)) w hw ?_
    · exact hT.inv.transpose
    intro c hc
    let φ : (Fin (MonomialSections.mk k rows).size → ℂ) →ₗ[ℂ] ℂ :=
      { toFun := fun v => ∑ a, c a * v a
        map_add' := fun u v => by simp only [Pi.add_apply, mul_add, Finset.sum_add_distrib]
        map_smul' := fun r v => by
          simp only [Pi.smul_apply, smul_eq_mul, RingHom.id_apply, Finset.mul_sum]
          exact Finset.sum_congr rfl fun a _ => by ring }
    have hle : Submodule.span ℂ (↑t : Set (Fin (MonomialSections.mk k rows).size → ℂ)) ≤ LinearMap.ker φ := by
      refine Submodule.span_le.2 fun v hv => ?_
      obtain ⟨i, j, h1, h2, h3⟩ := hpts (g v) (Finset.mem_image_of_mem g hv)
      have h4 := hc i j h3
      rw [h1, h2] at h4
      have h5 : mon (g v) = v := (hg v (hts hv)).2
      change ∑ a, c a * v a = 0
      rw [← h5]
      exact h4
    rw [← htspan, hspan] at hle
    funext a
    have : φ (Pi.single a 1) = 0 := hle (Submodule.mem_top)
    change ∑ b, c b * (Pi.single a 1 : Fin (MonomialSections.mk k rows).size → ℂ) b = 0 at this
    simpa [Pi.single_apply] using this

/-- Non-vacuity: the conic `X_1 X_2 + X_0² = 0` with quadrics. -/
example : ∃ rows, Irreducible (X 1 * X 2 + X 0 ^ 2 : MvPolynomial (Fin 3) ℂ) ∧
    (X 1 * X 2 + X 0 ^ 2 : MvPolynomial (Fin 3) ℂ).IsHomogeneous 2 ∧
    IsBasisModulo (X 1 * X 2 + X 0 ^ 2 : MvPolynomial (Fin 3) ℂ) 2 rows := by
  have hP : (X 1 * X 2 + X 0 ^ 2 : MvPolynomial (Fin 3) ℂ).IsHomogeneous 2 :=
    ((isHomogeneous_X ℂ (1 : Fin 3)).mul (isHomogeneous_X ℂ (2 : Fin 3))).add ((isHomogeneous_X ℂ (0 : Fin 3)).pow 2)
  have hirr : Irreducible (X 1 * X 2 + X 0 ^ 2 : MvPolynomial (Fin 3) ℂ) := by
    refine irreducible_mul_X_add _ _ _ (X_ne_zero 1) ?_ ?_ ?_
    · rw [vars_X]; decide
    · intro h
      have := vars_pow _ _ h
      rw [vars_X] at this
      exact absurd this (by decide)
    · refine (Irreducible.isRelPrime_iff_not_dvd (X_prime (i := (1 : Fin 3))).irreducible).2 ?_
      rintro ⟨q, hq⟩
      have := congrArg (eval (![1, 0, 0] : Fin 3 → ℂ)) hq
      simp at this
  obtain ⟨rows, -, h⟩ := C59_basis _ 2 2 hirr.ne_zero hP _ (exists_termList _)
  exact ⟨rows, hirr, hP, h⟩

end Cyjax
