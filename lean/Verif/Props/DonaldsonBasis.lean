import Verif.Lemmas.DonaldsonBasis
import Verif.Spec.Donaldson
import Verif.Props.UtilMisc
import Mathlib.RingTheory.MvPolynomial.Groebner
import Mathlib.Tactic.FinCases

/-! # Monomial bases (C56–C59, C97) -/

namespace Cyjax

open Cyjax.Donaldson Cyjax.Spec MvPolynomial
open Cyjax.Polynomial (PyErr)
open scoped MonomialOrder

/-! ## C56 -/

/-- **C56.** `monomial_basis(n, k)` lists every exponent vector of length `n + 1` with sum `k` exactly once. -/
theorem C56_monomial_basis (n k : ℕ) :
    (monomialBasis n k).Nodup ∧ ∀ e : Fin (n + 1) → ℕ, e ∈ monomialBasis n k ↔ ∑ i, e i = k :=
  ⟨monomialBasis_nodup n k, mem_monomialBasis n k⟩

/-- **C56.** The documented relation between the two functions: row `a` of `monomial_basis` counts how often each index
occurs in row `a` of `monomial_basis_indices`; so both describe the same monomials. -/
theorem C56_indices {K : Type*} [CommMonoid K] (n k : ℕ) (hk : k ≠ 0) (z : Fin (n + 1) → K) :
    (monomialBasis n k).map (fun e => ∏ i, z i ^ e i) =
      (monomialBasisIndices n k).map fun row => (row.map z).prod := by
  unfold monomialBasis
  rw [if_neg hk, List.map_map]
  refine List.map_congr_left fun row _ => ?_
  simp only [Function.comp, countScan_eq]
  rw [Finset.prod_list_map_count]
  refine (Finset.prod_subset (Finset.subset_univ _) fun i _ hi => ?_).symm
  rw [List.mem_toFinset] at hi
  rw [List.count_eq_zero_of_not_mem hi, pow_zero]

/-- The quadratic monomials in two variables. -/
example : monomialBasis 1 2 = [![2, 0], ![1, 1], ![0, 2]] := by decide +kernel

/-! ## C57 -/

/-- **C57.** `monomial_basis_size(n, k)` is the number of rows of `monomial_basis(n, k)`. -/
theorem C57_size (n k : ℕ) : monomialBasisSize n k false = some ((monomialBasis n k).length : ℤ) := by
  unfold monomialBasisSize
  have h := C08_binomial (n + k) k (by omega)
  push_cast at h
  rw [h]
  simp [monomialBasis_length]

/-! ## C58 -/

/-- **C58.** The reduction never fails and returns the monomials that the first listed term does not divide, in the
order of the full basis. -/
theorem C58_result {n : ℕ} (k d : ℕ) (p : Fin (n + 1) → ℕ) (ps : List (Fin (n + 1) → ℕ))
    (hd : ∀ q ∈ p :: ps, ∑ i, q i = d) :
    reducedMonomialBasis k (p :: ps) = .ok ((monomialBasis n k).filter fun e => ¬ ∀ i, p i ≤ e i) := by
  unfold reducedMonomialBasis
  have hrot := (rotateRight_eq_iff ((p :: ps).map fun p => ∑ i, p i)).2 (by
    intro x hx y hy
    obtain ⟨q, hq, rfl⟩ := List.mem_map.1 hx
    obtain ⟨q', hq', rfl⟩ := List.mem_map.1 hy
    rw [hd q hq, hd q' hq'])
  simp only
  rw [if_pos hrot]
  simp only [List.map_cons]
  have hp := hd p (by simp)
  by_cases hk : k < ∑ i, p i
  · rw [if_pos hk]
    congr 1
    refine (List.filter_eq_self.2 fun e he => ?_).symm
    rw [mem_monomialBasis] at he
    simp only [decide_not, Bool.not_eq_true', decide_eq_false_iff_not]
    intro hle
    have := Finset.sum_le_sum fun i (_ : i ∈ Finset.univ) => hle i
    omega
  · rw [if_neg hk, reduceLoop_eq p ps _ _ (monomialBasis_nodup n k) (monomialBasis_nodup n _)]
    · congr 1
      refine List.filter_congr fun e he => ?_
      rw [mem_monomialBasis] at he
      rw [decide_eq_decide]
      constructor
      · intro h hle
        refine h (fun i => e i - p i) ?_ ?_
        · rw [mem_monomialBasis, Finset.sum_tsub_distrib _ fun i _ => hle i, he]
        · funext i
          have := hle i
          omega
      · rintro h r - rfl
        exact h fun i => Nat.le_add_right _ _
    · intro r hr
      rw [mem_monomialBasis] at hr ⊢
      rw [Finset.sum_add_distrib, hr]
      omega

/-- **C58.** Terms of different degrees are rejected by the assertion; so is nothing else. -/
theorem C58_errors {n : ℕ} (k : ℕ) (L : List (Fin (n + 1) → ℕ)) :
    (reducedMonomialBasis k L = .error .assertionError ↔ ∃ q ∈ L, ∃ q' ∈ L, ∑ i, q i ≠ ∑ i, q' i) ∧
    (reducedMonomialBasis k L = .error .indexError ↔ L = []) ∧
    reducedMonomialBasis k L ≠ .error .runtimeError := by
  rcases L with _ | ⟨p, ps⟩
  · simp [reducedMonomialBasis]
  by_cases h : ∃ q ∈ p :: ps, ∃ q' ∈ p :: ps, ∑ i, q i ≠ ∑ i, q' i
  · have hrot : ¬ (p :: ps).map (fun p => ∑ i, p i) = ((p :: ps).map fun p => ∑ i, p i).rotateRight 1 := by
      rw [rotateRight_eq_iff]
      obtain ⟨q, hq, q', hq', hne⟩ := h
      exact fun hh => hne (hh _ (List.mem_map.2 ⟨q, hq, rfl⟩) _ (List.mem_map.2 ⟨q', hq', rfl⟩))
    have hval : reducedMonomialBasis k (p :: ps) = .error .assertionError := by
      unfold reducedMonomialBasis
      simp only
      rw [if_neg hrot]
    rw [hval]
    simp only [h]
    simp
  · have hd : ∀ q ∈ p :: ps, ∑ i, q i = ∑ i, p i := by
      push Not at h
      exact fun q hq => h q hq p (by simp)
    rw [C58_result k _ p ps hd]
    simp only [h]
    simp

/-- A conic: the monomials of degree 3 that `x^2` does not divide. -/
example : reducedMonomialBasis 3 [![2, 0, 0], ![0, 2, 0], ![0, 0, 2]] =
    .ok [![1, 2, 0], ![1, 1, 1], ![1, 0, 2], ![0, 3, 0], ![0, 2, 1], ![0, 1, 2], ![0, 0, 3]] := by
  rw [C58_result 3 2 _ _ (by decide)]
  exact congrArg Except.ok (by decide +kernel)

/-! ## C57, reduced basis -/

/-- **C57.** For a polynomial of degree `n + 1`, the number of rows of the reduced basis is
`monomial_basis_size(n, k, reduced=True)`. -/
theorem C57_reduced {n : ℕ} (k : ℕ) (p : Fin (n + 1) → ℕ) (ps : List (Fin (n + 1) → ℕ))
    (hd : ∀ q ∈ p :: ps, ∑ i, q i = n + 1) :
    ∃ rows, reducedMonomialBasis k (p :: ps) = .ok rows ∧ monomialBasisSize n k true = some (rows.length : ℤ) := by
  refine ⟨_, C58_result k _ p ps hd, ?_⟩
  have hp := hd p (by simp)
  have hb := C08_binomial (n + k) k (by omega)
  push_cast at hb
  unfold monomialBasisSize
  rw [hb]
  by_cases hk : k < n + 1
  · have hgt : ((n : ℤ) + 1 > (k : ℤ)) := by omega
    have hf : (monomialBasis n k).filter (fun e => ¬ ∀ i, p i ≤ e i) = monomialBasis n k := by
      refine List.filter_eq_self.2 fun e he => ?_
      rw [mem_monomialBasis] at he
      simp only [decide_not, Bool.not_eq_true', decide_eq_false_iff_not]
      intro hle
      have := Finset.sum_le_sum fun i (_ : i ∈ Finset.univ) => hle i
      omega
    rw [hf]
    simp [monomialBasis_length, hgt]
  · have hngt : ¬ ((n : ℤ) + 1 > (k : ℤ)) := by omega
    have hb2 := C08_binomial (n + (k - (n + 1))) (k - (n + 1)) (by omega)
    have e1 : ((n + (k - (n + 1)) : ℕ) : ℤ) = (n : ℤ) + k - (n + 1) := by omega
    have e2 : ((k - (n + 1) : ℕ) : ℤ) = (k : ℤ) - (n + 1) := by omega
    rw [e1, e2] at hb2
    have hperm : ((monomialBasis n k).filter fun e => ∀ i, p i ≤ e i).Perm
        ((monomialBasis n (k - (n + 1))).map fun r => fun i => p i + r i) := by
      rw [List.perm_ext_iff_of_nodup ((monomialBasis_nodup n k).filter _)
        ((monomialBasis_nodup n _).map fun a b h => by
          funext i
          have := congrFun h i
          simpa using this)]
      intro e
      rw [List.mem_filter, List.mem_map, mem_monomialBasis]
      simp only [decide_eq_true_eq]
      constructor
      · rintro ⟨he, hle⟩
        refine ⟨fun i => e i - p i, ?_, ?_⟩
        · rw [mem_monomialBasis, Finset.sum_tsub_distrib _ fun i _ => hle i, he, hp]
        · funext i
          have := hle i
          simp only
          omega
      · rintro ⟨r, hr, rfl⟩
        rw [mem_monomialBasis] at hr
        refine ⟨?_, fun i => Nat.le_add_right _ _⟩
        rw [Finset.sum_add_distrib, hr, hp]
        omega
    have hlen := hperm.length_eq
    rw [List.length_map, monomialBasis_length] at hlen
    have htot := List.length_eq_length_filter_add (l := monomialBasis n k) (fun e => decide (∀ i, p i ≤ e i))
    rw [hlen, monomialBasis_length] at htot
    have hnot : (monomialBasis n k).filter (fun e => !decide (∀ i, p i ≤ e i)) =
        (monomialBasis n k).filter (fun e => ¬ ∀ i, p i ≤ e i) := by
      refine List.filter_congr fun e _ => ?_
      rw [decide_not]
    rw [hnot] at htot
    simp only [hb2, Option.bind_eq_bind, Option.bind_some, Bool.not_true, Bool.false_or, hngt, decide_false,
      Bool.false_eq_true, if_false]
    refine congrArg some ?_
    rw [htot]
    push_cast
    ring

/-- The cubic curves in the plane. -/
example : monomialBasisSize 2 3 true = some 9 := by decide +kernel

/-! ## C59 -/

private theorem mono_eq {K : Type*} [CommSemiring K] {m : ℕ} (e : Fin m → ℕ) :
    (mono e : MvPolynomial (Fin m) K) = monomial (Finsupp.equivFunOnFinite.symm e) 1 := by
  rw [mono, monomial_eq, C_1, one_mul, Finsupp.prod_fintype _ _ (by simp)]
  rfl

private theorem degree_eq {m : ℕ} (e : Fin m →₀ ℕ) : e.degree = ∑ i, e i := Finsupp.degree_eq_sum e

private theorem lex_degree {K : Type*} [Field K] {m : ℕ} (P : MvPolynomial (Fin m) K) (p : Fin m → ℕ)
    (ps : List (Fin m → ℕ)) (hL : IsTermList P (p :: ps)) :
    MonomialOrder.lex.degree P = Finsupp.equivFunOnFinite.symm p := by
  obtain ⟨hs, hmem⟩ := hL
  have hp : Finsupp.equivFunOnFinite.symm p ∈ P.support := mem_support_iff.2 ((hmem p).1 (by simp))
  have hP : P ≠ 0 := by
    rintro rfl
    simp at hp
  have hdeg := MonomialOrder.lex.degree_mem_support hP
  have h1 := MonomialOrder.lex.le_degree hp
  have hin : (Finsupp.equivFunOnFinite (MonomialOrder.lex.degree P)) ∈ p :: ps := by
    rw [hmem]
    simpa using hdeg
  rcases List.mem_cons.1 hin with h | h
  · rw [← h]; simp
  · obtain ⟨i, hi1, hi2⟩ := (List.pairwise_cons.1 hs).1 _ h
    exfalso
    have hlt : MonomialOrder.lex.degree P ≺[MonomialOrder.lex] Finsupp.equivFunOnFinite.symm p := by
      rw [MonomialOrder.lex_lt_iff, Finsupp.Lex.lt_iff]
      exact ⟨i, fun j hj => (hi1 j hj).symm, hi2⟩
    exact absurd h1 (not_le_of_gt hlt)

section
attribute [local instance] MvPolynomial.gradedAlgebra

/-- **C59.** If the terms of a homogeneous polynomial over a field are listed in descending lexicographic order (as
sympy does), the monomials returned form a basis of the degree `k` part of the coordinate ring. -/
theorem C59_basis {K : Type*} [Field K] {n : ℕ} (P : MvPolynomial (Fin (n + 1)) K) (d k : ℕ) (hP0 : P ≠ 0)
    (hP : P.IsHomogeneous d) (L : List (Fin (n + 1) → ℕ)) (hL : IsTermList P L) :
    ∃ rows, reducedMonomialBasis k L = .ok rows ∧ IsBasisModulo P k rows := by
  rcases L with _ | ⟨p, ps⟩
  · exfalso
    apply hP0
    ext e
    by_contra hne
    have := (hL.2 (Finsupp.equivFunOnFinite e)).2 (by simpa using hne)
    simp at this
  have hd : ∀ q ∈ p :: ps, ∑ i, q i = d := by
    intro q hq
    have := hP ((hL.2 q).1 hq)
    rw [← this]
    simp [Finsupp.weight_apply, Finsupp.sum_fintype]
  refine ⟨_, C58_result k d p ps hd, ?_, ?_⟩
  · intro e he
    exact (mem_monomialBasis n k e).1 (List.mem_filter.1 he).1
  set rows := (monomialBasis n k).filter (fun e => ¬ ∀ i, p i ≤ e i) with hrows
  have hnd : rows.Nodup := (monomialBasis_nodup n k).filter _
  have hlex := lex_degree P p ps hL
  have hcoeff : ∀ (c : Fin rows.length → K) (e : Fin (n + 1) →₀ ℕ),
      (∑ a, C (c a) * mono (rows.get a) : MvPolynomial (Fin (n + 1)) K).coeff e =
        ∑ a, if rows.get a = e then c a else 0 := by
    intro c e
    rw [coeff_sum]
    refine Finset.sum_congr rfl fun a _ => ?_
    rw [mono_eq, coeff_C_mul, coeff_monomial, mul_ite, mul_one, mul_zero]
    refine if_congr ?_ rfl rfl
    constructor
    · intro h; rw [← h]; rfl
    · intro h; ext i; rw [← h]; rfl
  have hcoeffa : ∀ (c : Fin rows.length → K) (a : Fin rows.length),
      (∑ a, C (c a) * mono (rows.get a) : MvPolynomial (Fin (n + 1)) K).coeff
        (Finsupp.equivFunOnFinite.symm (rows.get a)) = c a := by
    intro c a
    rw [hcoeff, Finset.sum_eq_single a]
    · exact if_pos rfl
    · intro b _ hb
      rw [if_neg]
      intro h
      exact hb (List.nodup_iff_injective_get.1 hnd h)
    · simp
  have hcoeff0 : ∀ (c : Fin rows.length → K) (e : Fin (n + 1) →₀ ℕ), (⇑e ∉ rows) →
      (∑ a, C (c a) * mono (rows.get a) : MvPolynomial (Fin (n + 1)) K).coeff e = 0 := by
    intro c e he
    rw [hcoeff]
    refine Finset.sum_eq_zero fun a _ => if_neg ?_
    intro h
    exact he (h ▸ List.get_mem rows a)
  have hmemrows : ∀ e : Fin (n + 1) → ℕ, e ∈ rows ↔ ∑ i, e i = k ∧ ¬ ∀ i, p i ≤ e i := by
    intro e
    rw [hrows, List.mem_filter, mem_monomialBasis]
    simp
  intro f hf
  have hex : ∃ c : Fin rows.length → K, P ∣ f - ∑ a, C (c a) * mono (rows.get a) := by
    have hunit : IsUnit (MonomialOrder.lex.leadingCoeff P) :=
      isUnit_iff_ne_zero.2 (MonomialOrder.lex.leadingCoeff_ne_zero_iff.2 hP0)
    obtain ⟨g, r, hfr, -, hr⟩ := MonomialOrder.lex.div_single hunit f
    have hI : (Ideal.span {P}).IsHomogeneous (homogeneousSubmodule (Fin (n + 1)) K) := by
      refine Ideal.homogeneous_span _ _ fun x hx => ?_
      rw [Set.mem_singleton_iff] at hx
      rw [hx]
      exact ⟨d, hP⟩
    have hmem : g * P ∈ Ideal.span {P} := Ideal.mul_mem_left _ _ (Ideal.mem_span_singleton_self P)
    have hcomp := homogeneousComponent_mem_of_mem hI hmem k
    have hgP : g * P = f - r := by rw [hfr]; ring
    rw [hgP, map_sub, homogeneousComponent_eq_self hf] at hcomp
    refine ⟨fun a => r.coeff (Finsupp.equivFunOnFinite.symm (rows.get a)), ?_⟩
    rw [Ideal.mem_span_singleton] at hcomp
    convert hcomp using 2
    ext e
    by_cases he : ⇑e ∈ rows
    · obtain ⟨a, ha⟩ := List.get_of_mem he
      have hea : e = Finsupp.equivFunOnFinite.symm (rows.get a) := by
        rw [ha]; ext i; rfl
      rw [hea, hcoeffa, coeff_homogeneousComponent, if_pos]
      rw [← hea, degree_eq]
      exact ((hmemrows _).1 he).1
    · rw [hcoeff0 _ e he, coeff_homogeneousComponent]
      by_cases hk : e.degree = k
      · rw [if_pos hk]
        by_contra hne
        refine hr e (mem_support_iff.2 (Ne.symm hne)) ?_
        rw [hlex]
        have : ¬ (∑ i, e i = k ∧ ¬ ∀ i, p i ≤ e i) := fun h => he ((hmemrows _).2 h)
        rw [degree_eq] at hk
        push Not at this
        exact this hk
      · rw [if_neg hk]
  obtain ⟨c, hc⟩ := hex
  refine ⟨c, hc, fun c' hc' => ?_⟩
  obtain ⟨q, hq⟩ := dvd_sub hc hc'
  have hdiff : (f - ∑ a, C (c a) * mono (rows.get a)) - (f - ∑ a, C (c' a) * mono (rows.get a)) =
      ∑ a, C (c' a - c a) * mono (rows.get a) := by
    simp only [map_sub, sub_mul, Finset.sum_sub_distrib]
    ring
  rw [hdiff] at hq
  have hq0 : q = 0 := by
    by_contra hq0
    have hmul := MonomialOrder.lex.degree_mul hP0 hq0
    have hsupp := MonomialOrder.lex.degree_mem_support (mul_ne_zero hP0 hq0)
    rw [← hq, mem_support_iff] at hsupp
    rw [← hq] at hmul
    refine hsupp (hcoeff0 _ _ fun h => ((hmemrows _).1 h).2 fun i => ?_)
    rw [hmul, hlex]
    simp
  funext a
  have := hcoeffa (fun a => c' a - c a) a
  rw [hq, hq0, mul_zero, coeff_zero] at this
  exact (sub_eq_zero.1 this.symm)

end

/-- Every polynomial has such a list of terms: its exponent vectors, sorted. -/
theorem exists_termList {K : Type*} [CommSemiring K] {m : ℕ} (P : MvPolynomial (Fin m) K) :
    IsTermList P (((P.support.image fun e => toLex fun j => e j).sort (· ≥ ·)).map fun t => ofLex t) := by
  constructor
  · rw [List.pairwise_map]
    have h := Finset.sortedGT_sort (P.support.image fun e => toLex fun j => e j)
    refine h.pairwise.imp fun {a b} hab => ?_
    obtain ⟨i, h1, h2⟩ := hab
    exact ⟨i, fun j hj => (h1 j hj).symm, h2⟩
  · intro e
    simp only [List.mem_map, Finset.mem_sort, Finset.mem_image, mem_support_iff]
    constructor
    · rintro ⟨t, ⟨e', he', rfl⟩, rfl⟩
      simpa using he'
    · intro h
      exact ⟨toLex e, ⟨_, h, rfl⟩, rfl⟩

/-- **C59, the order matters.** If the terms are listed in another order the monomials returned may be linearly
dependent on the variety: for `x^2 + xy + y^2` with `xy` listed first, `x^3` and `y^3` are returned for degree 3, and
their difference is a multiple of the polynomial. -/
theorem C59_order_violated : ∃ (P : MvPolynomial (Fin 2) ℚ) (L : List (Fin 2 → ℕ)) (rows : List (Fin 2 → ℕ)),
    P ≠ 0 ∧ P.IsHomogeneous 2 ∧ L.Nodup ∧ (∀ e, e ∈ L ↔ P.coeff (Finsupp.equivFunOnFinite.symm e) ≠ 0) ∧
      reducedMonomialBasis 3 L = .ok rows ∧ ¬ IsBasisModulo P 3 rows := by
  set P : MvPolynomial (Fin 2) ℚ := mono ![1, 1] + mono ![2, 0] + mono ![0, 2] with hP
  have hcoeff : ∀ e : Fin 2 → ℕ, P.coeff (Finsupp.equivFunOnFinite.symm e) =
      (if ![1, 1] = e then 1 else 0) + (if ![2, 0] = e then 1 else 0) + (if ![0, 2] = e then 1 else 0) := by
    intro e
    rw [hP]
    simp only [mono_eq, coeff_add, coeff_monomial, EmbeddingLike.apply_eq_iff_eq]
  have hmem : ∀ e : Fin 2 → ℕ, e ∈ [![1, 1], ![2, 0], ![0, 2]] ↔ P.coeff (Finsupp.equivFunOnFinite.symm e) ≠ 0 := by
    intro e
    rw [hcoeff]
    by_cases h1 : ![1, 1] = e
    · subst h1; simp
    by_cases h2 : ![2, 0] = e
    · subst h2; simp
    by_cases h3 : ![0, 2] = e
    · subst h3; simp
    simp [h1, h2, h3, Ne.symm h1, Ne.symm h2, Ne.symm h3]
  refine ⟨P, [![1, 1], ![2, 0], ![0, 2]], [![3, 0], ![0, 3]], ?_, ?_, by decide, hmem, ?_, ?_⟩
  · intro h0
    have := hcoeff ![1, 1]
    rw [h0] at this
    simp at this
  · rw [hP]
    refine IsHomogeneous.add (IsHomogeneous.add ?_ ?_) ?_
    all_goals
      rw [mono_eq]
      refine isHomogeneous_monomial _ ?_
      rw [degree_eq]
      simp [Fin.sum_univ_two]
  · rw [C58_result 3 2 _ _ (by decide)]
    exact congrArg Except.ok (by decide +kernel)
  · rintro ⟨-, h⟩
    obtain ⟨c, -, hu⟩ := h 0 (isHomogeneous_zero _ _ _)
    have h1 := hu (fun _ => 0) (by simp)
    have h2 := hu ![1, -1] (by
      refine ⟨X 1 - X 0, ?_⟩
      simp [Fin.sum_univ_two, mono, hP]
      ring)
    have := congrFun (h1.trans h2.symm) 0
    simp at this

/-! ## C97 -/

private theorem polyTerms_full {n : ℕ} (P : MvPolynomial (Fin (n + 1)) ℂ) (hv : P.vars = Finset.univ) :
    ∃ L, polyTerms P = some ⟨n, L⟩ ∧ IsTermList P L := by
  have hcard : P.vars.card = n + 1 := by rw [hv]; simp
  refine ⟨_, ?_, exists_termList P⟩
  unfold polyTerms
  split
  · omega
  · rename_i m hm
    obtain rfl : m = n := by omega
    have hid : (id : Fin (m + 1) → Fin (m + 1)) = P.vars.orderEmbOfFin hm :=
      Finset.orderEmbOfFin_unique hm (fun x => by rw [hv]; simp) strictMono_id
    simp only [← hid, id]

/-- **C97.** If every coordinate occurs in the defining polynomial, `MonomialBasisReduced` is a basis of the degree `k`
part of the coordinate ring. Missing: polynomials in which a coordinate does not occur, see below. -/
theorem C97_basis_partial {n : ℕ} (P : MvPolynomial (Fin (n + 1)) ℂ) (d k : ℕ) (hP : P.IsHomogeneous d)
    (hv : P.vars = Finset.univ) :
    ∃ rows, monomialBasisReduced P k = .ok ⟨n, rows⟩ ∧ IsBasisModulo P k rows := by
  obtain ⟨L, h1, h2⟩ := polyTerms_full P hv
  have hP0 : P ≠ 0 := by
    rintro rfl
    rw [vars_0] at hv
    exact absurd (hv ▸ Finset.mem_univ (0 : Fin (n + 1))) (Finset.notMem_empty _)
  obtain ⟨rows, h3, h4⟩ := C59_basis P d k hP0 hP L h2
  refine ⟨rows, ?_, h4⟩
  unfold monomialBasisReduced
  rw [h1]
  simp only [h3]

/-- A quadric in which every coordinate occurs. -/
example : (X 0 ^ 2 + X 1 ^ 2 + X 2 ^ 2 : MvPolynomial (Fin 3) ℂ).vars = Finset.univ := by
  refine Finset.eq_univ_iff_forall.2 fun i => mem_vars i |>.2 ⟨Finsupp.single i 2, mem_support_iff.2 ?_, by simp⟩
  fin_cases i <;> simp [coeff_X_pow, Finsupp.single_left_inj]

/-- **C97, fails when a coordinate is missing.** The power matrix has one column per coordinate that occurs in the
polynomial. So for a polynomial without one of the coordinates (a cone, or a coordinate that drops out at special
moduli) the power matrix never has the `n + 1` columns that are needed to evaluate it on the variety. -/
theorem C97_missing_violated {n : ℕ} (P : MvPolynomial (Fin (n + 1)) ℂ) (k : ℕ) :
    (∀ m rows, monomialBasisReduced P k = .ok ⟨m, rows⟩ → m + 1 = P.vars.card) ∧
    (P.vars ≠ Finset.univ → ¬ ∃ rows, monomialBasisReduced P k = .ok ⟨n, rows⟩) := by
  have key : ∀ m rows, monomialBasisReduced P k = .ok ⟨m, rows⟩ → m + 1 = P.vars.card := by
    intro m rows h
    unfold monomialBasisReduced at h
    rcases hT : polyTerms P with _ | ⟨m', L⟩
    · rw [hT] at h; cases h
    · rw [hT] at h
      simp only at h
      have hm' : m = m' := by
        rcases hR : reducedMonomialBasis k L with e | r
        · rw [hR] at h; cases h
        · rw [hR] at h
          cases h
          rfl
      subst hm'
      unfold polyTerms at hT
      split at hT
      · cases hT
      · rename_i m'' hm''
        rw [hm'']
        have := congrArg (fun o => o.map Sigma.fst) hT
        simpa using this.symm
  refine ⟨key, ?_⟩
  rintro hv ⟨rows, h⟩
  apply hv
  have := key n rows h
  exact Finset.eq_univ_of_card _ (by simp [← this])

/-- A polynomial in three variables in which only two occur. -/
example : (X 0 ^ 2 + X 1 ^ 2 : MvPolynomial (Fin 3) ℂ).vars ≠ Finset.univ := by
  intro h
  have h2 : (2 : Fin 3) ∈ (X 0 ^ 2 + X 1 ^ 2 : MvPolynomial (Fin 3) ℂ).vars := by rw [h]; simp
  have := vars_add_subset _ _ h2
  rw [Finset.mem_union] at this
  rcases this with h | h <;>
  · have := vars_pow _ _ h
    rw [vars_X] at this
    exact absurd this (by decide)

end Cyjax
