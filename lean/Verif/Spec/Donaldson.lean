import Mathlib.Algebra.MvPolynomial.Basic
import Mathlib.Data.Fin.Basic
import Mathlib.RingTheory.MvPolynomial.Homogeneous

/-! # Specifications for the monomial bases (C56–C61, C97) -/

namespace Cyjax.Spec

open MvPolynomial

/-- The monomial `∏ z_i ^ e_i`. -/
noncomputable def mono {K : Type*} [CommSemiring K] {m : ℕ} (e : Fin m → ℕ) : MvPolynomial (Fin m) K :=
  ∏ i, X i ^ e i

/-- Descending lexicographic order of exponent vectors: `a` is listed before `b`. -/
def LexGT {m : ℕ} (a b : Fin m → ℕ) : Prop := ∃ i, (∀ j < i, a j = b j) ∧ b i < a i

/-- `L` lists the exponent vectors of the terms of `P` in descending lexicographic order. -/
def IsTermList {K : Type*} [CommSemiring K] {m : ℕ} (P : MvPolynomial (Fin m) K) (L : List (Fin m → ℕ)) : Prop :=
  L.Pairwise LexGT ∧ ∀ e, e ∈ L ↔ P.coeff (Finsupp.equivFunOnFinite.symm e) ≠ 0

/-- The rows form a basis of the degree `k` part of the coordinate ring of `P = 0`: every homogeneous polynomial of
degree `k` is, modulo `P`, a linear combination of the monomials in exactly one way. -/
def IsBasisModulo {K : Type*} [CommRing K] {m : ℕ} (P : MvPolynomial (Fin m) K) (k : ℕ) (rows : List (Fin m → ℕ)) :
    Prop :=
  (∀ e ∈ rows, ∑ i, e i = k) ∧
  ∀ f : MvPolynomial (Fin m) K, f.IsHomogeneous k →
    ∃! c : Fin rows.length → K, P ∣ f - ∑ a, C (c a) * mono (rows.get a)

/-- The rows span the degree `k` part of the coordinate ring of `P = 0`. -/
def SpansModulo {K : Type*} [CommRing K] {m : ℕ} (P : MvPolynomial (Fin m) K) (k : ℕ) (rows : List (Fin m → ℕ)) : Prop :=
  (∀ e ∈ rows, ∑ i, e i = k) ∧
  ∀ f : MvPolynomial (Fin m) K, f.IsHomogeneous k →
    ∃ c : Fin rows.length → K, P ∣ f - ∑ a, C (c a) * mono (rows.get a)

end Cyjax.Spec
