import Verif.Lemmas.AlgebraicMetric
import Verif.Props.Geometry
import Verif.Spec.Donaldson

/-! # Sections that span the coordinate ring give a positive definite metric on the variety (for C105) -/

namespace Cyjax

open Cyjax.Donaldson Cyjax.Spec Cyjax.Projective Cyjax.Variety Cyjax.Differential
open MvPolynomial
open scoped ComplexConjugate ComplexOrder

variable {n N : ℕ}

/-- Positivity of the pulled back metric needs immersion along tangent directions only. -/
theorem gLoc_posDef (H : Matrix (Fin N) (Fin N) ℂ) (hH : H.PosDef) (J : Jet N (n + 1)) (degree : ℕ) (hk : degree ≠ 0)
    (hs : J.s ≠ 0) (G : Fin (n + 1) → ℂ) (d : Fin (n + 1)) (hd : G d ≠ 0) (jH : Fin n → Fin (n + 1) → Fin (n + 1) → ℂ)
    (himm : ∀ (v : Fin (n + 1) → ℂ) (c : ℂ), ∑ i, v i * G i = 0 → (∀ a, ∑ i, v i * J.s1 a i = c * J.s a) → v = 0) :
    (Graph.gLoc (.full H) degree J ⟨G, (d : ℕ), jH⟩).PosDef := by
  rw [C67_pullback, C28_pullback]
  set M := jacobianEmbed G ((d : ℕ) : ℤ) with hM
  have hpsi : 0 < Graph.psi (.full H) J := C62_pos H hH J.s hs
  have hherm := C63_hermitian H hH.isHermitian J degree
  refine Matrix.PosDef.of_dotProduct_mulVec_pos ?_ fun {x} hx => ?_
  · unfold Matrix.IsHermitian
    rw [Matrix.conjTranspose_mul, Matrix.conjTranspose_mul, Matrix.conjTranspose_conjTranspose, hherm.eq, Matrix.mul_assoc]
  set y := M.conjTranspose.mulVec x with hy
  have hyi : ∀ i, conj (y i) = ∑ r, conj (x r) * M r i := by
    intro i
    simp only [hy, Matrix.mulVec, dotProduct, map_sum, map_mul, Matrix.conjTranspose_apply, RCLike.star_def,
      Complex.conj_conj]
    exact Finset.sum_congr rfl fun r _ => mul_comm _ _
  have e : star x ⬝ᵥ ((M * Graph.gProj (.full H) J degree * M.conjTranspose).mulVec x) =
      star y ⬝ᵥ ((Graph.gProj (.full H) J degree).mulVec y) := by
    rw [← Matrix.mulVec_mulVec, ← Matrix.mulVec_mulVec, Matrix.dotProduct_mulVec, ← hy]
    congr 1
    rw [hy, Matrix.star_mulVec, Matrix.conjTranspose_conjTranspose]
  rw [e, gProj_form H hH.isHermitian J degree y hpsi.ne' hk]
  have hden : 0 < Graph.psi (.full H) J ^ 3 * ((degree : ℂ) * (Real.pi : ℂ)) := by
    refine mul_pos (pow_pos hpsi 3) (mul_pos ?_ ?_)
    · exact_mod_cast Nat.pos_of_ne_zero hk
    · exact_mod_cast Real.pi_pos
  refine div_pos (bil_pos hH ?_) hden
  intro hw
  apply hx
  have hv := himm (fun i => conj (y i))
    (bil H (fun a => ∑ i, conj (y i) * J.s1 a i) J.s / bil H J.s J.s) (by
      simp only [hyi, Finset.sum_mul]
      rw [Finset.sum_comm]
      refine Finset.sum_eq_zero fun r _ => ?_
      simp only [mul_assoc, ← Finset.mul_sum, hM, C27_tangent G d hd r, mul_zero]) (by
      intro a
      have h0 := congrFun hw a
      simp only [Pi.add_apply, Pi.smul_apply, smul_eq_mul, Pi.zero_apply] at h0
      have hne : bil H J.s J.s ≠ 0 := hpsi.ne'
      field_simp
      linear_combination h0)
  funext r
  have h1 := congrFun hv (d.succAbove r)
  rw [hyi] at h1
  have h2 : ∀ r', M r' (d.succAbove r) = if r' = r then 1 else 0 := by
    intro r'
    simp [hM]
  simpa [h2] using h1

theorem dehom_mono (B : MonomialSections n) (p : Fin (n + 1)) (a : Fin B.size) :
    dehom p (mono (B.powers a)) = affineSection B p a := by
  unfold dehom mono affineSection
  rw [map_prod, Fin.prod_univ_succAbove _ p]
  simp

/-- Modulo `F` the sections span: values and tangential derivatives of any polynomial of the same degree are the linear
combinations of those of the sections. -/
theorem span_jet (B : MonomialSections n) (F : MvPolynomial (Fin (n + 1)) ℂ) (hB : SpansModulo F B.degree B.rows)
    (p : Fin (n + 1)) (z : Fin n → ℂ) (h0 : eval z (dehom p F) = 0) (f : MvPolynomial (Fin (n + 1)) ℂ)
    (hf : f.IsHomogeneous B.degree) :
    ∃ c : Fin B.size → ℂ, eval z (dehom p f) = ∑ a, c a * eval z (affineSection B p a) ∧
      ∀ v : Fin n → ℂ, ∑ i, v i * eval z (pderiv i (dehom p F)) = 0 →
        ∑ i, v i * eval z (pderiv i (dehom p f)) = ∑ a, c a * ∑ i, v i * eval z (pderiv i (affineSection B p a)) := by
  obtain ⟨c, R, hR⟩ := hB.2 f hf
  have hf' : dehom p f = ∑ a : Fin B.size, C (c a) * affineSection B p a + dehom p F * dehom p R := by
    rw [sub_eq_iff_eq_add] at hR
    rw [hR, add_comm]
    have hm : ∀ x y, dehom p (x * y) = dehom p x * dehom p y := fun x y => map_mul _ _ _
    have ha : ∀ x y, dehom p (x + y) = dehom p x + dehom p y := fun x y => map_add _ _ _
    rw [ha, hm]
    congr 1
    unfold dehom
    rw [map_sum]
    refine Finset.sum_congr rfl fun a _ => ?_
    rw [map_mul, bind₁_C_right]
    congr 1
    exact dehom_mono B p a
  refine ⟨c, ?_, fun v hv => ?_⟩
  · rw [hf']
    simp [h0]
  · have hd : ∀ i, eval z (pderiv i (dehom p f)) = ∑ a, c a * eval z (pderiv i (affineSection B p a)) +
        eval z (dehom p R) * eval z (pderiv i (dehom p F)) := by
      intro i
      rw [hf', map_add, map_add, map_sum, map_sum, Derivation.leibniz, map_add]
      simp only [smul_eq_mul, map_mul, h0, zero_mul, zero_add]
      congr 1
      refine Finset.sum_congr rfl fun a _ => ?_
      rw [pderiv_C_mul, map_mul, eval_C]
    simp only [hd, mul_add, Finset.sum_add_distrib, Finset.mul_sum]
    rw [Finset.sum_comm]
    have hz : ∑ i, v i * (eval z (dehom p R) * eval z (pderiv i (dehom p F))) = 0 := by
      rw [← mul_zero (eval z (dehom p R)), ← hv, Finset.mul_sum]
      exact Finset.sum_congr rfl fun i _ => by ring
    rw [hz, add_zero]
    exact Finset.sum_congr rfl fun a _ => Finset.sum_congr rfl fun i _ => by ring

private theorem mono_hom {m k : ℕ} (e : Fin m → ℕ) (he : ∑ i, e i = k) : (mono e : MvPolynomial (Fin m) ℂ).IsHomogeneous k := by
  rw [← he]
  exact IsHomogeneous.prod _ _ _ fun i _ => isHomogeneous_X_pow i _

/-- On the variety, sections that span the coordinate ring do not all vanish and immerse. -/
theorem span_immersion (B : MonomialSections n) (F : MvPolynomial (Fin (n + 1)) ℂ) (hB : SpansModulo F B.degree B.rows)
    (p : Fin (n + 1)) (z : Fin n → ℂ) (h0 : eval z (dehom p F) = 0) :
    (polyJet (affineSection B p) z).s ≠ 0 ∧
    (B.degree ≠ 0 → ∀ (v : Fin n → ℂ) (c : ℂ), ∑ i, v i * eval z (pderiv i (dehom p F)) = 0 →
      (∀ a, ∑ i, v i * (polyJet (affineSection B p) z).s1 a i = c * (polyJet (affineSection B p) z).s a) → v = 0) := by
  have hone : dehom p (mono (Pi.single p B.degree)) = 1 := by
    unfold dehom mono
    rw [map_prod, Fin.prod_univ_succAbove _ p]
    simp [Fin.succAbove_ne]
  obtain ⟨c0, h1, h2⟩ := span_jet B F hB p z h0 (mono (Pi.single p B.degree)) (mono_hom _ (by simp))
  rw [hone] at h1 h2
  refine ⟨?_, fun hk v c hv hc => ?_⟩
  · intro hs
    have : ∀ a, eval z (affineSection B p a) = 0 := fun a => congrFun hs a
    simp [this] at h1
  have hc' : ∀ a, ∑ i, v i * eval z (pderiv i (affineSection B p a)) = c * eval z (affineSection B p a) := hc
  have hc0 : c = 0 := by
    have h3 := h2 v hv
    simp only [hc'] at h3
    have h4 : ∑ a, c0 a * (c * eval z (affineSection B p a)) = c * ∑ a, c0 a * eval z (affineSection B p a) := by
      rw [Finset.mul_sum]
      exact Finset.sum_congr rfl fun a _ => by ring
    rw [h4, ← h1] at h3
    simpa using h3.symm
  funext q
  have hq : dehom p (mono (Pi.single p (B.degree - 1) + Pi.single (p.succAbove q) 1)) = X q := by
    unfold dehom mono
    rw [map_prod, Fin.prod_univ_succAbove _ p, Finset.prod_eq_single q]
    · simp [Fin.succAbove_ne]
    · intro i _ hi
      have h1 : p.succAbove i ≠ p.succAbove q := fun h => hi (Fin.succAbove_right_injective h)
      simp [Fin.succAbove_ne, h1]
    · simp
  obtain ⟨c1, -, h4⟩ := span_jet B F hB p z h0 (mono (Pi.single p (B.degree - 1) + Pi.single (p.succAbove q) 1))
    (mono_hom _ (by simp only [Pi.add_apply, Finset.sum_add_distrib]; simp; omega))
  have h5 := h4 v hv
  rw [hq] at h5
  simpa [hc', hc0, pderiv_X, Pi.single_apply, apply_ite] using h5

theorem spans_full (F : MvPolynomial (Fin (n + 1)) ℂ) (k : ℕ) :
    SpansModulo F k (monomialBasis n k) := by
  refine ⟨fun e he => (mem_monomialBasis n k e).1 he, fun f hf => ?_⟩
  refine ⟨fun a => f.coeff (Finsupp.equivFunOnFinite.symm ((monomialBasis n k).get a)), ?_⟩
  have : f = ∑ a, C (f.coeff (Finsupp.equivFunOnFinite.symm ((monomialBasis n k).get a))) *
      mono ((monomialBasis n k).get a) := by
    ext m
    rw [coeff_sum]
    simp only [coeff_C_mul]
    have hmono : ∀ e : Fin (n + 1) → ℕ, (mono e : MvPolynomial (Fin (n + 1)) ℂ) =
        monomial (Finsupp.equivFunOnFinite.symm e) 1 := by
      intro e
      rw [monomial_eq, C_1, one_mul, Finsupp.prod_fintype _ _ fun i => pow_zero _]
      rfl
    simp only [hmono, coeff_monomial]
    by_cases hm : ∑ i, m i = k
    · obtain ⟨a, ha⟩ := List.get_of_mem ((mem_monomialBasis n k m).2 hm)
      have ha' : Finsupp.equivFunOnFinite.symm ((monomialBasis n k).get a) = m := by
        ext i
        exact congrFun ha i
      rw [Finset.sum_eq_single a]
      · rw [ha']; simp
      · intro b _ hb
        rw [if_neg, mul_zero]
        intro hbm
        apply hb
        apply (List.nodup_iff_injective_get.1 (monomialBasis_nodup n k))
        rw [ha]
        funext i
        exact DFunLike.congr_fun hbm i
      · simp
    · have hz : f.coeff m = 0 := by
        by_contra hne
        apply hm
        have := hf hne
        rw [← this, Finsupp.weight_apply, Finsupp.sum_fintype] <;> simp
      rw [hz]
      symm
      refine Finset.sum_eq_zero fun a _ => ?_
      rw [if_neg, mul_zero]
      intro hbm
      apply hm
      rw [← hbm]
      exact (mem_monomialBasis n k _).1 (List.get_mem _ a)
  rw [← this, sub_self]
  exact dvd_zero _

theorem spans_of_basis {F : MvPolynomial (Fin (n + 1)) ℂ} {k : ℕ} {rows : List (Fin (n + 1) → ℕ)}
    (h : IsBasisModulo F k rows) : SpansModulo F k rows :=
  ⟨h.1, fun f hf => (h.2 f hf).exists⟩

end Cyjax
