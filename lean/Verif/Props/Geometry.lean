import Verif.Lemmas.Geometry
import Verif.Props.Sections
import Mathlib.Analysis.SpecialFunctions.Complex.LogDeriv
import Mathlib.Algebra.BigOperators.Field

/-! # The algebraic metric (C61–C66, C71, C72) -/

namespace Cyjax

open Cyjax.Donaldson Cyjax.Spec Cyjax.Projective
open scoped ComplexConjugate ComplexOrder

variable {N n : ℕ}

/-! ## C62 -/

/-- **C62.** For Hermitian `H`, `psi = s H conj(s)` is a real number. -/
theorem C62_real (H : Matrix (Fin N) (Fin N) ℂ) (hH : H.IsHermitian) (s : Fin N → ℂ) :
    (psi (.full H) s (conjS s)).im = 0 := Complex.conj_eq_iff_im.1 (bil_conj hH s s)

/-- **C62.** For positive definite `H`, `psi` is a positive number unless all sections vanish. -/
theorem C62_pos (H : Matrix (Fin N) (Fin N) ℂ) (hH : H.PosDef) (s : Fin N → ℂ) (hs : s ≠ 0) :
    0 < psi (.full H) s (conjS s) := bil_pos hH hs

/-- **C62.** The same for a one-dimensional `h`: real for real entries, positive for positive entries. -/
theorem C62_diag (h : Fin N → ℝ) (s : Fin N → ℂ) :
    psi (.diag fun i => (h i : ℂ)) s (conjS s) = ((∑ i, h i * ‖s i‖ ^ 2 : ℝ) : ℂ) := by
  simp only [psi, conjS]
  push_cast
  refine Finset.sum_congr rfl fun i _ => ?_
  rw [← Complex.mul_conj']
  ring

/-- The identity matrix and one non-zero section. -/
example : 0 < psi (.full 1) ![1, 0] (conjS ![1, 0]) := by
  refine C62_pos 1 Matrix.PosDef.one _ ?_
  intro h
  simpa using congrFun h 0

/-! ## C61, potential -/

private theorem psi_transition (H : Matrix (Fin N) (Fin N) ℂ) (s s' : Fin N → ℂ) (c : ℂ) (h : ∀ a, c * s' a = s a) :
    psi (.full H) s (conjS s) = (‖c‖ ^ 2 : ℝ) * psi (.full H) s' (conjS s') := by
  have hs : s = c • s' := by funext a; exact (h a).symm
  change bil H s s = _ * bil H s' s'
  rw [hs, bil_smul_left, bil_smul_right, ← mul_assoc, Complex.mul_conj']
  push_cast
  rfl

/-- **C61.** Between two patches the Kahler potential changes by `log |z_q|^2 / π`, the logarithm of the square of a
holomorphic function: a Kahler transformation. -/
theorem C61_kahler {n : ℕ} (S : MonomialSections (n + 1)) (hS : ∀ a, ∑ i, S.powers a i = S.degree)
    (hdeg : S.degree ≠ 0) (H : Matrix (Fin S.size) (Fin S.size) ℂ) (hH : H.PosDef)
    (zs : Fin (n + 1) → ℂ) (p q : Fin (n + 2)) (hpq : p ≠ q) (hq : affineToHom zs (p : ℕ) q ≠ 0)
    (hs : S.call zs (p : ℕ) true ≠ 0) :
    let s := S.call zs (p : ℕ) true
    let s' := S.call (changeChart zs (p : ℕ) (q : ℕ)) (q : ℕ) true
    kahler (psi (.full H) s (conjS s)) S.degree =
      kahler (psi (.full H) s' (conjS s')) S.degree + ((Real.log (‖affineToHom zs (p : ℕ) q‖ ^ 2) / Real.pi : ℝ) : ℂ) := by
  intro s s'
  have htr := C61_transition S hS zs p q hpq hq
  have hpsi := psi_transition H s s' _ htr
  have hs' : s' ≠ 0 := by
    intro h0
    apply hs
    funext a
    have := htr a
    rw [← this]
    change _ * s' a = 0
    rw [h0]
    simp
  have h1 : psi (.full H) s' (conjS s') ≠ 0 := (C62_pos H hH s' hs').ne'
  have hnorm : 0 < ‖affineToHom zs (p : ℕ) q‖ := norm_pos_iff.2 hq
  unfold kahler
  rw [hpsi, Complex.log_ofReal_mul (pow_pos (norm_pos_iff.2 (pow_ne_zero _ hq)) 2) h1, norm_pow, ← pow_mul, mul_comm S.degree 2, pow_mul, Real.log_pow]
  have hd : (S.degree : ℂ) ≠ 0 := Nat.cast_ne_zero.2 hdeg
  have hpi : (Real.pi : ℂ) ≠ 0 := Complex.ofReal_ne_zero.2 Real.pi_ne_zero
  push_cast
  field_simp
  ring

/-- **C61.** The sections of the full basis have no common zero: in patch `p` the section `z_p^k` is 1. -/
theorem C61_full_nonzero (n k : ℕ) (zs : Fin n → ℂ) (p : Fin (n + 1)) :
    (monomialBasisFull n k).call zs (p : ℕ) true ≠ 0 := by
  intro h0
  have hmem : (Pi.single p k : Fin (n + 1) → ℕ) ∈ monomialBasis n k := by
    rw [mem_monomialBasis]
    simp
  obtain ⟨a, ha⟩ := List.get_of_mem hmem
  have h1 := congrFun h0 a
  rw [show (monomialBasisFull n k).call zs (p : ℕ) true a = monomialsIndex zs (p : ℕ) (monomialBasisFull n k).powers
    (monomialBasisFull n k).degree a from rfl, C60_affine zs p _ _ (C60_bounded n k) a] at h1
  have hrow : (monomialBasisFull n k).powers a = Pi.single p k := ha
  rw [hrow, Finset.prod_eq_one] at h1
  · exact one_ne_zero h1
  · intro i _
    rcases eq_or_ne i p with rfl | hne
    · simp
    · simp [hne]

/-- **C61.** Hence `psi > 0` for the full basis and positive definite `H`. -/
theorem C61_full_psi (n k : ℕ) (zs : Fin n → ℂ) (p : Fin (n + 1))
    (H : Matrix (Fin (monomialBasisFull n k).size) (Fin (monomialBasisFull n k).size) ℂ) (hH : H.PosDef) :
    0 < psi (.full H) ((monomialBasisFull n k).call zs (p : ℕ) true)
      (conjS ((monomialBasisFull n k).call zs (p : ℕ) true)) :=
  C62_pos H hH _ (C61_full_nonzero n k zs p)

/-! ## C63 -/

/-- **C63.** `g_proj` is Hermitian. -/
theorem C63_hermitian (H : Matrix (Fin N) (Fin N) ℂ) (hH : H.IsHermitian) (J : Jet N n) (degree : ℕ) :
    (Graph.gProj (.full H) J degree).IsHermitian := by
  have hpsi : conj (Graph.psi (.full H) J) = Graph.psi (.full H) J := bil_conj hH _ _
  ext i j
  change conj (Graph.gProj (.full H) J degree j i) = Graph.gProj (.full H) J degree i j
  simp only [Graph.gProj, gProj, Matrix.of_apply, map_div₀, map_sub, map_mul, map_pow, hpsi, Complex.conj_ofReal,
    map_natCast]
  have h1 : conj (Graph.psiHA (.full H) J j i) = Graph.psiHA (.full H) J i j := bil_conj hH _ _
  have h2 : conj (Graph.psiH (.full H) J j) = Graph.psiA (.full H) J j := rfl
  have h3 : conj (Graph.psiA (.full H) J i) = Graph.psiH (.full H) J i := Complex.conj_conj _
  rw [h1, h2, h3, mul_comm (Graph.psiA _ _ j)]

theorem gProj_form (H : Matrix (Fin N) (Fin N) ℂ) (hH : H.IsHermitian) (J : Jet N n) (degree : ℕ)
    (x : Fin n → ℂ) (hpsi : Graph.psi (.full H) J ≠ 0) (hd : degree ≠ 0) :
    let u : Fin N → ℂ := fun a => ∑ i, conj (x i) * J.s1 a i
    let w := bil H J.s J.s • u + (-bil H u J.s) • J.s
    star x ⬝ᵥ ((Graph.gProj (.full H) J degree).mulVec x) = bil H w w / (Graph.psi (.full H) J ^ 3 * (degree * Real.pi)) := by
  intro u w
  have hu : u = ∑ i, conj (x i) • fun a => J.s1 a i := by
    funext a
    simp [u]
  have h1 : bil H u J.s = ∑ i, conj (x i) * Graph.psiH (.full H) J i := by
    rw [hu, bil_sum_left]
    exact Finset.sum_congr rfl fun i _ => bil_smul_left _ _ _ _
  have h2 : conj (bil H u J.s) = ∑ j, x j * Graph.psiA (.full H) J j := by
    rw [h1, map_sum]
    refine Finset.sum_congr rfl fun i _ => ?_
    rw [map_mul, Complex.conj_conj]
    rfl
  have h3 : bil H u u = ∑ i, ∑ j, conj (x i) * (Graph.psiHA (.full H) J i j * x j) := by
    conv_lhs => rw [hu, bil_sum_left]
    refine Finset.sum_congr rfl fun i _ => ?_
    rw [bil_smul_left, bil_sum_right, Finset.mul_sum]
    refine Finset.sum_congr rfl fun j _ => ?_
    rw [bil_smul_right, Complex.conj_conj, psiHA_bil]
    ring
  have hdef : bil H w w = _ := bil_defect hH u J.s
  rw [hdef, h2, h3, h1, ← psi_bil]
  set ψ := Graph.psi (.full H) J with hψ
  have hdd : (degree : ℂ) ≠ 0 := Nat.cast_ne_zero.2 hd
  have hpi : (Real.pi : ℂ) ≠ 0 := Complex.ofReal_ne_zero.2 Real.pi_ne_zero
  have hlhs : star x ⬝ᵥ ((Graph.gProj (.full H) J degree).mulVec x) =
      ∑ i, ∑ j, (conj (x i) * (Graph.psiHA (.full H) J i j * x j) / (ψ * (degree * Real.pi)) -
        (conj (x i) * Graph.psiH (.full H) J i) * (x j * Graph.psiA (.full H) J j) / (ψ ^ 2 * (degree * Real.pi))) := by
    simp only [dotProduct, Matrix.mulVec, Finset.mul_sum]
    refine Finset.sum_congr rfl fun i _ => Finset.sum_congr rfl fun j _ => ?_
    simp only [Graph.gProj, gProj, Matrix.of_apply, ← hψ, Pi.star_apply, RCLike.star_def]
    field_simp
  rw [hlhs]
  simp only [Finset.sum_sub_distrib, ← Finset.sum_div]
  rw [← Finset.sum_mul_sum]
  field_simp

/-- **C63.** For positive definite `H` and sections that do not all vanish, `g_proj` is positive semi-definite. -/
theorem C63_posSemidef (H : Matrix (Fin N) (Fin N) ℂ) (hH : H.PosDef) (J : Jet N n) (degree : ℕ) (hd : degree ≠ 0)
    (hs : J.s ≠ 0) : (Graph.gProj (.full H) J degree).PosSemidef := by
  have hpsi : 0 < Graph.psi (.full H) J := C62_pos H hH J.s hs
  refine Matrix.PosSemidef.of_dotProduct_mulVec_nonneg (C63_hermitian H hH.isHermitian J degree) fun x => ?_
  rw [gProj_form H hH.isHermitian J degree x hpsi.ne' hd]
  have hden : 0 < Graph.psi (.full H) J ^ 3 * ((degree : ℂ) * (Real.pi : ℂ)) := by
    refine mul_pos (pow_pos hpsi 3) (mul_pos ?_ ?_)
    · exact_mod_cast Nat.pos_of_ne_zero hd
    · exact_mod_cast Real.pi_pos
  exact div_nonneg (bil_nonneg hH.posSemidef _) hden.le

/-- **C63.** `g_proj` is positive definite where the sections immerse: no non-trivial combination of the derivatives of
the sections is a multiple of the sections. -/
theorem C63_posDef (H : Matrix (Fin N) (Fin N) ℂ) (hH : H.PosDef) (J : Jet N n) (degree : ℕ) (hd : degree ≠ 0)
    (hs : J.s ≠ 0)
    (himm : ∀ (v : Fin n → ℂ) (c : ℂ), (∀ a, ∑ i, v i * J.s1 a i = c * J.s a) → v = 0) :
    (Graph.gProj (.full H) J degree).PosDef := by
  have hpsi : 0 < Graph.psi (.full H) J := C62_pos H hH J.s hs
  refine Matrix.PosDef.of_dotProduct_mulVec_pos (C63_hermitian H hH.isHermitian J degree) fun {x} hx => ?_
  rw [gProj_form H hH.isHermitian J degree x hpsi.ne' hd]
  have hden : 0 < Graph.psi (.full H) J ^ 3 * ((degree : ℂ) * (Real.pi : ℂ)) := by
    refine mul_pos (pow_pos hpsi 3) (mul_pos ?_ ?_)
    · exact_mod_cast Nat.pos_of_ne_zero hd
    · exact_mod_cast Real.pi_pos
  refine div_pos (bil_pos hH ?_) hden
  intro hw
  apply hx
  have hv := himm (fun i => conj (x i))
    (bil H (fun a => ∑ i, conj (x i) * J.s1 a i) J.s / bil H J.s J.s) (by
      intro a
      have h0 := congrFun hw a
      simp only [Pi.add_apply, Pi.smul_apply, smul_eq_mul, Pi.zero_apply] at h0
      have hne : bil H J.s J.s ≠ 0 := hpsi.ne'
      field_simp
      linear_combination h0)
  funext i
  have := congrFun hv i
  simpa using this

/-- **C63.** Conversely, where they do not immerse the metric is degenerate. -/
theorem C63_degenerate (H : Matrix (Fin N) (Fin N) ℂ) (hH : H.PosDef) (J : Jet N n) (degree : ℕ) (hd : degree ≠ 0)
    (hs : J.s ≠ 0) (v : Fin n → ℂ) (hv : v ≠ 0) (c : ℂ) (h : ∀ a, ∑ i, v i * J.s1 a i = c * J.s a) :
    ¬ (Graph.gProj (.full H) J degree).PosDef := by
  intro hpd
  have hpsi : 0 < Graph.psi (.full H) J := C62_pos H hH J.s hs
  have hx : (fun i => conj (v i)) ≠ 0 := by
    intro h0
    apply hv
    funext i
    have := congrFun h0 i
    simpa using this
  have hpos := hpd.dotProduct_mulVec_pos hx
  rw [gProj_form H hH.isHermitian J degree _ hpsi.ne' hd] at hpos
  have hu : (fun a => ∑ i, conj (conj (v i)) * J.s1 a i) = c • J.s := by
    funext a
    simp only [Complex.conj_conj]
    exact h a
  rw [hu] at hpos
  have hw : bil H J.s J.s • (c • J.s) + (-bil H (c • J.s) J.s) • J.s = 0 := by
    rw [bil_smul_left]
    funext a
    simp
    ring
  rw [hw] at hpos
  simp [bil] at hpos

/-- The sections `1, z` of degree 1 on the line immerse. -/
example (z : ℂ) : (Graph.gProj (.full 1) ⟨![1, z], ![![0], ![1]], fun _ _ _ => 0⟩ 1 : Matrix (Fin 1) (Fin 1) ℂ).PosDef := by
  refine C63_posDef 1 Matrix.PosDef.one _ 1 one_ne_zero ?_ ?_
  · intro h
    simpa using congrFun h 0
  · intro v c hv
    have h0 := hv 0
    have h1 := hv 1
    simp at h0 h1
    rw [← h0] at h1
    funext i
    fin_cases i
    simpa using h1

end Cyjax
