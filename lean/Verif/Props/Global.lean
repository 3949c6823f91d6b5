import Verif.Lemmas.EtaPatch

/-! # Properties C101, C102: behaviour of the algebraic metric under a change of patch -/

namespace Cyjax

open Cyjax.Donaldson Cyjax.Spec Cyjax.Differential Cyjax.Projective Cyjax.Variety Cyjax.Polynomial
open MvPolynomial (eval)
open scoped ComplexConjugate ComplexOrder

variable {n : ℕ}

/-! ## C101 -/

/-- **C101.** The ambient metric is a tensor: in two patches it is related by the Jacobian `M[a, i] = ∂w_a/∂z_i` of
`change_chart`, `g_p = Mᵀ g_q M̄`. -/
theorem C101_metric (B : MonomialSections (n + 1)) (hB : ∀ a, ∑ i, B.powers a i = B.degree) (p q : Fin (n + 2))
    (hpq : p ≠ q) (S S' : (Fin (n + 1) → ℂ) → Jet B.size (n + 1)) (hS : IsJet S) (hS' : IsJet S')
    (hs : ∀ z, (S z).s = B.call z (p : ℕ) true) (hs' : ∀ z, (S' z).s = B.call z (q : ℕ) true)
    (H : Matrix (Fin B.size) (Fin B.size) ℂ) (hH : H.IsHermitian) (z : Fin (n + 1) → ℂ)
    (hq : affineToHom z (p : ℕ) q ≠ 0) (hz : Graph.psi (.full H) (S z) ≠ 0) :
    ∃ M : Matrix (Fin (n + 1)) (Fin (n + 1)) ℂ,
      (∀ a i, HasDerivAt (fun t => changeChart (Function.update z i t) (p : ℕ) (q : ℕ) a) (M a i) (z i)) ∧
      Graph.gProj (.full H) (S z) B.degree =
        M.transpose * Graph.gProj (.full H) (S' (changeChart z (p : ℕ) (q : ℕ))) B.degree * M.map conj := by
  obtain ⟨M, hM⟩ := exists_chartJac z p q hpq hq
  exact ⟨M, hM, gProj_chart hH B.degree (sectionPoly B) (sectionPoly_homogeneous B hB) p q hpq hS hS'
    (fun z a => by rw [hs, sections_call_eq B hB]) (fun z a => by rw [hs', sections_call_eq B hB]) z hq hM hz⟩

/-- **C101.** The Kahler potentials in two patches differ by `log |c|² / π`, with `c` the homogeneous coordinate that is
one in the other patch. -/
theorem C101_kahler (B : MonomialSections (n + 1)) (hB : ∀ a, ∑ i, B.powers a i = B.degree) (hk : B.degree ≠ 0)
    (p q : Fin (n + 2)) (hpq : p ≠ q) (J J' : Jet B.size (n + 1)) (z : Fin (n + 1) → ℂ)
    (hs : J.s = B.call z (p : ℕ) true) (hs' : J'.s = B.call (changeChart z (p : ℕ) (q : ℕ)) (q : ℕ) true)
    (H : Matrix (Fin B.size) (Fin B.size) ℂ) (hq : affineToHom z (p : ℕ) q ≠ 0) (hz : Graph.psi (.full H) J ≠ 0) :
    Graph.kahler (.full H) J B.degree = Graph.kahler (.full H) J' B.degree +
      ((Real.log (‖affineToHom z (p : ℕ) q‖ ^ 2) / Real.pi : ℝ) : ℂ) := by
  set c := affineToHom z (p : ℕ) q with hc
  have hsc : J.s = (c ^ B.degree) • J'.s := by
    funext a
    rw [hs, hs', ← C61_transition B hB z p q hpq hq a]
    rfl
  have hpsi : Graph.psi (.full H) J = (((‖c‖ ^ 2) ^ B.degree : ℝ) : ℂ) * Graph.psi (.full H) J' := by
    change bil H J.s J.s = _ * bil H J'.s J'.s
    rw [hsc, bil_smul_left, bil_smul_right, ← mul_assoc, Complex.mul_conj', norm_pow]
    push_cast
    ring
  have hz' : Graph.psi (.full H) J' ≠ 0 := by
    intro h
    rw [hpsi, h, mul_zero] at hz
    exact hz rfl
  have hc0 : 0 < ‖c‖ := norm_pos_iff.2 hq
  simp only [Graph.kahler, kahler]
  rw [hpsi, Complex.log_ofReal_mul (by positivity) hz', Real.log_pow]
  have hk' : (B.degree : ℂ) ≠ 0 := Nat.cast_ne_zero.2 hk
  have hpi : (Real.pi : ℂ) ≠ 0 := Complex.ofReal_ne_zero.2 Real.pi_ne_zero
  push_cast
  field_simp
  ring

/-- For the full basis and positive definite `H` nothing else is required. -/
theorem C101_full (n k : ℕ) (p q : Fin (n + 2)) (hpq : p ≠ q)
    (H : Matrix (Fin (monomialBasisFull (n + 1) k).size) (Fin (monomialBasisFull (n + 1) k).size) ℂ) (hH : H.PosDef) :
    ∃ S S' : (Fin (n + 1) → ℂ) → Jet (monomialBasisFull (n + 1) k).size (n + 1), IsJet S ∧ IsJet S' ∧
      (∀ z, (S z).s = (monomialBasisFull (n + 1) k).call z (p : ℕ) true) ∧
      (∀ z, (S' z).s = (monomialBasisFull (n + 1) k).call z (q : ℕ) true) ∧
      ∀ z, affineToHom z (p : ℕ) q ≠ 0 → ∃ M : Matrix (Fin (n + 1)) (Fin (n + 1)) ℂ,
        (∀ a i, HasDerivAt (fun t => changeChart (Function.update z i t) (p : ℕ) (q : ℕ) a) (M a i) (z i)) ∧
        Graph.gProj (.full H) (S z) k =
          M.transpose * Graph.gProj (.full H) (S' (changeChart z (p : ℕ) (q : ℕ))) k * M.map conj := by
  obtain ⟨S, hS, hs⟩ := C64_sections (monomialBasisFull (n + 1) k) (C60_bounded (n + 1) k) p
  obtain ⟨S', hS', hs'⟩ := C64_sections (monomialBasisFull (n + 1) k) (C60_bounded (n + 1) k) q
  refine ⟨S, S', hS, hS', hs, hs', fun z hz => C101_metric (monomialBasisFull (n + 1) k) ?_ p q hpq S S' hS hS' hs hs' H
    hH.isHermitian z hz ?_⟩
  · intro a
    exact (mem_monomialBasis (n + 1) k _).1 (List.get_mem _ a)
  · refine (C62_pos H hH _ ?_).ne'
    rw [hs]
    exact C61_full_nonzero (n + 1) k z p

/-! ## C102 -/

section Eta

variable (B : MonomialSections (n + 1)) (hB : ∀ a, ∑ i, B.powers a i = B.degree) (p q : Fin (n + 2)) (hpq : p ≠ q)
  (S S' : (Fin (n + 1) → ℂ) → Jet B.size (n + 1)) (hS : IsJet S) (hS' : IsJet S')
  (hs : ∀ z, (S z).s = B.call z (p : ℕ) true) (hs' : ∀ z, (S' z).s = B.call z (q : ℕ) true)
  (H : Matrix (Fin B.size) (Fin B.size) ℂ) (hH : H.IsHermitian) (zs : Fin (n + 1) → ℂ)
  (hc : affineToHom zs (p : ℕ) q ≠ 0) (hz : Graph.psi (.full H) (S zs) ≠ 0)
  (G G' : Fin (n + 1) → ℂ) (d d' : Fin (n + 1)) (hd : G d ≠ 0) (hd' : G' d' ≠ 0)
  (jH jH' : Fin n → Fin (n + 1) → Fin (n + 1) → ℂ)

include hB hpq hS hS' hs hs' hH hc hz hd hd'

/-- **C102.** `eta` at a point of a variety of degree `e`, computed in two patches with any admissible dependent
coordinates: `eta_p |c|^(2 (n+2)) = eta_q |c|^(2 e)`, with `c` the homogeneous coordinate `q` of the point. -/
theorem C102_eta_chart {P : PolyObj} {name : List Char} {e : ℕ} (h : Proper P name (n + 1))
    (hh : HomogeneousIn P.poly name (n + 1) e) (hp : HasPatch P name p) (hq : HasPatch P name q) (ps : List ℂ)
    (hps : ps.length = P.md.params.length) (h0 : defining (.generic P) (List.ofFn zs) (.vec ps) (some (.index p)) = .ok 0)
    (hG : gradDefining (.generic P) zs (.vec ps) (some (.index p)) = .ok G)
    (hG' : gradDefining (.generic P) (changeChart zs (p : ℕ) (q : ℕ)) (.vec ps) (some (.index q)) = .ok G') :
    Graph.eta (.full H) B.degree (S zs) ⟨G, (d : ℕ), jH⟩ * (‖affineToHom zs (p : ℕ) q‖ : ℂ) ^ (2 * (n + 2)) =
      Graph.eta (.full H) B.degree (S' (changeChart zs (p : ℕ) (q : ℕ))) ⟨G', (d' : ℕ), jH'⟩ *
        (‖affineToHom zs (p : ℕ) q‖ : ℂ) ^ (2 * e) := by
  obtain ⟨F, hF, hrep⟩ := represents_generic h hh ps hps
  exact eta_core hF p q hpq (hrep p hp) (hrep q hq) zs hc h0 G G' hG hG' B hB S S' hS hS' hs hs' H hH hz d d' hd hd'
    jH jH'

/-- **C102.** On a Calabi-Yau variety (degree equal to the number of homogeneous coordinates) `eta` does not depend on
the patch. -/
theorem C102_patch_independent {P : PolyObj} {name : List Char} (h : Proper P name (n + 1))
    (hh : HomogeneousIn P.poly name (n + 1) (n + 2)) (hp : HasPatch P name p) (hq : HasPatch P name q) (ps : List ℂ)
    (hps : ps.length = P.md.params.length) (h0 : defining (.generic P) (List.ofFn zs) (.vec ps) (some (.index p)) = .ok 0)
    (hG : gradDefining (.generic P) zs (.vec ps) (some (.index p)) = .ok G)
    (hG' : gradDefining (.generic P) (changeChart zs (p : ℕ) (q : ℕ)) (.vec ps) (some (.index q)) = .ok G') :
    Graph.eta (.full H) B.degree (S zs) ⟨G, (d : ℕ), jH⟩ =
      Graph.eta (.full H) B.degree (S' (changeChart zs (p : ℕ) (q : ℕ))) ⟨G', (d' : ℕ), jH'⟩ :=
  mul_right_cancel₀ (pow_ne_zero _ (by simpa using hc)) (C102_eta_chart B hB p q hpq S S' hS hS' hs hs' H hH zs hc hz
    G G' d d' hd hd' jH jH' h hh hp hq ps hps h0 hG hG')

/-- **C102.** The same for the Dwork family, which is always of Calabi-Yau degree. -/
theorem C102_dwork (f : DworkFactor) (psi : ℂ) (rest : List ℂ)
    (h0 : defining (.dwork (n + 2) f) (List.ofFn zs) (.vec (psi :: rest)) (some (.index p)) = .ok 0)
    (hG : gradDefining (.dwork (n + 2) f) zs (.vec (psi :: rest)) (some (.index p)) = .ok G)
    (hG' : gradDefining (.dwork (n + 2) f) (changeChart zs (p : ℕ) (q : ℕ)) (.vec (psi :: rest)) (some (.index q)) =
      .ok G') :
    Graph.eta (.full H) B.degree (S zs) ⟨G, (d : ℕ), jH⟩ =
      Graph.eta (.full H) B.degree (S' (changeChart zs (p : ℕ) (q : ℕ))) ⟨G', (d' : ℕ), jH'⟩ := by
  obtain ⟨F, hF, hrep⟩ := represents_dwork (m := n + 1) f psi rest
  exact mul_right_cancel₀ (pow_ne_zero _ (by simpa using hc)) (eta_core hF p q hpq (hrep p) (hrep q) zs hc h0 G G' hG hG'
    B hB S S' hS hS' hs hs' H hH hz d d' hd hd' jH jH')

/-- **C102.** The same for the Fermat variety. -/
theorem C102_fermat (v : Val)
    (h0 : defining (.fermat (n + 2)) (List.ofFn zs) v (some (.index p)) = .ok 0)
    (hG : gradDefining (.fermat (n + 2)) zs v (some (.index p)) = .ok G)
    (hG' : gradDefining (.fermat (n + 2)) (changeChart zs (p : ℕ) (q : ℕ)) v (some (.index q)) = .ok G') :
    Graph.eta (.full H) B.degree (S zs) ⟨G, (d : ℕ), jH⟩ =
      Graph.eta (.full H) B.degree (S' (changeChart zs (p : ℕ) (q : ℕ))) ⟨G', (d' : ℕ), jH'⟩ := by
  obtain ⟨F, hF, hrep⟩ := represents_fermat (m := n + 1) v
  exact mul_right_cancel₀ (pow_ne_zero _ (by simpa using hc)) (eta_core hF p q hpq (hrep p) (hrep q) zs hc h0 G G' hG hG'
    B hB S S' hS hS' hs hs' H hH hz d d' hd hd' jH jH')

end Eta

/-- The hypotheses of C102 hold together: the Fermat cubic at `(1 : -1 : 0)`, patches 0 and 1, full basis of degree 1,
`H = 1`, dependent coordinate 0 in both patches. -/
example : ∃ S S' : (Fin 2 → ℂ) → Jet (monomialBasisFull 2 1).size 2, IsJet S ∧ IsJet S' ∧
    (∀ z, (S z).s = (monomialBasisFull 2 1).call z 0 true) ∧ (∀ z, (S' z).s = (monomialBasisFull 2 1).call z 1 true) ∧
    ∀ G G', gradDefining (.fermat 3) ![-1, 0] (.vec []) (some (.index 0)) = .ok G →
      gradDefining (.fermat 3) (changeChart ![-1, 0] 0 1) (.vec []) (some (.index 1)) = .ok G' → ∀ jH jH',
      Graph.eta (.full 1) 1 (S ![-1, 0]) ⟨G, 0, jH⟩ = Graph.eta (.full 1) 1 (S' (changeChart ![-1, 0] 0 1)) ⟨G', 0, jH'⟩ := by
  obtain ⟨S, hS, hs⟩ := C64_sections (monomialBasisFull 2 1) (C60_bounded 2 1) 0
  obtain ⟨S', hS', hs'⟩ := C64_sections (monomialBasisFull 2 1) (C60_bounded 2 1) 1
  have hc : affineToHom (![-1, 0] : Fin 2 → ℂ) ((0 : Fin 3) : ℕ) 1 ≠ 0 := by
    have := affineToHom_succAbove (![-1, 0] : Fin 2 → ℂ) (0 : Fin 3) 0
    rw [show (0 : Fin 3).succAbove 0 = 1 from rfl] at this
    rw [this]
    simp
  have hw : changeChart (![-1, 0] : Fin 2 → ℂ) ((0 : Fin 3) : ℕ) ((1 : Fin 3) : ℕ) 0 = -1 := by
    rw [C19_change_chart _ 0 1 (by decide), homToAffine_apply]
    have h1 := affineToHom_same (![-1, 0] : Fin 2 → ℂ) (0 : Fin 3)
    have h2 := affineToHom_succAbove (![-1, 0] : Fin 2 → ℂ) (0 : Fin 3) 0
    rw [show (0 : Fin 3).succAbove 0 = 1 from rfl] at h2
    rw [show (1 : Fin 3).succAbove 0 = 0 from rfl, h1, h2]
    simp
  refine ⟨S, S', hS, hS', hs, hs', fun G G' hG hG' jH jH' => ?_⟩
  refine C102_fermat (n := 1) (monomialBasisFull 2 1) ?_ 0 1 (by decide) S S' hS hS' hs hs' 1 Matrix.isHermitian_one
    ![-1, 0] hc ?_ G G' 0 0 ?_ ?_ jH jH' (.vec []) ?_ hG hG'
  · intro a
    exact (mem_monomialBasis 2 1 _).1 (List.get_mem _ a)
  · refine (C62_pos 1 Matrix.PosDef.one _ ?_).ne'
    rw [hs]
    exact C61_full_nonzero 2 1 _ 0
  · have := grad_fermat_patch (m := 2) ![-1, 0] (.vec []) 0
    have this := hG.symm.trans this
    injection this with this
    rw [this]
    simp
  · have := grad_fermat_patch (m := 2) (changeChart ![-1, 0] 0 1) (.vec []) 1
    have this := hG'.symm.trans this
    injection this with this
    rw [this]
    beta_reduce
    rw [show changeChart (![-1, 0] : Fin 2 → ℂ) 0 1 0 = -1 from hw]
    simp
  · have := defining_fermat_patch (m := 2) ![-1, 0] (.vec []) 0
    refine this.trans ?_
    simp
    norm_num

end Cyjax
