import Verif.Lemmas.EtaChart

/-! # `eta` in two patches (for C102) -/

namespace Cyjax

open Cyjax.Donaldson Cyjax.Spec Cyjax.Differential Cyjax.Projective Cyjax.Variety Cyjax.Polynomial
open MvPolynomial (eval)
open scoped ComplexConjugate ComplexOrder

variable {n : ℕ}

/-- The homogeneous polynomials behind a list of monomial sections. -/
noncomputable def sectionPoly (B : MonomialSections n) (a : Fin B.size) : MvPolynomial (Fin (n + 1)) ℂ :=
  ∏ i, MvPolynomial.X i ^ B.powers a i

theorem sectionPoly_homogeneous (B : MonomialSections n) (hB : ∀ a, ∑ i, B.powers a i = B.degree)
    (a : Fin B.size) : (sectionPoly B a).IsHomogeneous B.degree := by
  rw [← hB a]
  exact MvPolynomial.IsHomogeneous.prod _ _ _ fun i _ => MvPolynomial.isHomogeneous_X_pow i _

theorem sections_call_eq (B : MonomialSections n) (hB : ∀ a, ∑ i, B.powers a i = B.degree) (p : Fin (n + 1))
    (z : Fin n → ℂ) (a : Fin B.size) : B.call z (p : ℕ) true a = eval (affineToHom z (p : ℕ)) (sectionPoly B a) := by
  have hle : ∀ a i, B.powers a i ≤ B.degree := by
    intro a i
    rw [← hB a]
    exact Finset.single_le_sum (f := fun i => B.powers a i) (fun _ _ => Nat.zero_le _) (Finset.mem_univ i)
  rw [show B.call z (p : ℕ) true a = monomialsIndex z (p : ℕ) B.powers B.degree a from rfl, C60_affine z p _ _ hle a]
  simp [sectionPoly]

theorem jget_nat {α : Type*} (v : Fin (n + 1) → α) (d : Fin (n + 1)) : jget v ((d : ℕ) : ℤ) = v d := by
  unfold jget
  have h := d.2
  simp only
  congr 1
  ext
  simp only
  omega

theorem eta_core {V : HomKind} {params : Val} {F : MvPolynomial (Fin (n + 2)) ℂ} {e : ℕ}
    (hF : F.IsHomogeneous e) (p q : Fin (n + 2)) (hpq : p ≠ q) (hVp : Represents V params p F)
    (hVq : Represents V params q F) (zs : Fin (n + 1) → ℂ) (hc : affineToHom zs (p : ℕ) q ≠ 0)
    (h0 : defining V (List.ofFn zs) params (some (.index p)) = .ok 0) (G G' : Fin (n + 1) → ℂ)
    (hG : gradDefining V zs params (some (.index p)) = .ok G)
    (hG' : gradDefining V (changeChart zs (p : ℕ) (q : ℕ)) params (some (.index q)) = .ok G')
    (B : MonomialSections (n + 1)) (hB : ∀ a, ∑ i, B.powers a i = B.degree)
    (S S' : (Fin (n + 1) → ℂ) → Jet B.size (n + 1)) (hS : IsJet S) (hS' : IsJet S')
    (hs : ∀ z, (S z).s = B.call z (p : ℕ) true) (hs' : ∀ z, (S' z).s = B.call z (q : ℕ) true)
    (H : Matrix (Fin B.size) (Fin B.size) ℂ) (hH : H.IsHermitian) (hz : Graph.psi (.full H) (S zs) ≠ 0)
    (d d' : Fin (n + 1)) (hd : G d ≠ 0) (hd' : G' d' ≠ 0) (jH jH' : Fin n → Fin (n + 1) → Fin (n + 1) → ℂ) :
    Graph.eta (.full H) B.degree (S zs) ⟨G, (d : ℕ), jH⟩ * (‖affineToHom zs (p : ℕ) q‖ : ℂ) ^ (2 * (n + 2)) =
      Graph.eta (.full H) B.degree (S' (changeChart zs (p : ℕ) (q : ℕ))) ⟨G', (d' : ℕ), jH'⟩ *
        (‖affineToHom zs (p : ℕ) q‖ : ℂ) ^ (2 * e) := by
  obtain ⟨M, hM⟩ := exists_chartJac zs p q hpq hc
  set c := affineToHom zs (p : ℕ) q with hcd
  set w := changeChart zs (p : ℕ) (q : ℕ) with hw
  have hg := gProj_chart hH B.degree (sectionPoly B) (sectionPoly_homogeneous B hB) p q hpq hS hS'
    (fun z a => by rw [hs, sections_call_eq B hB]) (fun z a => by rw [hs', sections_call_eq B hB]) zs hc hM hz
  rw [hVp.grad] at hG
  rw [hVq.grad] at hG'
  rw [hVp] at h0
  injection hG with hG
  injection hG' with hG'
  injection h0 with h0
  have hGG : G = (c ^ e) • (M.transpose.mulVec G') := by
    funext i
    rw [← hG, ← hG']
    beta_reduce
    rw [pderiv_chart hF zs p q hpq hc hM i, h0, mul_zero, add_zero]
    simp only [Pi.smul_apply, smul_eq_mul, Matrix.mulVec, dotProduct, Matrix.transpose_apply]
    rfl
  have hdet := chartJac_det hpq hc hM
  have hMd : M.det ≠ 0 := by
    intro h
    rw [h, norm_zero] at hdet
    simp at hdet
  have hn : ∀ x : ℂ, (‖x‖ : ℂ) ^ 2 = star x * x := by
    intro x
    rw [← Complex.conj_mul']
    rfl
  simp only [Graph.eta, eta, C67_pullback, jget_nat]
  rw [hg, hn, hn, hGG, density_covariant_any _ M hMd (c ^ e) (pow_ne_zero _ hc) G' d d' (by rw [← hGG]; exact hd) hd']
  have hdet' : (‖M.det‖ : ℂ) ^ 2 * (‖c‖ : ℂ) ^ (2 * (n + 2)) = 1 := by exact_mod_cast hdet
  rw [norm_pow]
  push_cast
  linear_combination ((‖c‖ : ℂ) ^ e) ^ 2 * ((inducedMetric (Graph.gProj (.full H) (S' w) B.degree) G' (d' : ℕ) none).det *
    (star (G' d') * G' d')) * hdet'

end Cyjax
