import Verif.Lemmas.Geometry

/-! # Wirtinger derivatives of the ambient metric (for C64–C68) -/

namespace Cyjax.Donaldson

open Cyjax.Spec
open scoped ComplexConjugate ComplexOrder

variable {N n : ℕ} {H : Matrix (Fin N) (Fin N) ℂ} {S : (Fin n → ℂ) → Jet N n}

theorem update_mem_of_continuousAt {P : (Fin n → ℂ) → ℂ} {U : Set ℂ} (hU : IsOpen U) {z : Fin n → ℂ} {i : Fin n}
    (hc : ContinuousAt (fun t => P (Function.update z i t)) (z i)) (h0 : P z ∈ U) :
    ∀ᶠ t in nhds (z i), P (Function.update z i t) ∈ U := by
  refine hc.eventually_mem (hU.mem_nhds ?_)
  rwa [Function.update_eq_self]

theorem kahler_wirt (hS : IsJet S) (hH : H.IsHermitian) (degree : ℕ) (z : Fin n → ℂ) (a : Fin n)
    (h0 : Graph.psi (.full H) (S z) ∈ Complex.slitPlane) :
    HasWirtAt (fun t => Graph.kahler (.full H) (S (Function.update z a t)) degree)
      (Graph.psiH (.full H) (S z) a / Graph.psi (.full H) (S z) / (Real.pi * degree))
      (Graph.psiA (.full H) (S z) a / Graph.psi (.full H) (S z) / (Real.pi * degree)) (z a) := by
  have h := ((psi_wirt hS hH z a).log (by rwa [Function.update_eq_self])).div_const (Real.pi * degree : ℂ)
  rw [Function.update_eq_self] at h
  exact h

/-- The value of `g_proj_h` for a matrix. -/
noncomputable def gProjHv (H : Matrix (Fin N) (Fin N) ℂ) (J : Jet N n) (degree : ℕ) : Fin n → Fin n → Fin n → ℂ :=
  gProjH (Graph.psi (.full H) J) (Graph.psiHHA (.full H) J)
    (twoHHA (Graph.psiA (.full H) J) (psiHHv H J) (psiHpsiHA (Graph.psiH (.full H) J) (Graph.psiHA (.full H) J)))
    (threeHHA (Graph.psiH (.full H) J) (Graph.psiA (.full H) J)) degree

theorem gProjH_full (J : Jet N n) (degree : ℕ) : Graph.gProjH (.full H) J degree = .ok (gProjHv H J degree) := rfl

/-- The value of `g_proj_ha` for a matrix. -/
noncomputable def gProjHAv (H : Matrix (Fin N) (Fin N) ℂ) (J : Jet N n) (degree : ℕ) :
    Fin n → Fin n → Fin n → Fin n → ℂ :=
  gProjHA (Graph.psi (.full H) J) (Graph.psiHHAA (.full H) J)
    (twoHAHA (psiHHv H J) (psiAA (psiHHv H J)) (psiHApsiHA (Graph.psiHA (.full H) J))
      (psiHHApsiA (Graph.psiA (.full H) J) (Graph.psiHHA (.full H) J)))
    (threeHAHA (Graph.psiH (.full H) J) (Graph.psiA (.full H) J) (psiAA (psiHHv H J))
      (twoHHA (Graph.psiA (.full H) J) (psiHHv H J) (psiHpsiHA (Graph.psiH (.full H) J) (Graph.psiHA (.full H) J)))
      (psiHpsiHA (Graph.psiH (.full H) J) (Graph.psiHA (.full H) J)))
    (fourHAHA (Graph.psiA (.full H) J) (threeHHA (Graph.psiH (.full H) J) (Graph.psiA (.full H) J))) degree

theorem gProjHA_full (J : Jet N n) (degree : ℕ) : Graph.gProjHA (.full H) J degree = .ok (gProjHAv H J degree) := rfl

theorem psi_conj (hH : H.IsHermitian) (J : Jet N n) : conj (Graph.psi (.full H) J) = Graph.psi (.full H) J :=
  bil_conj hH _ _

theorem gProj_conj (hH : H.IsHermitian) (J : Jet N n) (degree : ℕ) (i j : Fin n) :
    conj (Graph.gProj (.full H) J degree j i) = Graph.gProj (.full H) J degree i j := by
  have hpsi := psi_conj hH J
  simp only [Graph.gProj, gProj, Matrix.of_apply, map_div₀, map_sub, map_mul, map_pow, hpsi, Complex.conj_ofReal,
    map_natCast]
  have h1 : conj (Graph.psiHA (.full H) J j i) = Graph.psiHA (.full H) J i j := bil_conj hH _ _
  have h2 : conj (Graph.psiH (.full H) J j) = Graph.psiA (.full H) J j := rfl
  have h3 : conj (Graph.psiA (.full H) J i) = Graph.psiH (.full H) J i := Complex.conj_conj _
  rw [h1, h2, h3, mul_comm (Graph.psiA _ _ j)]

theorem psiHHv_symm (hS : IsJet S) (z : Fin n → ℂ) (a b : Fin n) : psiHHv H (S z) a b = psiHHv H (S z) b a := by
  unfold psiHHv
  simp only [hS.symm z _ a b]

theorem psiHHA_symm (hS : IsJet S) (z : Fin n → ℂ) (a b c : Fin n) :
    Graph.psiHHA (.full H) (S z) a b c = Graph.psiHHA (.full H) (S z) b a c := by
  rw [psiHHA_bil, psiHHA_bil]
  simp only [hS.symm z _ a b]

theorem psiHHAA_symm (hS : IsJet S) (z : Fin n → ℂ) (a b c d : Fin n) :
    Graph.psiHHAA (.full H) (S z) a b c d = Graph.psiHHAA (.full H) (S z) a b d c := by
  rw [psiHHAA_bil, psiHHAA_bil]
  simp only [hS.symm z _ c d]

private theorem gProj_wirt_aux (hS : IsJet S) (hH : H.IsHermitian) (degree : ℕ) (z : Fin n → ℂ) (a i j : Fin n)
    (h0 : Graph.psi (.full H) (S z) ≠ 0) :
    ∃ b, HasWirtAt (fun t => Graph.gProj (.full H) (S (Function.update z a t)) degree i j)
      (gProjHv H (S z) degree a i j) b (z a) := by
  have h0' : Graph.psi (.full H) (S (Function.update z a (z a))) ≠ 0 := by rwa [Function.update_eq_self]
  have h1 := (psiHA_wirt hS hH z i j a).div (psi_wirt hS hH z a) h0'
  have h2 := ((psiH_wirt (H := H) hS z i a).mul (psiA_wirt hS hH z j a)).div ((psi_wirt hS hH z a).pow 2)
    (pow_ne_zero 2 h0')
  have h := (h1.sub h2).div_const ((degree : ℂ) * Real.pi)
  rw [Function.update_eq_self] at h
  refine ⟨_, h.congr_coeff ?_ rfl⟩
  simp only [gProjHv, gProjH, twoHHA, threeHHA, psiHpsiHA]
  rw [psiHHA_symm hS z i a j, psiHHv_symm hS z i a]
  congr 1
  field_simp
  push_cast
  ring

theorem gProj_wirt (hS : IsJet S) (hH : H.IsHermitian) (degree : ℕ) (z : Fin n → ℂ) (a i j : Fin n)
    (h0 : Graph.psi (.full H) (S z) ≠ 0) :
    HasWirtAt (fun t => Graph.gProj (.full H) (S (Function.update z a t)) degree i j)
      (gProjHv H (S z) degree a i j) (gProjA (gProjHv H (S z) degree) a i j) (z a) := by
  obtain ⟨b, hb⟩ := gProj_wirt_aux hS hH degree z a i j h0
  obtain ⟨c, hc⟩ := gProj_wirt_aux hS hH degree z a j i h0
  have hc' := hc.conj
  simp only [gProj_conj hH] at hc'
  refine hb.congr_coeff rfl ?_
  have e1 := HasWirtAt.dzbar_eq (F := fun w => Graph.gProj (.full H) (S w) degree i j) hb
  have e2 := HasWirtAt.dzbar_eq (F := fun w => Graph.gProj (.full H) (S w) degree i j) hc'
  exact e1.symm.trans e2

theorem gProjH_wirt (hS : IsJet S) (hH : H.IsHermitian) (degree : ℕ) (z : Fin n → ℂ) (a b i j : Fin n)
    (h0 : Graph.psi (.full H) (S z) ≠ 0) :
    ∃ e, HasWirtAt (fun t => gProjHv H (S (Function.update z b t)) degree a i j) e
      (gProjHAv H (S z) degree a b i j) (z b) := by
  have h0' : Graph.psi (.full H) (S (Function.update z b (z b))) ≠ 0 := by rwa [Function.update_eq_self]
  obtain ⟨e1, h1⟩ := psiHHA_wirt (H := H) hS z a i j b
  obtain ⟨e2, h2⟩ := psiHHv_wirt (H := H) hS z a i b
  have hpsi := psi_wirt hS hH z b
  have hHa := psiH_wirt (H := H) hS z a b
  have hHi := psiH_wirt (H := H) hS z i b
  have hAj := psiA_wirt hS hH z j b
  have hHAij := psiHA_wirt hS hH z i j b
  have hHAaj := psiHA_wirt hS hH z a j b
  have t1 := h1.div hpsi h0'
  have t2 := (((hHa.mul hHAij).add (hHi.mul hHAaj)).add (hAj.mul h2)).div (hpsi.pow 2) (pow_ne_zero 2 h0')
  have t3 := (((hHa.mul hHi).mul hAj).mul_const 2).div (hpsi.pow 3) (pow_ne_zero 3 h0')
  have h := ((t1.sub t2).add t3).div_const ((degree : ℂ) * Real.pi)
  rw [Function.update_eq_self] at h
  refine ⟨_, h.congr_coeff rfl ?_⟩
  simp only [gProjHAv, gProjHA, twoHAHA, threeHAHA, fourHAHA, twoHHA, threeHHA, psiHpsiHA, psiHApsiHA, psiHHApsiA,
    psiAA]
  have hA : ∀ x, conj (Graph.psiA (.full H) (S z) x) = Graph.psiH (.full H) (S z) x := fun x => Complex.conj_conj _
  rw [psiHHAA_symm hS z a i j b, psiHHv_symm hS z j b]
  simp only [map_mul, hA]
  congr 1
  field_simp
  push_cast
  ring

end Cyjax.Donaldson
