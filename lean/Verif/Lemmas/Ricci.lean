import Verif.Lemmas.Curvature
import Verif.Lemmas.Differential
import Verif.Lemmas.Jet
import Mathlib.Analysis.Calculus.Deriv.Inv

/-! # Hermitian symmetry of the curvature; polynomial hypersurfaces (for C67–C70) -/

namespace Cyjax.Donaldson

open Cyjax.Spec MvPolynomial
open scoped ComplexConjugate

variable {N n : ℕ} {H : Matrix (Fin N) (Fin N) ℂ}

theorem gProjHA_conj (hH : H.IsHermitian) (J : Jet N n) (hs : ∀ a i j, J.s2 a i j = J.s2 a j i) (degree : ℕ)
    (a b i j : Fin n) : conj (gProjHAv H J degree b a j i) = gProjHAv H J degree a b i j := by
  have hpsi := psi_conj hH J
  have hHA : ∀ x y, conj (Graph.psiHA (.full H) J x y) = Graph.psiHA (.full H) J y x := fun x y => bil_conj hH _ _
  have hH1 : ∀ x, conj (Graph.psiH (.full H) J x) = Graph.psiA (.full H) J x := fun x => rfl
  have hA1 : ∀ x, conj (Graph.psiA (.full H) J x) = Graph.psiH (.full H) J x := fun x => Complex.conj_conj _
  have hHHAA : ∀ x y u v, conj (Graph.psiHHAA (.full H) J x y u v) = Graph.psiHHAA (.full H) J u v x y :=
    fun x y u v => bil_conj hH _ _
  have hsym : ∀ x y u, Graph.psiHHA (.full H) J x y u = Graph.psiHHA (.full H) J y x u := by
    intro x y u
    rw [psiHHA_bil, psiHHA_bil]
    simp only [hs _ x y]
  simp only [gProjHAv, gProjHA, twoHAHA, threeHAHA, fourHAHA, twoHHA, threeHHA, psiHpsiHA, psiHApsiHA, psiHHApsiA,
    psiAA, map_div₀, map_add, map_sub, map_mul, map_pow, hpsi, hHA, hH1, hA1, hHHAA, Complex.conj_conj,
    Complex.conj_ofReal, map_natCast, map_ofNat]
  rw [hsym b j i, hsym b j a, hsym i a j, hsym i a b]
  ring

private theorem pull_conj {A B : Fin n → ℂ} {g g' : Fin n → Fin n → ℂ} (h : ∀ i j, conj (g j i) = g' i j) :
    conj (∑ i, ∑ j, A i * g i j * conj (B j)) = ∑ i, ∑ j, B i * g' i j * conj (A j) := by
  simp only [map_sum, map_mul, Complex.conj_conj]
  rw [Finset.sum_comm]
  refine Finset.sum_congr rfl fun i _ => Finset.sum_congr rfl fun j _ => ?_
  rw [h]
  ring

theorem gLocHA_conj (hH : H.IsHermitian) (J : Jet N (n + 1)) (hs : ∀ a i j, J.s2 a i j = J.s2 a j i) (degree : ℕ)
    (e : Graph.Emb n) (a b : Fin (n + 1)) (r s : Fin n) :
    conj (gLocHAv H degree J e b a s r) = gLocHAv H degree J e a b r s := by
  simp only [gLocHAv, gLocHA, map_add, Graph.jacC, Matrix.of_apply]
  rw [pull_conj (g := fun i j => gProjA (gProjHv H J degree) a i j) (g' := fun i j => gProjHv H J degree a i j) fun i j => Complex.conj_conj _,
    pull_conj fun i j => gProjHA_conj hH J hs degree a b i j, pull_conj fun i j => gProj_conj hH J degree i j,
    pull_conj (g' := fun i j => gProjA (gProjHv H J degree) b i j) fun i j => rfl]
  ring

private theorem ricci_conj_aux {m k : ℕ} (W : Matrix (Fin m) (Fin m) ℂ) (hW : ∀ i j, conj (W j i) = W i j)
    (G : Fin k → Fin m → Fin m → ℂ) (GHA : Fin k → Fin k → Fin m → Fin m → ℂ)
    (hG : ∀ a b r s, conj (GHA b a s r) = GHA a b r s) (a b : Fin k) :
    conj (ricciProj G (gLocA G) GHA W b a) = ricciProj G (gLocA G) GHA W a b := by
  simp only [ricciProj, Matrix.of_apply, map_sub, map_sum, map_mul, hW, hG]
  have hA : ∀ x i j, conj (G x i j) = gLocA G x j i := fun _ _ _ => rfl
  have hA' : ∀ x i j, conj (gLocA G x i j) = G x j i := fun _ _ _ => Complex.conj_conj _
  simp only [hA, hA']
  congr 1
  · rw [Finset.sum_comm]
    refine Finset.sum_congr rfl fun i _ => Finset.sum_congr rfl fun j _ => ?_
    rw [Finset.sum_comm]
    refine Finset.sum_congr rfl fun k _ => Finset.sum_congr rfl fun l _ => ?_
    ring
  · exact Finset.sum_comm

theorem ricciProj_conj (hH : H.IsHermitian) (J : Jet N (n + 1)) (hs : ∀ a i j, J.s2 a i j = J.s2 a j i) (degree : ℕ)
    (e : Graph.Emb n) (a b : Fin (n + 1)) :
    conj (ricciProj (gLocHv H degree J e) (gLocA (gLocHv H degree J e)) (gLocHAv H degree J e)
      (Graph.gLocInv (.full H) degree J e) b a) =
    ricciProj (gLocHv H degree J e) (gLocA (gLocHv H degree J e)) (gLocHAv H degree J e)
      (Graph.gLocInv (.full H) degree J e) a b := by
  have hh : (Graph.gLoc (.full H) degree J e).IsHermitian := by
    ext r s
    exact gLoc_conj hH degree J e r s
  exact ricci_conj_aux _ (fun i j => congrFun (congrFun hh.inv i) j) _ _ (gLocHA_conj hH J hs degree e) a b

/-- A hypersurface `P = 0` with dependent coordinate `d`: gradient, and derivative of the Jacobian of the embedding. -/
noncomputable def polyEmb (P : MvPolynomial (Fin (n + 1)) ℂ) (d : Fin (n + 1)) (z : Fin (n + 1) → ℂ) : Graph.Emb n where
  gradDef i := eval z (pderiv i P)
  dependent := ((d : ℕ) : ℤ)
  jacH r i a := if i = d then
      -((eval z (pderiv a (pderiv (d.succAbove r) P)) * eval z (pderiv d P) -
        eval z (pderiv (d.succAbove r) P) * eval z (pderiv a (pderiv d P))) / eval z (pderiv d P) ^ 2)
    else 0

theorem polyEmb_isEmb (P : MvPolynomial (Fin (n + 1)) ℂ) (d : Fin (n + 1)) : IsEmb d (polyEmb P d) where
  dependent _ := rfl
  gradDef z a := (eval_hasDerivAt (pderiv d P) a z).continuousAt
  first z hG r i a := by
    have hG' : eval (Function.update z a (z a)) (pderiv d P) ≠ 0 := by rwa [Function.update_eq_self]
    rcases eq_or_ne i d with rfl | hi
    · have h := ((eval_hasDerivAt (pderiv (i.succAbove r) P) a z).fun_neg).fun_div (eval_hasDerivAt (pderiv i P) a z) hG'
      rw [Function.update_eq_self] at h
      simp only [Graph.jac, polyEmb, Differential.jacobianEmbed_dep, if_true]
      refine h.congr_deriv ?_
      ring
    · obtain ⟨l, rfl⟩ := Fin.exists_succAbove_eq hi
      simp only [Graph.jac, polyEmb, Differential.jacobianEmbed_indep, if_neg hi]
      exact hasDerivAt_const _ _
  second z hG r i a b := by
    have hG' : eval (Function.update z b (z b)) (pderiv d P) ^ 2 ≠ 0 := by
      rw [Function.update_eq_self]
      exact pow_ne_zero 2 hG
    rcases eq_or_ne i d with rfl | hi
    · simp only [polyEmb, if_true]
      have e := fun Q : MvPolynomial (Fin (n + 1)) ℂ => (eval_hasDerivAt Q b z).differentiableAt
      exact ((((e _).mul (e _)).sub ((e _).mul (e _))).div ((e _).pow 2) hG').neg
    · simp only [polyEmb, if_neg hi]
      exact differentiableAt_const _

end Cyjax.Donaldson
