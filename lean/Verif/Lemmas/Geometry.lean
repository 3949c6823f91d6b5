import Verif.Spec.Jet
import Verif.Lemmas.Wirtinger
import Mathlib.LinearAlgebra.Matrix.PosDef
import Mathlib.Analysis.Complex.Order

/-! # Lemmas about the algebraic metric -/

namespace Cyjax.Donaldson

open Cyjax.Spec
open scoped ComplexConjugate ComplexOrder

variable {N n : ℕ}

/-- The form `Σ_ij u_i H_ij conj(v_j)`. -/
noncomputable def bil (H : Matrix (Fin N) (Fin N) ℂ) (u v : Fin N → ℂ) : ℂ := ∑ i, ∑ j, u i * H i j * conj (v j)

theorem bil_conj {H : Matrix (Fin N) (Fin N) ℂ} (hH : H.IsHermitian) (u v : Fin N → ℂ) :
    conj (bil H u v) = bil H v u := by
  unfold bil
  simp only [map_sum, map_mul, Complex.conj_conj]
  rw [Finset.sum_comm]
  refine Finset.sum_congr rfl fun i _ => Finset.sum_congr rfl fun j _ => ?_
  have h : conj (H j i) = H i j := hH.apply i j
  rw [h]
  ring

theorem bil_add_left (H : Matrix (Fin N) (Fin N) ℂ) (u u' v : Fin N → ℂ) :
    bil H (u + u') v = bil H u v + bil H u' v := by
  simp only [bil, Pi.add_apply, add_mul, Finset.sum_add_distrib]

theorem bil_smul_left (H : Matrix (Fin N) (Fin N) ℂ) (c : ℂ) (u v : Fin N → ℂ) :
    bil H (c • u) v = c * bil H u v := by
  simp only [bil, Pi.smul_apply, smul_eq_mul, Finset.mul_sum, mul_assoc]

theorem bil_add_right (H : Matrix (Fin N) (Fin N) ℂ) (u v v' : Fin N → ℂ) :
    bil H u (v + v') = bil H u v + bil H u v' := by
  simp only [bil, Pi.add_apply, map_add, mul_add, Finset.sum_add_distrib]

theorem bil_smul_right (H : Matrix (Fin N) (Fin N) ℂ) (c : ℂ) (u v : Fin N → ℂ) :
    bil H u (c • v) = conj c * bil H u v := by
  simp only [bil, Pi.smul_apply, smul_eq_mul, Finset.mul_sum, map_mul]
  refine Finset.sum_congr rfl fun i _ => Finset.sum_congr rfl fun j _ => ?_
  ring

theorem bil_sum_left {ι : Type*} (H : Matrix (Fin N) (Fin N) ℂ) (s : Finset ι) (u : ι → Fin N → ℂ) (v : Fin N → ℂ) :
    bil H (∑ i ∈ s, u i) v = ∑ i ∈ s, bil H (u i) v := by
  classical
  induction s using Finset.induction_on with
  | empty => simp [bil]
  | insert i s hi ih => rw [Finset.sum_insert hi, Finset.sum_insert hi, bil_add_left, ih]

theorem bil_sum_right {ι : Type*} (H : Matrix (Fin N) (Fin N) ℂ) (s : Finset ι) (u : Fin N → ℂ) (v : ι → Fin N → ℂ) :
    bil H u (∑ i ∈ s, v i) = ∑ i ∈ s, bil H u (v i) := by
  classical
  induction s using Finset.induction_on with
  | empty => simp [bil]
  | insert i s hi ih => rw [Finset.sum_insert hi, Finset.sum_insert hi, bil_add_right, ih]

theorem bil_eq_dot (H : Matrix (Fin N) (Fin N) ℂ) (u : Fin N → ℂ) :
    bil H u u = star (star u) ⬝ᵥ (H.mulVec (star u)) := by
  simp only [bil, dotProduct, Matrix.mulVec, Finset.mul_sum, Pi.star_apply, RCLike.star_def, mul_assoc,
    Complex.conj_conj]

theorem bil_pos {H : Matrix (Fin N) (Fin N) ℂ} (hH : H.PosDef) {u : Fin N → ℂ} (hu : u ≠ 0) : 0 < bil H u u := by
  rw [bil_eq_dot]
  exact hH.dotProduct_mulVec_pos (by simpa using hu)

theorem bil_nonneg {H : Matrix (Fin N) (Fin N) ℂ} (hH : H.PosSemidef) (u : Fin N → ℂ) : 0 ≤ bil H u u := by
  rw [bil_eq_dot]
  exact hH.dotProduct_mulVec_nonneg _

/-- Cauchy–Schwarz defect as a value of the form. -/
theorem bil_defect {H : Matrix (Fin N) (Fin N) ℂ} (hH : H.IsHermitian) (u s : Fin N → ℂ) :
    bil H (bil H s s • u + (-bil H u s) • s) (bil H s s • u + (-bil H u s) • s) =
      bil H s s * (bil H s s * bil H u u - bil H u s * conj (bil H u s)) := by
  have hs : conj (bil H s s) = bil H s s := bil_conj hH s s
  have hu : conj (bil H u s) = bil H s u := bil_conj hH u s
  simp only [bil_add_left, bil_add_right, bil_smul_left, bil_smul_right, map_neg, hs, hu]
  ring

theorem bil_wirt (H : Matrix (Fin N) (Fin N) ℂ) {u v : Fin N → ℂ → ℂ} {u' v' : Fin N → ℂ} {w : ℂ}
    (hu : ∀ i, HasDerivAt (u i) (u' i) w) (hv : ∀ i, HasDerivAt (v i) (v' i) w) :
    HasWirtAt (fun t => bil H (fun i => u i t) fun i => v i t) (bil H u' fun i => v i w) (bil H (fun i => u i w) v') w := by
  unfold bil
  refine HasWirtAt.sum _ fun i _ => HasWirtAt.sum _ fun j _ => ?_
  refine (((hasWirtAt_of_hasDerivAt (hu i)).mul_const (H i j)).mul (hasWirtAt_of_hasDerivAt (hv j)).conj).congr_coeff ?_ ?_
  · simp
  · simp

variable {H : Matrix (Fin N) (Fin N) ℂ} {S : (Fin n → ℂ) → Jet N n}

theorem psi_bil (J : Jet N n) : Graph.psi (.full H) J = bil H J.s J.s := rfl
theorem psiH_bil (J : Jet N n) (a : Fin n) : Graph.psiH (.full H) J a = bil H (fun i => J.s1 i a) J.s := rfl
theorem psiA_bil (hH : H.IsHermitian) (J : Jet N n) (a : Fin n) :
    Graph.psiA (.full H) J a = bil H J.s (fun i => J.s1 i a) := bil_conj hH _ _
theorem psiHA_bil (J : Jet N n) (a b : Fin n) :
    Graph.psiHA (.full H) J a b = bil H (fun i => J.s1 i a) (fun i => J.s1 i b) := rfl
theorem psiHHA_bil (J : Jet N n) (a b c : Fin n) :
    Graph.psiHHA (.full H) J a b c = bil H (fun i => J.s2 i a b) (fun i => J.s1 i c) := rfl
theorem psiHHAA_bil (J : Jet N n) (a b c d : Fin n) :
    Graph.psiHHAA (.full H) J a b c d = bil H (fun i => J.s2 i a b) (fun i => J.s2 i c d) := rfl

/-- The value of `psi_hh` for a matrix. -/
noncomputable def psiHHv (H : Matrix (Fin N) (Fin N) ℂ) (J : Jet N n) : Fin n → Fin n → ℂ :=
  fun a b => bil H (fun i => J.s2 i a b) J.s

theorem psiHH_full (J : Jet N n) : Graph.psiHH (.full H) J = .ok (psiHHv H J) := rfl

theorem psi_wirt (hS : IsJet S) (hH : H.IsHermitian) (z : Fin n → ℂ) (a : Fin n) :
    HasWirtAt (fun t => Graph.psi (.full H) (S (Function.update z a t))) (Graph.psiH (.full H) (S z) a)
      (Graph.psiA (.full H) (S z) a) (z a) := by
  have h := bil_wirt H (fun i => hS.first z i a) (fun i => hS.first z i a)
  rw [Function.update_eq_self] at h
  rw [psiA_bil hH]
  exact h

theorem psiH_wirt (hS : IsJet S) (z : Fin n → ℂ) (a b : Fin n) :
    HasWirtAt (fun t => Graph.psiH (.full H) (S (Function.update z b t)) a) (psiHHv H (S z) a b)
      (Graph.psiHA (.full H) (S z) a b) (z b) := by
  have h := bil_wirt H (fun i => hS.second z i a b) (fun i => hS.first z i b)
  rw [Function.update_eq_self] at h
  exact h

theorem psiA_wirt (hS : IsJet S) (hH : H.IsHermitian) (z : Fin n → ℂ) (a b : Fin n) :
    HasWirtAt (fun t => Graph.psiA (.full H) (S (Function.update z b t)) a) (Graph.psiHA (.full H) (S z) b a)
      (conj (psiHHv H (S z) a b)) (z b) := by
  refine ((psiH_wirt (H := H) hS z a b).conj).congr_coeff ?_ rfl
  rw [psiHA_bil, psiHA_bil, bil_conj hH]

theorem psiHA_wirt (hS : IsJet S) (hH : H.IsHermitian) (z : Fin n → ℂ) (a b c : Fin n) :
    HasWirtAt (fun t => Graph.psiHA (.full H) (S (Function.update z c t)) a b) (Graph.psiHHA (.full H) (S z) a c b)
      (conj (Graph.psiHHA (.full H) (S z) b c a)) (z c) := by
  have h := bil_wirt H (fun i => hS.second z i a c) (fun i => hS.second z i b c)
  rw [Function.update_eq_self] at h
  rw [psiHHA_bil (H := H) (S z) b c a, bil_conj hH]
  exact h

theorem psiHHv_wirt (hS : IsJet S) (z : Fin n → ℂ) (a b c : Fin n) :
    ∃ d, HasWirtAt (fun t => psiHHv H (S (Function.update z c t)) a b) d (Graph.psiHHA (.full H) (S z) a b c) (z c) := by
  have h := bil_wirt H (fun i => (hS.third z i a b c).hasDerivAt) (fun i => hS.first z i c)
  rw [Function.update_eq_self] at h
  exact ⟨_, h⟩

theorem psiHHA_wirt (hS : IsJet S) (z : Fin n → ℂ) (a b c d : Fin n) :
    ∃ e, HasWirtAt (fun t => Graph.psiHHA (.full H) (S (Function.update z d t)) a b c) e
      (Graph.psiHHAA (.full H) (S z) a b c d) (z d) := by
  have h := bil_wirt H (fun i => (hS.third z i a b d).hasDerivAt) (fun i => hS.second z i c d)
  rw [Function.update_eq_self] at h
  exact ⟨_, h⟩

end Cyjax.Donaldson
