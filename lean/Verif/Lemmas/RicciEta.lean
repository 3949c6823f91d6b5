import Verif.Lemmas.RicciDependent
import Verif.Lemmas.EtaPatch

/-! # The Ricci tensor and `eta` (for C107) -/

namespace Cyjax.Donaldson

open Cyjax.Spec Cyjax.Differential MvPolynomial
open scoped ComplexConjugate

variable {n N : ℕ}

/-- `log |eta|` in the patch, with a fixed dependent coordinate. -/
noncomputable def logEta (H : Matrix (Fin N) (Fin N) ℂ) (degree : ℕ) (J : Jet N (n + 1)) (e : Graph.Emb n) : ℂ :=
  (Real.log ‖Graph.eta (.full H) degree J e‖ : ℂ)

theorem logEta_eq (H : Matrix (Fin N) (Fin N) ℂ) (degree : ℕ) (J : Jet N (n + 1)) (P : MvPolynomial (Fin (n + 1)) ℂ)
    (d : Fin (n + 1)) (z : Fin (n + 1) → ℂ) (hd : eval z (pderiv d P) ≠ 0)
    (hdet : (Graph.gLoc (.full H) degree J (polyEmb P d z)).det ≠ 0) :
    logEta H degree J (polyEmb P d z) =
      logDet H degree J (polyEmb P d z) + ((Real.log (‖eval z (pderiv d P)‖ ^ 2) : ℝ) : ℂ) := by
  have hnd : (‖eval z (pderiv d P)‖ ^ 2 : ℝ) ≠ 0 := pow_ne_zero 2 (norm_ne_zero_iff.2 hd)
  have e : jget (polyEmb P d z).gradDef (polyEmb P d z).dependent = eval z (pderiv d P) := by
    change jget (fun i => eval z (pderiv i P)) ((d : ℕ) : ℤ) = _
    rw [jget_nat]
  unfold logEta logDet Graph.eta eta
  rw [e, ← Complex.ofReal_add, ← Real.log_mul (norm_ne_zero_iff.2 hdet) hnd, norm_mul]
  simp

variable {H : Matrix (Fin N) (Fin N) ℂ} {S : (Fin (n + 1) → ℂ) → Jet N (n + 1)}

/-- The Ricci tensor is minus the mixed second derivative of `log |eta|`. -/
theorem ricciProj_eta (hS : IsJet S) (hH : H.IsHermitian) (degree : ℕ) (P : MvPolynomial (Fin (n + 1)) ℂ)
    (d : Fin (n + 1)) (z : Fin (n + 1) → ℂ) (hz : Graph.psi (.full H) (S z) ≠ 0)
    (hd : eval z (pderiv d P) ≠ 0) (hdet : (Graph.gLoc (.full H) degree (S z) (polyEmb P d z)).det ≠ 0) (a b : Fin (n + 1)) :
    ricciProjV H degree (S z) (polyEmb P d z) a b =
      -dzbar (fun v => dz (fun w => logEta H degree (S w) (polyEmb P d w)) a v) b z := by
  have first : ∀ (v : Fin (n + 1) → ℂ), Graph.psi (.full H) (S v) ≠ 0 → eval v (pderiv d P) ≠ 0 →
      (Graph.gLoc (.full H) degree (S v) (polyEmb P d v)).det ≠ 0 →
      dz (fun w => logEta H degree (S w) (polyEmb P d w)) a v =
        ∑ i, ∑ j, (Graph.gLocInv (.full H) degree (S v) (polyEmb P d v)) j i * gLocHv H degree (S v) (polyEmb P d v) a i j +
          eval v (pderiv a (pderiv d P)) / eval v (pderiv d P) := by
    intro v hv hvd hvdet
    obtain ⟨b1, h1⟩ := logDet_wirt hS (polyEmb_isEmb P d) hH degree v hv hvd hvdet a
    obtain ⟨b3, h3⟩ := logNorm_wirt (f := fun t => eval (Function.update v a t) (pderiv d P))
      (eval_hasDerivAt (pderiv d P) a v) (by simpa only [Function.update_eq_self] using hvd)
    simp only [Function.update_eq_self] at h3
    refine HasWirtAt.dz_eq (F := fun w => logEta H degree (S w) (polyEmb P d w)) ((h1.add h3).congr_fun ?_)
    filter_upwards [regular_near' hS hH degree P v hv d a hvd hvdet] with t ht
    exact logEta_eq H degree _ P d _ ht.2.1 ht.2.2
  obtain ⟨e, he⟩ := ricci_wirt hS (polyEmb_isEmb P d) hH degree z hz hd hdet a b
  have hq : HasDerivAt (fun t => eval (Function.update z b t) (pderiv a (pderiv d P)) /
      eval (Function.update z b t) (pderiv d P)) _ (z b) :=
    (eval_hasDerivAt (pderiv a (pderiv d P)) b z).div (eval_hasDerivAt (pderiv d P) b z)
      (by simpa only [Function.update_eq_self] using hd)
  have hsum := he.add (hasWirtAt_of_hasDerivAt hq)
  have key := HasWirtAt.dzbar_eq (F := fun v => dz (fun w => logEta H degree (S w) (polyEmb P d w)) a v)
    (hsum.congr_fun (by
      filter_upwards [regular_near' hS hH degree P z hz d b hd hdet] with t ht
      exact first _ ht.1 ht.2.1 ht.2.2))
  rw [key, add_zero, neg_neg]
  rfl

end Cyjax.Donaldson
