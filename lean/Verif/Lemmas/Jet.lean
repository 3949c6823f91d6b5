import Verif.Spec.Jet
import Mathlib.Algebra.MvPolynomial.PDeriv
import Mathlib.Analysis.Calculus.Deriv.Mul
import Mathlib.Analysis.Calculus.Deriv.Add
import Mathlib.Analysis.Calculus.Deriv.Pow
import Mathlib.Analysis.Complex.Basic

/-! # Polynomial sections form jets -/

namespace Cyjax.Donaldson

open Cyjax.Spec MvPolynomial

variable {N n : ℕ}

theorem eval_hasDerivAt {σ : Type*} [DecidableEq σ] (p : MvPolynomial σ ℂ) (s : σ) (ρ : σ → ℂ) :
    HasDerivAt (fun t => eval (Function.update ρ s t) p) (eval ρ (pderiv s p)) (ρ s) := by
  induction p using MvPolynomial.induction_on with
  | C a => simpa using hasDerivAt_const (ρ s) a
  | add p q hp hq => simpa using hp.fun_add hq
  | mul_X p t hp =>
    have hX : HasDerivAt (fun u => Function.update ρ s u t) (eval ρ (pderiv s (X t))) (ρ s) := by
      by_cases h : t = s
      · subst h
        simpa using hasDerivAt_id' (ρ t)
      · rw [pderiv_X_of_ne h]
        simpa [Function.update_of_ne h] using hasDerivAt_const (ρ s) (ρ t)
    have h := hp.fun_mul hX
    simp only [Function.update_eq_self] at h
    simp only [pderiv_mul, map_add, map_mul, eval_X]
    exact h

theorem pderiv_comm {σ : Type*} [DecidableEq σ] (i j : σ) (p : MvPolynomial σ ℂ) :
    pderiv i (pderiv j p) = pderiv j (pderiv i p) := by
  induction p using MvPolynomial.induction_on with
  | C a => simp
  | add p q hp hq => simp [hp, hq]
  | mul_X p t hp =>
    have hX : ∀ k l : σ, pderiv k (pderiv l (X t : MvPolynomial σ ℂ)) = 0 := by
      intro k l
      by_cases h : t = l
      · subst h; simp
      · rw [pderiv_X_of_ne h, map_zero]
    simp only [pderiv_mul, map_add, hp, hX]
    ring

/-- The jet of polynomial sections. -/
noncomputable def polyJet (P : Fin N → MvPolynomial (Fin n) ℂ) (z : Fin n → ℂ) : Jet N n where
  s a := eval z (P a)
  s1 a i := eval z (pderiv i (P a))
  s2 a i j := eval z (pderiv j (pderiv i (P a)))

theorem polyJet_isJet (P : Fin N → MvPolynomial (Fin n) ℂ) : IsJet (polyJet P) where
  first z a i := eval_hasDerivAt (P a) i z
  second z a i j := eval_hasDerivAt (pderiv i (P a)) j z
  symm z a i j := by
    change eval z (pderiv j (pderiv i (P a))) = eval z (pderiv i (pderiv j (P a)))
    rw [show pderiv j (pderiv i (P a)) = pderiv i (pderiv j (P a)) from pderiv_comm j i (P a)]
  third z a i j k := (eval_hasDerivAt (pderiv j (pderiv i (P a))) k z).differentiableAt

end Cyjax.Donaldson
