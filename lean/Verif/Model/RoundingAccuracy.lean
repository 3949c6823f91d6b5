import Verif.Model.RoundingSections
import Verif.Model.DonaldsonStep

/-! # Model of the accuracy measure in rounded arithmetic -/

namespace Cyjax.Fl

/-- Quotient and absolute value of a numerical type. -/
structure DivAbs where
  div : ℂ → ℂ → ℂ
  abs : ℂ → ℝ

/-- The exact ones. -/
noncomputable def exactDivAbs : DivAbs := ⟨(· / ·), (‖·‖)⟩

/-- Correctly rounded quotient (real and imaginary part) and absolute value. -/
noncomputable def divAbsOfRounding (fl : ℝ → ℝ) : DivAbs where
  div a b := ⟨fl (a / b).re, fl (a / b).im⟩
  abs a := fl ‖a‖

/-- `jnp.mean` in the given arithmetic: the sum, in the order `t`, divided by the number of entries. -/
def meanF (A : Arith) (D : DivAbs) {n : ℕ} (t : RTree (Fin n)) (x : Fin n → ℂ) : ℂ := D.div (t.eval A.add x) n

end Cyjax.Fl

namespace Cyjax.Donaldson

open Cyjax.Fl

/-- `sigma_accuracy`, `cyjax/donaldson.py:843-848`, in the given arithmetic, for computed values of `eta` and of the weights.
`t` is the order of summation of the means; a difference is the sum with the negative. Real arrays are complex ones of which the
real part is taken at the end. -/
def sigmaAccuracyF (A : Arith) (D : DivAbs) {count : ℕ} (t : RTree (Fin count)) (etas : Fin count → ℂ)
    (weights : Fin count → ℝ) : ℝ :=
  let volK := meanF A D t fun i => A.mul (etas i) (weights i)
  let volCy : ℝ := (meanF A D t fun i => (weights i : ℂ)).re
  let absDiff := fun i => D.abs (A.add 1 (-D.div (A.mul (etas i) volCy) volK))
  (D.div (meanF A D t fun i => A.mul (absDiff i) (weights i)) volCy).re

end Cyjax.Donaldson
