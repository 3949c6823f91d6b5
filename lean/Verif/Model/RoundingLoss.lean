import Verif.Model.RoundingAccuracy

/-! # Model of the loss of the training in rounded arithmetic -/

namespace Cyjax.Ml

open Cyjax.Fl

/-- `variance_eta_loss`, `cyjax/ml.py:189-199`, in the given arithmetic, for the computed real parts of eta and the computed weights.
`t` is the order of summation of the means, `lg` the logarithm of the numerical type; a difference is the sum with the negative
(`stop_gradient` does not change values). Real arrays are complex ones of which the real part is taken at the end. -/
noncomputable def varianceEtaLossF (A : Arith) (D : DivAbs) (lg : ℝ → ℝ) {count : ℕ} (t : RTree (Fin count)) (etas weights : Fin count → ℝ) : ℝ :=
  let etaMean := D.div (meanF A D t fun i => A.mul (weights i) (etas i)) (meanF A D t fun i => (weights i : ℂ))
  let loss := fun i => intPow A.mul (A.add (D.div (etas i) etaMean) (-1)) 2
  let loss := meanF A D t fun i => A.mul (loss i) (weights i)
  let penalty := fun i => lg (A.add (intPow A.mul ((if etas i < 0 then etas i else 0 : ℝ) : ℂ) 2) 1).re
  (A.add loss (meanF A D t fun i => (penalty i : ℂ))).re

end Cyjax.Ml
