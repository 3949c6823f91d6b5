import Verif.Model.RoundingAccuracy

/-! # Model of Monte Carlo integration in rounded arithmetic -/

namespace Cyjax.Util

open Cyjax.Fl

/-- `util.mc_integrate` with `var=True`, `cyjax/util.py:196-202`, in the given arithmetic, for the computed values `f` of the integrand
and `w` of the weights at the sampled points. `t` is the order of summation of `jnp.mean`; a difference is the sum with the negative.
Real arrays are complex ones of which the real part is taken at the end. -/
def mcIntegrateF (A : Arith) (D : DivAbs) {count : ℕ} (t : RTree (Fin count)) (f w : Fin count → ℝ) : ℝ × ℝ :=
  let vals := fun k => A.mul (f k) (w k)
  let val := meanF A D t fun k => (w k : ℂ)
  let var := D.div (A.add (meanF A D t fun k => intPow A.mul (vals k) 2) (-intPow A.mul val 2)) count
  (val.re, var.re)

/-- One batch of `util.mc_integrate_batched`, `cyjax/util.py:232-236`, in the given arithmetic. -/
def mcStepF (A : Arith) (D : DivAbs) {batchSize : ℕ} (t : RTree (Fin batchSize)) (f w : Fin batchSize → ℝ) : ℂ × ℂ :=
  let vals := fun k => A.mul (f k) (w k)
  let val := meanF A D t fun k => (w k : ℂ)
  let val2 := D.div (meanF A D t fun k => intPow A.mul (vals k) 2) batchSize
  (val, val2)

/-- `util.mc_integrate_batched` with `var=True`, `cyjax/util.py:240-244`, in the given arithmetic, for the computed values of the
integrand and of the weights at the points of each batch. `tb` is the order of summation over the batches. The integer
`batches * batch_size` is taken to be converted without rounding. -/
def mcIntegrateBatchedF (A : Arith) (D : DivAbs) {batches batchSize : ℕ} (t : RTree (Fin batchSize)) (tb : RTree (Fin batches))
    (f w : Fin batches → Fin batchSize → ℝ) : ℝ × ℝ :=
  let out := fun i => mcStepF A D t (f i) (w i)
  let mean := meanF A D tb fun i => (out i).1
  let variance := A.add (D.div (meanF A D tb fun i => (out i).2) batches)
    (-D.div (intPow A.mul mean 2) ((batches * batchSize : ℕ) : ℂ))
  (mean.re, variance.re)

end Cyjax.Util
