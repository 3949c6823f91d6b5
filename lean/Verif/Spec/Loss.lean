import Mathlib.Data.Real.Basic
import Mathlib.Algebra.BigOperators.Fin

/-! # Weighted averages (for C82) -/

namespace Cyjax.Spec

open scoped BigOperators

/-- Average of `x` with weights `w`. -/
noncomputable def wavg {n : ℕ} (w x : Fin n → ℝ) : ℝ := (∑ i, w i * x i) / ∑ i, w i

/-- Variance of `x` with weights `w`. -/
noncomputable def wvar {n : ℕ} (w x : Fin n → ℝ) : ℝ := wavg w fun i => (x i - wavg w x) ^ 2

end Cyjax.Spec
