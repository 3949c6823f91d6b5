import Verif.Model.Pipeline

/-! # Specification: Monte Carlo estimates from the returned values (C130 – C134) -/

namespace Cyjax.Spec

open Cyjax.Polynomial Cyjax.Variety

/-- The estimate `1/N · ∑ f(z) w(z)` from the result of `sample_intersect` with weights (and `0` for an exception), as in
`docs/source/intro/sampling.md`. -/
noncomputable def weightedMean {n : ℕ} (f : (Fin (n + 2) → ℂ) → ℝ) : Except PyErr (Sample (n + 1)) → ℝ
  | .ok (.homWeights zs ws) => ((zs.zip ws).map fun x => f (fun i => x.1.getD i 0) * x.2).sum / zs.length
  | _ => 0

/-- The mean `1/N · ∑ f(z)` over the result of `sample_intersect` without weights. -/
noncomputable def plainMean {n : ℕ} (f : (Fin (n + 2) → ℂ) → ℝ) : Except PyErr (Sample (n + 1)) → ℝ
  | .ok (.hom zs) => (zs.map fun z => f (fun i => z.getD i 0)).sum / zs.length
  | _ => 0

/-- The volume returned by `compute_vol` with `var=True`. -/
noncomputable def volMean : Except PyErr (ℝ × ℝ) → ℝ
  | .ok (m, _) => m
  | .error _ => 0

/-- The variance returned by `compute_vol` with `var=True`. -/
noncomputable def volVar : Except PyErr (ℝ × ℝ) → ℝ
  | .ok (_, v) => v
  | .error _ => 0

end Cyjax.Spec
