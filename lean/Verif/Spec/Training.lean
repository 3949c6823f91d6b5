import Verif.Model.Training

/-! # Specification: samples for training (C121, C122) -/

namespace Cyjax.Spec

open Cyjax.Polynomial Cyjax.Projective Cyjax.Variety Cyjax.Ml

/-- A row of a training sample is as promised: `count` points on the variety with the moduli of the row, each in the patch
of its largest coordinate, and for each of them the positive weight of `sample_intersect_weights`. -/
structure GoodRow {n : ℕ} (V : HomKind) (count : ℕ) (row : SampleRow (n + 1)) : Prop where
  count_eq : row.pts.length = count
  on_variety : ∀ x ∈ row.pts, defining V (List.ofFn x.1) (.vec row.params) (some (.index x.2)) = .ok 0
  patch : ∀ x ∈ row.pts, ∀ i, ‖x.1 i‖ ≤ 1
  weights : row.pts.mapM (fun x => weight V x.1 (.vec row.params) (some (.index x.2)) none (some 1)) = .ok row.weights
  positive : ∀ w ∈ row.weights, 0 < w

end Cyjax.Spec
