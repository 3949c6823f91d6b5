import Verif.Spec.AccuracyLimit

/-! # Specification: the Ricci scalar as a function on the hypersurface (C153) -/

namespace Cyjax.Spec

open Cyjax.Donaldson

/-- The Ricci scalar at homogeneous coordinates. -/
noncomputable def scalarAt {n : ℕ} (A : AlgebraicMetric (n + 1)) (h : A.H) (ps : List ℂ) (Z : Fin (n + 2) → ℂ) : ℝ :=
  (onOk id (A.ricciScalar h (List.ofFn Z) (.vec ps) none none none)).re

end Cyjax.Spec
