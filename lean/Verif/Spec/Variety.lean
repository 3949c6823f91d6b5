import Verif.Spec.HomPoly
import Verif.Spec.Poly
import Verif.Model.Variety

/-! # Specification for varieties -/

namespace Cyjax.Variety

open Cyjax.Polynomial

/-- A usable defining polynomial in the homogeneous coordinates `name_0, ..., name_m`: one variable, the
parameters do not share its name, all symbols declared, real coefficients. -/
structure Proper (P : PolyObj) (name : List Char) (m : ℕ) : Prop where
  vars : P.md.vars = [(name, some (List.range (m + 1)))]
  wf : P.md.WF
  declared : P.Declared
  real : RealCoeffs P.poly

/-- Coordinate `p` occurs in the polynomial and is not the only one, so that the affine polynomial exists. -/
def HasPatch (P : PolyObj) (name : List Char) (p : ℕ) : Prop :=
  mergeSubscript name p ∈ P.gens ∧ ∃ s ∈ P.gens, s ≠ mergeSubscript name p

/-- Homogeneous of degree `d` in the coordinates `name_0, ..., name_m` (parameters have degree zero). -/
def HomogeneousIn (p : MvPolynomial Sym ℂ) (name : List Char) (m d : ℕ) : Prop :=
  ∀ mon ∈ p.support, ∑ i ∈ Finset.range (m + 1), mon (mergeSubscript name i) = d

end Cyjax.Variety
