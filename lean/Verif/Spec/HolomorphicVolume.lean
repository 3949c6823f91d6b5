import Mathlib.Algebra.MvPolynomial.PDeriv
import Mathlib.LinearAlgebra.Matrix.Determinant.Basic
import Mathlib.MeasureTheory.Measure.GiryMonad
import Mathlib.MeasureTheory.Measure.Lebesgue.Complex
import Mathlib.MeasureTheory.Constructions.Pi

/-! # Specification: integrals over a hypersurface (C130 – C134)

The hypersurface `F = 0` in projective space of dimension `n + 1` is described in the patch `Z_p = 1` by the coordinates
other than `p` and one dependent coordinate `d`. -/

namespace Cyjax.Spec

open MeasureTheory MvPolynomial
open scoped ENNReal

variable {n : ℕ}

/-- Homogeneous coordinates with the value `x` at position `p`, the value `y` at position `d` of the remaining ones, and the
values `w` at the other positions. -/
def hpoint (p : Fin (n + 2)) (d : Fin (n + 1)) (x y : ℂ) (w : Fin n → ℂ) : Fin (n + 2) → ℂ :=
  p.insertNth (α := fun _ => ℂ) x (d.insertNth (α := fun _ => ℂ) y w)

/-- The points of the hypersurface at which the coordinate `d` of patch `p` is a function of the others. -/
def regularSet (p : Fin (n + 2)) (d : Fin (n + 1)) (F : MvPolynomial (Fin (n + 2)) ℂ) : Set (Fin (n + 2) → ℂ) :=
  {Z | eval Z F = 0 ∧ eval Z (pderiv (p.succAbove d) F) ≠ 0}

/-- The measure on the hypersurface with density `ρ` with respect to the Lebesgue measure `dw`: at each `w` all points over
`w` are counted. -/
noncomputable def sheetMeasure (p : Fin (n + 2)) (d : Fin (n + 1)) (F : MvPolynomial (Fin (n + 2)) ℂ)
    (ρ : (Fin (n + 2) → ℂ) → ℝ) : Measure (Fin (n + 2) → ℂ) :=
  (volume : Measure (Fin n → ℂ)).bind fun w => Measure.sum fun y : ℂ =>
    (regularSet p d F).indicator (fun Z => ENNReal.ofReal (ρ Z)) (hpoint p d 1 y w) • Measure.dirac (hpoint p d 1 y w)

/-- The measure of the holomorphic volume form `Ω = dw / (∂F/∂Z_d)`, that is `|Ω|² = |∂F/∂Z_d|⁻² dw`. -/
noncomputable def cyMeasure (p : Fin (n + 2)) (d : Fin (n + 1)) (F : MvPolynomial (Fin (n + 2)) ℂ) :
    Measure (Fin (n + 2) → ℂ) :=
  sheetMeasure p d F fun Z => 1 / ‖eval Z (pderiv (p.succAbove d) F)‖ ^ 2

/-- The derivative of the point with respect to the coordinate `w_k`. -/
noncomputable def sheetTangent (p : Fin (n + 2)) (d : Fin (n + 1)) (F : MvPolynomial (Fin (n + 2)) ℂ) (Z : Fin (n + 2) → ℂ)
    (k : Fin n) : Fin (n + 2) → ℂ :=
  hpoint p d 0 (-(eval Z (pderiv (p.succAbove (d.succAbove k)) F) / eval Z (pderiv (p.succAbove d) F))) (Pi.single k 1)

/-- The Fubini–Study metric on vectors at the point with homogeneous coordinates `Z`. -/
noncomputable def fsHermitian (Z u v : Fin (n + 2) → ℂ) : ℂ :=
  ((∑ i, u i * star (v i)) * (∑ i, Z i * star (Z i)) - (∑ i, u i * star (Z i)) * ∑ i, Z i * star (v i)) /
    (∑ i, Z i * star (Z i)) ^ 2

/-- The measure of the metric induced from the Fubini–Study metric, normalised such that projective space of dimension `n`
has volume one: `n! / π^n · det g · dw`. -/
noncomputable def fsMeasure (p : Fin (n + 2)) (d : Fin (n + 1)) (F : MvPolynomial (Fin (n + 2)) ℂ) :
    Measure (Fin (n + 2) → ℂ) :=
  sheetMeasure p d F fun Z => n.factorial / Real.pi ^ n *
    (Matrix.of fun k l => fsHermitian Z (sheetTangent p d F Z k) (sheetTangent p d F Z l)).det.re

end Cyjax.Spec
