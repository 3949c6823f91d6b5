import Verif.Spec.Hypersurface
import Verif.Spec.Sampling
import Verif.Spec.Variety
import Mathlib.LinearAlgebra.LinearIndependent.Defs
import Mathlib.Algebra.MvPolynomial.PDeriv
import Mathlib.Analysis.Complex.Trigonometric
import Mathlib.Analysis.SpecialFunctions.Trigonometric.Basic

/-! # Specification: varieties that can be sampled, admissible lines, smooth hypersurfaces -/

namespace Cyjax.Spec

open Cyjax.Polynomial Cyjax.Projective Cyjax.Variety MvPolynomial

/-- The varieties for which the package offers sampling, in projective space of dimension `m` and of degree `d`, with
parameters `ps`: a homogeneous polynomial made from an expression whose parameters are not called `t`, `p` or `q`, the
Dwork family with a real factor, the Fermat polynomials. -/
inductive Samplable : HomKind → ℕ → ℕ → List ℂ → Prop
  | generic (P : PolyObj) (name : List Char) (m d : ℕ) (ps : List ℂ) (proper : Proper P name m)
      (homogeneous : HomogeneousIn P.poly name m d) (patches : ∀ j : Fin (m + 1), HasPatch P name j)
      (names : LineNames P.md.params) (length : ps.length = P.md.params.length) : Samplable (.generic P) m d ps
  | dwork (m : ℕ) (f : DworkFactor) (real : f.value.im = 0) (psi : ℂ) : Samplable (.dwork (m + 1) f) m (m + 1) [psi]
  | fermat (m : ℕ) : Samplable (.fermat (m + 1)) m (m + 1) []

/-- A pair `(p, q)` whose line meets the hypersurface `F = 0` in as many points as its degree: `p` and `q` are
independent and `q` is not on the hypersurface. -/
def Admissible {m : ℕ} (F : MvPolynomial (Fin m) ℂ) (x : (Fin m → ℂ) × (Fin m → ℂ)) : Prop :=
  LinearIndependent ℂ ![x.1, x.2] ∧ eval x.2 F ≠ 0

/-- The array of draws as lists. -/
def asLists {m : ℕ} (draws : List ((Fin m → ℂ) × (Fin m → ℂ))) : List (List ℂ × List ℂ) :=
  draws.map fun x => (List.ofFn x.1, List.ofFn x.2)

/-- The projective hypersurface `F = 0` is smooth. -/
def SmoothHypersurface {m : ℕ} (F : MvPolynomial (Fin m) ℂ) : Prop :=
  ∀ Z : Fin m → ℂ, Z ≠ 0 → eval Z F = 0 → ∃ i, eval Z (pderiv i F) ≠ 0

/-- The weight that belongs to a point of the hypersurface `F = 0` of degree `e` in projective space of dimension `n + 1`:
`π^n / n! · |Z|^(2(n+1)) / |∇F(Z)|²`, for the representative whose largest coordinate has absolute value one. If `e = n + 2`
(Calabi–Yau) any representative gives the same value, see `C111_calabi_yau`. -/
noncomputable def pointWeight {n : ℕ} (e : ℕ) (F : MvPolynomial (Fin (n + 2)) ℂ) (Z : Fin (n + 2) → ℂ) : ℝ :=
  Real.pi ^ n / n.factorial * ((∑ i, ‖Z i‖ ^ 2) ^ (n + 1) / ∑ i, ‖eval Z (pderiv i F)‖ ^ 2) *
    ((⨆ i, ‖Z i‖) ^ (2 * (e - 1)) / (⨆ i, ‖Z i‖) ^ (2 * (n + 1)))

end Cyjax.Spec
