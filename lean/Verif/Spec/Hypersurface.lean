import Verif.Model.AlgebraicMetric
import Mathlib.RingTheory.MvPolynomial.Homogeneous

/-! # Specification: the hypersurface described by a variety object -/

namespace Cyjax.Spec

open Cyjax.Polynomial Cyjax.Projective Cyjax.Variety MvPolynomial

/-- With the given parameters the variety `V` is the hypersurface `F = 0` of degree `e` in projective space of dimension
`m`: in each affine patch its defining function is `F` in homogeneous coordinates. -/
structure Hypersurface (V : HomKind) (params : Val) (m e : ℕ) (F : MvPolynomial (Fin (m + 1)) ℂ) : Prop where
  dim : dimComplex V = .ok (m + 1)
  homogeneous : F.IsHomogeneous e
  defining : ∀ (p : Fin (m + 1)) (zs : Fin m → ℂ),
    Variety.defining V (List.ofFn zs) params (some (.index p)) = .ok (eval (affineToHom zs (p : ℕ)) F)

/-- The number computed from a result, and `0` for an exception. -/
def onOk {ε α : Type*} (f : α → ℂ) : Except ε α → ℂ
  | .ok a => f a
  | .error _ => 0

end Cyjax.Spec
