import Verif.Model.DonaldsonBasis
import Mathlib.Data.Matrix.Diagonal
import Mathlib.Data.Nat.Choose.Multinomial

/-! # Specification: the matrix that belongs to the Fubini–Study metric (for C115) -/

namespace Cyjax.Spec

open Cyjax.Donaldson

/-- The diagonal matrix with the multinomial coefficients `k! / (a_0! ... a_n!)` of the monomials of degree `k`, in the
order of the full monomial basis. For `k = 1` it is the identity. -/
def fubiniStudyH (n k : ℕ) : Matrix (Fin (monomialBasisFull n k).size) (Fin (monomialBasisFull n k).size) ℂ :=
  Matrix.diagonal fun a => (Nat.multinomial Finset.univ ((monomialBasisFull n k).powers a) : ℂ)

end Cyjax.Spec
