import Verif.Model.Printing

/-! # Model of `merge_subscript` for all integers -/

namespace Cyjax.Polynomial

/-- `merge_subscript`, `cyjax/polynomial.py:93-99`, for any integer subscript: `f'{name}{sub}'`. -/
def mergeSubscriptInt (name : List Char) (sub : ℤ) : Sym := name ++ intStr sub

end Cyjax.Polynomial
