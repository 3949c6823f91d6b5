import Verif.Model.SympyNum

/-! # Meaning of sympy and python numbers -/

namespace Cyjax.Polynomial

/-- The number that a sympy number stands for. -/
noncomputable def SNum.value : SNum → ℂ
  | .zero => 0
  | .one => 1
  | .negOne => -1
  | .half => 1 / 2
  | .integer n => n
  | .rational q => q
  | .float x => x
  | .constant x => x
  | .imaginaryUnit => Complex.I
  | .compound z => z

/-- The number that a python number stands for. -/
def PyNum.value : PyNum → ℂ
  | .int n => n
  | .float x => x
  | .complex z => z

/-- The value of a product of factors when the parameters have the values `ρ`. -/
noncomputable def Factor.value (ρ : Sym → ℂ) : Factor → ℂ
  | .sym s => ρ s
  | .num v => v.value

/-- The parameters among the factors, in order. -/
def Factor.params : List Factor → List Sym
  | [] => []
  | .sym s :: fs => s :: Factor.params fs
  | .num _ :: fs => Factor.params fs

/-- The numbers among the factors, in order. -/
def Factor.numbers : List Factor → List SNum
  | [] => []
  | .sym _ :: fs => Factor.numbers fs
  | .num v :: fs => v :: Factor.numbers fs

end Cyjax.Polynomial
