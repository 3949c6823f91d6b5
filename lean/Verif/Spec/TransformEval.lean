import Verif.Model.TransformEval

/-! # Specification: ways of passing the parameters to a compiled evaluation function -/

namespace Cyjax.Spec

open Cyjax.Polynomial

/-- Parameters as last positional argument, as keyword, or fixed when the function is made: the fixed arguments, the positional
arguments and the keyword arguments. -/
def paramsBy (way : Fin 3) (args : List (Batch Val)) (params : Batch Val) :
    List (List Char × Batch Val) × List (Batch Val) × List (List Char × Batch Val) :=
  match way with
  | 0 => ([], args ++ [params], [])
  | 1 => ([], args, [(paramsKey, params)])
  | 2 => ([(paramsKey, params)], args, [])

end Cyjax.Spec
