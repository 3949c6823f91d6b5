import Verif.Model.Batch

/-! # Model of the compiled evaluation functions on batches (`transform_eval`) -/

namespace Cyjax.Polynomial

open Cyjax

/-- The keyword arguments of `partial(f, **fixed)(**kwargs)`: those of the call take precedence. -/
def mergeKwargs {β : Type*} (fixed kwargs : List (List Char × β)) : List (List Char × β) :=
  fixed.filter (fun p => p.1 ∉ kwargs.map Prod.fst) ++ kwargs

/-- The arguments of all calls, and the function made by `Poly.transform_eval`, `cyjax/polynomial.py:430-450`:
`auto_vmap` with rank one for arrays and `params`, rank zero for scalars, then `partial`. The dictionary `_extra_args`
(`:421-428`) is empty for `Poly`. -/
noncomputable def PolyObj.transformEvalB (P : PolyObj) (fixed : List (List Char × Batch Val)) (args : List (Batch Val))
    (kwargs : List (List Char × Batch Val)) : Option (Batch (Except PyErr ℂ)) :=
  autoVmap (args.map (·.dims) ++ (mergeKwargs fixed kwargs).map (·.2.dims)) fun i =>
    P.call (args.map (·.at i)) ((mergeKwargs fixed kwargs).map fun p => (p.1, p.2.at i))

/-- The function made by `HomPoly.transform_eval`, `cyjax/polynomial.py:1144-1183`: `_extra_args` adds `patch` with rank zero.
The patch is that of a single projective space; the cache is transparent (C52), so every entry starts from an empty one. -/
noncomputable def homTransformEvalB (P : PolyObj) (fixed : List (List Char × Batch Val)) (patch : Option (Batch ℕ))
    (args : List (Batch Val)) (kwargs : List (List Char × Batch Val)) : Option (Batch (Except PyErr ℂ)) :=
  autoVmap (args.map (·.dims) ++ (mergeKwargs fixed kwargs).map (·.2.dims) ++ [dimsOpt patch]) fun i =>
    (transformEval P (initCache P) ((atOpt patch i).map fun p => [p]) (args.map (·.at i))
      ((mergeKwargs fixed kwargs).map fun p => (p.1, p.2.at i))).2

end Cyjax.Polynomial
