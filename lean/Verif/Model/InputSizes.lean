import Verif.Model.Poly

/-! # Model of polynomial calls with jax arrays of any size -/

namespace Cyjax.Polynomial

/-- The entries that `var[name][k]`, `cyjax/polynomial.py:189-192`, reads from a jax array for
`k = 0, ..., n-1`: jax replaces an index beyond the end by the last one. An empty array cannot be read. -/
def jaxEntries (n : ℕ) (l : List ℂ) : List ℂ :=
  if l = [] then [] else (List.range n).map fun k => l.getD (min k (l.length - 1)) 0

/-- One input as it is read if it is a jax array. -/
def jaxInput (v : List Char × Option (List ℕ)) (x : Val) : Val :=
  match v.2, x with
  | some inds, .vec l => .vec (jaxEntries inds.length l)
  | _, x => x

/-- `Poly.__call__`, `cyjax/polynomial.py:949-994`, with jax arrays and all arguments positional. (For numpy
arrays this is `PolyObj.call`, where reading beyond the end is an error.) -/
noncomputable def PolyObj.callJax (P : PolyObj) (vals : List Val) (params : List ℂ) : Except PyErr ℂ :=
  P.call (List.zipWith jaxInput P.md.vars vals ++ [.vec params]) []

end Cyjax.Polynomial
