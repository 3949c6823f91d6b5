import Verif.Spec.Poly
import Verif.Model.HomPoly

/-! # Specification vocabulary for homogeneous polynomials and patches -/

namespace Cyjax.Polynomial

/-- A valid patch: one position for each variable, within its size. -/
def ValidPatch (sizes patch : List ℕ) : Prop := List.Forall₂ (fun p n => p < n) patch sizes

/-- Indices of every variable are `0, ..., n-1`. -/
def Meta.Consecutive (m : Meta) : Prop := ∀ v ∈ m.vars, ∃ n, v.2 = some (List.range n)

/-- One call on a `HomPoly` object. -/
inductive HomStep where
  | affine (patch : List ℕ)
  | eval (patch : Option (List ℕ)) (args : List Val) (kwargs : List (List Char × Val))
  | compiled (patch : Option (List ℕ)) (args : List Val) (kwargs : List (List Char × Val))

/-- Calls with valid patches. -/
def HomStep.Valid (sizes : List ℕ) : HomStep → Prop
  | .affine p => ValidPatch sizes p
  | .eval p _ _ => ∀ q, p = some q → ValidPatch sizes q
  | .compiled p _ _ => ∀ q, p = some q → ValidPatch sizes q

/-- The cache after one call. -/
noncomputable def HomStep.run (P : PolyObj) (cache : Cache) : HomStep → Cache
  | .affine p => (affinePolyCached P cache p).1
  | .eval p args kwargs => (homCall P cache p args kwargs).1
  | .compiled p args kwargs => (transformEval P cache p args kwargs).1

/-- The cache after a history of calls on a fresh object. -/
noncomputable def cacheAfter (P : PolyObj) (history : List HomStep) : Cache :=
  history.foldl (HomStep.run P) (initCache P)

end Cyjax.Polynomial
