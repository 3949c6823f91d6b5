import Verif.Model.PolyOps

/-! # Model of `HomPoly`, `DworkPoly` and `FermatPoly` -/

namespace Cyjax.Polynomial

open MvPolynomial

/-- `unique_patch_index`, `cyjax/polynomial.py:1088-1110`: the loop over patch indices and sizes. -/
def uniquePatchLoop : ℕ → ℕ → List ℕ → List ℕ → ℕ
  | index, multiplier, p :: ps, size :: sizes =>
    uniquePatchLoop (index + p * multiplier) (multiplier * size) ps sizes
  | index, _, _, _ => index

/-- `unique_patch_index`, `cyjax/polynomial.py:1088-1110`. (A single number as patch is the
one-element list.) -/
def uniquePatchIndex (sizes patch : List ℕ) : ℕ := uniquePatchLoop 0 1 patch sizes

/-- Sizes of the variables (`len(ind)`; all variables of a `HomPoly` have indices). -/
def Meta.sizes (m : Meta) : List ℕ := m.vars.map fun v => (v.2.getD []).length

/-- The symbols set to one, `cyjax/polynomial.py:1133-1134`. -/
def patchSymbols (m : Meta) (patch : List ℕ) : List Sym :=
  List.zipWith mergeSubscript m.names patch

/-- Metadata of the affine polynomial, `cyjax/polynomial.py:1136-1138`. -/
def affineMeta (m : Meta) (patch : List ℕ) : Meta :=
  ⟨List.zipWith (fun v p => (v.1, some ((v.2.getD []).filter (fun i => i ≠ p)))) m.vars patch, m.params⟩

/-- An affine polynomial object. `isPoly` is false if `sympy.Poly.subs` returned a plain expression
instead of a `sympy.Poly`. -/
structure AffineObj where
  obj : PolyObj
  isPoly : Bool

/-- The affine polynomial computed on a cache miss, `cyjax/polynomial.py:1133-1138`.
`sympy.Poly.subs` with numbers evaluates one generator after the other; it returns a plain expression
if a symbol is not a generator or if no generator is left. -/
noncomputable def affinePoly (P : PolyObj) (patch : List ℕ) : AffineObj :=
  let syms := patchSymbols P.md patch
  let gens := P.gens.filter (fun s => s ∉ syms)
  ⟨⟨affineMeta P.md patch, bind₁ (fun s => if s ∈ syms then 1 else X s) P.poly, gens⟩,
    decide ((∀ s ∈ syms, s ∈ P.gens) ∧ gens ≠ [])⟩

/-- Calling an affine polynomial, `cyjax/polynomial.py:949-994`: a plain expression has no attribute
`expr`. -/
noncomputable def AffineObj.call (A : AffineObj) (args : List Val) (kwargs : List (List Char × Val)) :
    Except PyErr ℂ :=
  if A.isPoly then A.obj.call args kwargs
  else
    match sortVarArgs Val.len A.obj.md.names A.obj.md.params.length args kwargs with
    | .error e => .error e
    | .ok _ => .error .attributeError

/-- The list `_affine_poly`. -/
abbrev Cache := List (Option AffineObj)

/-- `HomPoly.__init__`, `cyjax/polynomial.py:1083-1086`: empty cache of the total number of patches. -/
def initCache (P : PolyObj) : Cache := List.replicate (Util.prod P.md.sizes) none

/-- `affine_poly`, `cyjax/polynomial.py:1112-1142`, with its cache. -/
noncomputable def affinePolyCached (P : PolyObj) (cache : Cache) (patch : List ℕ) :
    Cache × Except PyErr AffineObj :=
  let k := uniquePatchIndex P.md.sizes patch
  match cache[k]? with
  | none => (cache, .error .indexError)
  | some (some p) => (cache, .ok p)
  | some none => (cache.set k (some (affinePoly P patch)), .ok (affinePoly P patch))

/-- `HomPoly.__call__`, `cyjax/polynomial.py:1185-1190`, numerical inputs. -/
noncomputable def homCall (P : PolyObj) (cache : Cache) (patch : Option (List ℕ)) (args : List Val)
    (kwargs : List (List Char × Val)) : Cache × Except PyErr ℂ :=
  match patch with
  | none => (cache, P.call args kwargs)
  | some patch =>
    match affinePolyCached P cache patch with
    | (cache, .error e) => (cache, .error e)
    | (cache, .ok p) => (cache, p.call args kwargs)

/-- `itertools.product` of ranges (`_cartesian`). -/
def cartesian : List ℕ → List (List ℕ)
  | [] => [[]]
  | n :: ns => (List.range n).flatMap fun i => (cartesian ns).map (i :: ·)

/-- `all_patches` of `transform_eval`, `cyjax/polynomial.py:1149-1151`. -/
def allPatches (sizes : List ℕ) : List (List ℕ) :=
  (cartesian sizes).mergeSort (fun p q => uniquePatchIndex sizes p ≤ uniquePatchIndex sizes q)

/-- `jax.lax.switch(index, branches)`: the index is clamped into range. -/
def laxSwitch {α : Type*} (index : ℕ) (branches : List α) : Option α :=
  branches[min index (branches.length - 1)]?

/-- The function made by `transform_eval`, `cyjax/polynomial.py:1144-1183`. Only the selected branch
touches the cache here (jax traces all of them, which amounts to a history of valid calls). -/
noncomputable def transformEval (P : PolyObj) (cache : Cache) (patch : Option (List ℕ)) (args : List Val)
    (kwargs : List (List Char × Val)) : Cache × Except PyErr ℂ :=
  match patch with
  | none => homCall P cache none args kwargs
  | some patch =>
    match laxSwitch (uniquePatchIndex P.md.sizes patch) (allPatches P.md.sizes) with
    | none => (cache, .error .indexError)
    | some q => homCall P cache (some q) args kwargs

/-! ## Dwork and Fermat polynomials -/

/-- The argument `factor` of `DworkPoly`. -/
inductive DworkFactor where
  | flag (b : Bool)
  | number (c : ℂ)

/-- `DworkPoly.__init__`, `cyjax/polynomial.py:1203-1211`. -/
def DworkFactor.value : DworkFactor → ℂ
  | .flag b => if b then -5 else 1
  | .number c => c

/-- `DworkPoly.__call__`, `cyjax/polynomial.py:1217-1222`. Generic in the ring, to cover numerical and
symbolic inputs. -/
def dworkCall {R : Type*} [CommSemiring R] (degree : ℕ) (factor : R) (z params : List R)
    (patch : Option (List ℕ)) : Except PyErr R :=
  if z.length = degree - (if patch.isSome then 1 else 0) then
    match params with
    | [] => .error .indexError
    | psi :: _ =>
      let f := (z.map (· ^ degree)).sum + factor * psi * z.prod
      .ok (match patch with | none => f | some _ => 1 + f)
  else .error .assertionError

/-- `FermatPoly.__call__`, `cyjax/polynomial.py:1242-1247`. -/
def fermatCall {R : Type*} [CommSemiring R] (degree : ℕ) (z : List R) (patch : Option (List ℕ)) :
    Except PyErr R :=
  if z.length = degree - (if patch.isSome then 1 else 0) then
    let f := (z.map (· ^ degree)).sum
    .ok (match patch with | none => f | some _ => 1 + f)
  else .error .assertionError

/-- Metadata set by `DworkPoly.__init__`, `cyjax/polynomial.py:1203-1206`. -/
def dworkMeta (degree : ℕ) : Meta := ⟨[("z".toList, some (List.range degree))], ["psi".toList]⟩

/-- The polynomial of the property `sympy_poly`, `cyjax/polynomial.py:379-386`: the object called with
its own symbols. -/
noncomputable def dworkPolyObj (degree : ℕ) (factor : ℂ) : Except PyErr PolyObj :=
  match dworkCall degree (C factor) ((varSymbols ("z".toList, some (List.range degree))).map X)
      [X "psi".toList] none with
  | .error e => .error e
  | .ok p => .ok ⟨dworkMeta degree, p, p.vars.toList.filter (fun s => s ∉ ["psi".toList])⟩

end Cyjax.Polynomial
