import Verif.Model.HomPoly
import Verif.Model.FromSympy
import Verif.Model.Differential
import Mathlib.LinearAlgebra.Matrix.Determinant.Basic
import Mathlib.Analysis.SpecialFunctions.Trigonometric.Basic

/-! # Model of `cyjax/variety.py` -/

namespace Cyjax.Variety

open Cyjax.Polynomial Cyjax.Util Cyjax.Projective Cyjax.Differential

/-! ## The defining polynomial -/

/-- The defining polynomial of a variety: a `HomPoly` made from a symbolic expression, or one of the
subclasses with their own `__call__` (`cyjax/variety.py:334-355`). -/
inductive HomKind where
  | generic (P : PolyObj)
  | dwork (degree : ℕ) (factor : DworkFactor)
  | fermat (degree : ℕ)

/-- Names, indices and parameters (`cyjax/polynomial.py:1203-1206` and `:1233-1236` for the subclasses). -/
def HomKind.md : HomKind → Meta
  | .generic P => P.md
  | .dwork n _ => dworkMeta n
  | .fermat n => ⟨[("z".toList, some (List.range n))], []⟩

/-- `VarietySingle.__init__`, `cyjax/variety.py:50-60`. -/
def mkVariety (h : HomKind) : Except PyErr HomKind :=
  if h.md.vars.length = 1 then .ok h else .error .assertionError

/-- `dim_complex`, `cyjax/variety.py:98-101`; `None` has no length. -/
def dimComplex (V : HomKind) : Except PyErr ℕ :=
  match V.md.vars with
  | [] => .error .indexError
  | (_, none) :: _ => .error .typeError
  | (_, some inds) :: _ => .ok inds.length

/-- `VarietySingle.from_sympy`, `cyjax/variety.py:62-81`: `poly_degree` is passed on as `variable_dim` of `from_sympy`
(`cyjax/polynomial.py:523-525` makes the indices `0, ..., poly_degree - 1` from it). -/
noncomputable def varietyFromSympy (p : MvPolynomial Sym ℂ) (free : List Sym) (varName : List Char := "z".toList)
    (polyDegree : ℕ := 5) (params : Option (List Sym) := none) : Except PyErr HomKind :=
  match fromSympy ⟨some [varName], params, some [some (List.range polyDegree)]⟩ p free with
  | .error e => .error e
  | .ok P => mkVariety (.generic P)

/-- `num_defining`, `cyjax/variety.py:83-86`. -/
def numDefining (_ : HomKind) : ℕ := 1

/-- `parameters` and `par_count`, `cyjax/variety.py:88-96`. -/
def parCount (V : HomKind) : ℕ := V.md.params.length

/-- `dim_projective`, `cyjax/variety.py:103-106`. -/
def dimProjective (V : HomKind) : Except PyErr ℤ :=
  match dimComplex V with
  | .error e => .error e
  | .ok n => .ok (n - 1)

/-- `dim_variety` and `dim`, `cyjax/variety.py:108-116`. -/
def dimVariety (V : HomKind) : Except PyErr ℤ :=
  match dimProjective V with
  | .error e => .error e
  | .ok n => .ok (n - 1)

/-- `Poly.__call__` of the defining polynomial with one variable and `params` given by keyword. The cache of
affine polynomials is transparent (property C52), so every call starts from an empty one here. -/
noncomputable def HomKind.call (V : HomKind) (patch : Option (List ℕ)) (zs : List ℂ) (params : Val) :
    Except PyErr ℂ :=
  match V with
  | .generic P => (homCall P (initCache P) patch [.vec zs] [(paramsKey, params)]).2
  | .dwork n f => dworkCall n f.value zs params.entries patch
  | .fermat n => fermatCall n zs patch

/-- The argument `patch`: an integer, or a number of another type. -/
inductive PatchArg where
  | index (p : ℕ)
  | value (x : ℂ)

/-- `defining`, `cyjax/variety.py:123-133`: the function made by `transform_eval`
(`cyjax/polynomial.py:1144-1183`). `jax.lax.switch` raises for an index that is not an integer. -/
noncomputable def defining (V : HomKind) (zs : List ℂ) (params : Val) (patch : Option PatchArg) :
    Except PyErr ℂ :=
  match patch with
  | none => V.call none zs params
  | some (.value _) => .error .typeError
  | some (.index p) =>
    match laxSwitch (uniquePatchIndex V.md.sizes [p]) (allPatches V.md.sizes) with
    | none => .error .indexError
    | some q => V.call (some q) zs params

/-- Value of a successful computation (zero otherwise). -/
noncomputable def okVal : Except PyErr ℂ → ℂ
  | .ok v => v
  | .error _ => 0

/-- `grad_defining`, `cyjax/variety.py:135-138`, for one point: `jax.grad(..., holomorphic=True)` is the complex
derivative in each entry. Errors do not depend on the values and are raised when the function is traced. -/
noncomputable def gradDefining {m : ℕ} (V : HomKind) (zs : Fin m → ℂ) (params : Val)
    (patch : Option PatchArg) : Except PyErr (Fin m → ℂ) :=
  match defining V (List.ofFn zs) params patch with
  | .error e => .error e
  | .ok _ => .ok fun i =>
      deriv (fun t => okVal (defining V (List.ofFn (Function.update zs i t)) params patch)) (zs i)

/-- `best_dependent`, `cyjax/variety.py:140-151`. `grad_defining` is called with `patch` in place of `params` and
`params` in place of `patch` (line 150), so that `auto_vmap` runs over the entries of `params`; also without
any entry the function is traced once. -/
noncomputable def bestDependent {n : ℕ} (V : HomKind) (zs : Fin (n + 1) → ℂ) (params : List ℂ) (patch : ℕ) :
    Except PyErr (List (Fin (n + 1))) :=
  match gradDefining V zs (.scalar (patch : ℂ)) (some (.value (params.headD 0))) with
  | .error e => .error e
  | .ok _ =>
    match params.mapM (fun x => gradDefining V zs (.scalar (patch : ℂ)) (some (.value x))) with
    | .error e => .error e
    | .ok gs => .ok (gs.map fun g => argmax fun i => ‖g i‖)

/-- The choice of the dependent coordinate shared by `jacobian_embed`, `induced_metric` and
`sample_intersect_weights` (`cyjax/variety.py:161-163`, `:175-177`, `:212-213`). -/
noncomputable def chooseDep {n : ℕ} (grad : Fin (n + 1) → ℂ) : Option ℤ → ℤ
  | some d => d
  | none => ((argmax fun i => ‖grad i‖ : Fin (n + 1)) : ℕ)

/-- `VarietySingle.jacobian_embed`, `cyjax/variety.py:153-164`: the Jacobian and the dependent index used. -/
noncomputable def jacobianEmbedAt {n : ℕ} (V : HomKind) (zs : Fin (n + 1) → ℂ) (params : Val)
    (patch : Option PatchArg) (dependent : Option ℤ) :
    Except PyErr (Matrix (Fin n) (Fin (n + 1)) ℂ × ℤ) :=
  match gradDefining V zs params patch with
  | .error e => .error e
  | .ok g => .ok (jacobianEmbed g (chooseDep g dependent), chooseDep g dependent)

/-- Complex conjugate of the parameters (`jnp.conj(params)`, `cyjax/variety.py:182`). -/
noncomputable def conjVal : Val → Val
  | .scalar x => .scalar ((starRingEnd ℂ) x)
  | .vec l => .vec (l.map (starRingEnd ℂ))

/-- `VarietySingle.induced_metric`, `cyjax/variety.py:166-185`: the metric and the dependent index used. -/
noncomputable def inducedMetricAt {n : ℕ} (V : HomKind) (metric : Matrix (Fin (n + 1)) (Fin (n + 1)) ℂ)
    (zs : Fin (n + 1) → ℂ) (params : Val) (patch : Option PatchArg) (zsC : Option (Fin (n + 1) → ℂ))
    (dependent : Option ℤ) : Except PyErr (Matrix (Fin n) (Fin n) ℂ × ℤ) :=
  match gradDefining V zs params patch with
  | .error e => .error e
  | .ok g =>
    let d := chooseDep g dependent
    match zsC with
    | none => .ok (inducedMetric metric g d none, d)
    | some zc =>
      match gradDefining V zc (conjVal params) patch with
      | .error e => .error e
      | .ok gc => .ok (inducedMetric metric g d (some gc), d)

/-- `induced_fs`, `cyjax/variety.py:187-193`. -/
noncomputable def inducedFs {n : ℕ} (V : HomKind) (zs : Fin (n + 1) → ℂ) (params : Val)
    (patch : Option PatchArg) (zsC : Option (Fin (n + 1) → ℂ)) (dependent : Option ℤ) :
    Except PyErr (Matrix (Fin n) (Fin n) ℂ × ℤ) :=
  let metric := match zsC with
    | none => fsMetricAt zs
    | some zc => fsMetric zs zc
  inducedMetricAt V metric zs params patch zsC dependent

/-! ## Sampling weights -/

/-- Body of `sample_intersect_weights`, `cyjax/variety.py:210-229`, for a given gradient: `dvol`, `det` and
the absolute square of the dependent entry of the gradient. -/
noncomputable def weightParts {n : ℕ} (gradDef zs : Fin (n + 1) → ℂ) (dependent : Option ℤ)
    (vol : Option ℝ) : ℝ × ℝ × ℝ :=
  let dep := chooseDep gradDef dependent
  let p := pop gradDef dep
  let gFs := fsMetricAt zs
  let eye : Fin n → Fin n → ℂ := fun i j => if i = j then 1 else 0
  let jac : Matrix (Fin n) (Fin (n + 1)) ℂ := insertCol1 eye (fun i => -p.2 i / p.1) dep
  let gInd := jac * gFs * jac.conjTranspose
  let det := gInd.det.re
  let dvol := 1 / ‖p.1‖ ^ 2
  match vol with
  | none => (dvol, det, ‖p.1‖ ^ 2)
  | some v => (dvol * v, det * (n.factorial / Real.pi ^ n), ‖p.1‖ ^ 2)

/-- `sample_intersect_weights` with `separate=False`, `cyjax/variety.py:195-231`. -/
noncomputable def weight {n : ℕ} (V : HomKind) (zs : Fin (n + 1) → ℂ) (params : Val)
    (patch : Option PatchArg) (dependent : Option ℤ) (vol : Option ℝ) : Except PyErr ℝ :=
  match gradDefining V zs params patch with
  | .error e => .error e
  | .ok g =>
    let w := weightParts g zs dependent vol
    .ok (1 / (w.2.1 * w.2.2))

/-- `sample_intersect_weights` with `separate=True`, `cyjax/variety.py:195-230`. -/
noncomputable def weightSeparate {n : ℕ} (V : HomKind) (zs : Fin (n + 1) → ℂ) (params : Val)
    (patch : Option PatchArg) (dependent : Option ℤ) (vol : Option ℝ) : Except PyErr (ℝ × ℝ) :=
  match gradDefining V zs params patch with
  | .error e => .error e
  | .ok g =>
    let w := weightParts g zs dependent vol
    .ok (w.1, w.2.1)

/-! ## Sampling by intersection with lines -/

/-- `sympy.symarray(name, n)`: the symbols `name_0, ..., name_{n-1}`. -/
def symArray (name : List Char) (n : ℕ) : List Sym := (List.range n).map fun i => name ++ '_' :: natStr i

/-- `split_subscript(v)[1]` as an index. -/
def subIndex (v : Sym) : Except PyErr ℕ :=
  match splitNat v with
  | .error e => .error e
  | .ok (_, none) => .error .typeError
  | .ok (_, some i) => .ok i

/-- Reading one array of symbols given as variable in `from_sympy`, `cyjax/polynomial.py:541-548`.
(An entry without subscript in a longer array would give an index `None`; an error here.) -/
def readSymArray (arr : List Sym) : Except PyErr (List Char × Option (List ℕ)) :=
  match arr with
  | [] => .ok ("dummy".toList, some [])
  | v :: vs =>
    match splitNat v with
    | .error e => .error e
    | .ok (name, index) =>
      if vs = [] ∧ index = none then .ok (name, none)
      else
        match (v :: vs).mapM subIndex with
        | .error e => .error e
        | .ok inds => .ok (name, some inds)

/-- The arguments of `from_sympy` when arrays of symbols are given. -/
def symArrayArgs (arrs : List (List Sym)) (params : List Sym) : Except PyErr FromSympyArgs :=
  match arrs.mapM readSymArray with
  | .error e => .error e
  | .ok vars => .ok ⟨some (vars.map Prod.fst), some params, some (vars.map Prod.snd)⟩

open MvPolynomial

mutual
/-- Expansion of an expression to a polynomial (done by `sympy.Poly`). -/
noncomputable def expand : Expr → Option (MvPolynomial Sym ℂ)
  | .sym s => some (X s)
  | .int n => some (C (n : ℂ))
  | .float r => some (C (r : ℂ))
  | .imagUnit => some (C Complex.I)
  | .add args => (expandList args).map List.sum
  | .mul args => (expandList args).map List.prod
  | .pow b n => (expand b).map (· ^ n)
  | .other => none

noncomputable def expandList : List Expr → Option (List (MvPolynomial Sym ℂ))
  | [] => some []
  | e :: es =>
    match expand e with
    | none => none
    | some p => (expandList es).map (p :: ·)
end

/-- Calling the defining polynomial with symbolic inputs: `cyjax/polynomial.py:949-985` for a `HomPoly` (`order`
is the order in which sympy substitutes), `:1214-1219` and `:1242-1247` for the subclasses. -/
noncomputable def HomKind.callSymbolic (V : HomKind) (zs params : List Expr)
    (order : List (Sym × Expr) → List (Sym × Expr)) : Except PyErr Expr :=
  match V with
  | .generic P =>
    match callSym P.md (polyExpr P.poly) [.vec zs] (some params) order with
    | none => .error .assertionError
    | some e => .ok e
  | .dwork n f =>
    if zs.length = n then
      match params with
      | [] => .error .indexError
      | psi :: _ => .ok (.add [.add (zs.map fun z => .pow z n), .mul [numExpr f.value, psi, .mul zs]])
    else .error .assertionError
  | .fermat n =>
    if zs.length = n then .ok (.add (zs.map fun z => .pow z n)) else .error .assertionError

def tName : List Char := "t".toList
def pName : List Char := "p".toList
def qName : List Char := "q".toList

/-- `z = ps + t * qs`, `cyjax/variety.py:249-252`. -/
def lineExprs (n : ℕ) : List Expr :=
  List.zipWith (fun p q => .add [.sym p, .mul [.sym tName, .sym q]]) (symArray pName n) (symArray qName n)

/-- What is left open by sympy and python: the order of substitution and the order in which the free symbols of
an expression are visited. -/
structure SymOrder where
  subst : List (Sym × Expr) → List (Sym × Expr)
  free : Expr → List Sym

/-- The polynomial `P(p + t q)` in `t`, `p`, `q`, `cyjax/variety.py:249-254`. -/
noncomputable def intersectPoly (V : HomKind) (o : SymOrder) : Except PyErr PolyObj :=
  match dimComplex V with
  | .error e => .error e
  | .ok n =>
    match V.callSymbolic (lineExprs n) (V.md.params.map .sym) o.subst with
    | .error e => .error e
    | .ok e =>
      match symArrayArgs [[tName], symArray pName n, symArray qName n] V.md.params with
      | .error err => .error err
      | .ok a =>
        match expand e with
        | none => .error .polynomialError
        | some p => fromSympy a p (o.free e)

/-- Calling one entry of the list of coefficients, `cyjax/variety.py:40-42` and `:309-311`. -/
noncomputable def callCoeff (args : List Val) : UCoeff → Except PyErr ℂ
  | .num c => .ok c
  | .poly P => P.call args []

/-- `_solve_intersect`, `cyjax/variety.py:36-44`, for one pair `(p, q)`. `roots` is `jnp.roots`. -/
noncomputable def solveIntersect (roots : List ℂ → List ℂ) (coeffs : List UCoeff) (params : List ℂ)
    (pq : List ℂ × List ℂ) : Except PyErr (List (List ℂ)) :=
  match coeffs.mapM (callCoeff [.vec pq.1, .vec pq.2, .vec params]) with
  | .error e => .error e
  | .ok cs => .ok ((roots cs).map fun r => List.zipWith (fun p q => p + r * q) pq.1 pq.2)

/-- `sample_count`, `cyjax/variety.py:256`: `ceil(count / dim_complex)` (exact here). -/
def sampleCount (count dim : ℕ) : ℕ := (count + dim - 1) / dim

/-- `sample_intersect` with `affine=False, weights=False`, `cyjax/variety.py:233-260`. `draws` are the `sampleCount`
pairs `(p, q)` returned by `complex_sphere`. -/
noncomputable def sampleIntersect (V : HomKind) (o : SymOrder) (roots : List ℂ → List ℂ) (params : List ℂ)
    (count : ℕ) (draws : List (List ℂ × List ℂ)) : Except PyErr (List (List ℂ)) :=
  match intersectPoly V o with
  | .error e => .error e
  | .ok P =>
    match univariateCoefficients P tName with
    | .error e => .error e
    | .ok coeffs =>
      match draws.mapM (solveIntersect roots coeffs params) with
      | .error e => .error e
      | .ok pts => .ok (pts.flatten.take count)

/-- A list as array of length `n`. -/
def toArr (n : ℕ) (l : List ℂ) : Fin n → ℂ := fun i => l.getD i 0

/-- `sample_intersect` with `affine=True`, `cyjax/variety.py:261-267`. -/
noncomputable def sampleIntersectAffine (n : ℕ) (V : HomKind) (o : SymOrder) (roots : List ℂ → List ℂ)
    (params : List ℂ) (count : ℕ) (draws : List (List ℂ × List ℂ)) :
    Except PyErr (List ((Fin n → ℂ) × Fin (n + 1))) :=
  match sampleIntersect V o roots params count draws with
  | .error e => .error e
  | .ok zs => .ok (zs.map fun z => homToAffineAuto (toArr (n + 1) z))

/-! ## `solve_defining` -/

/-- The `sympy_poly` of the defining polynomial (`cyjax/polynomial.py:379-386` for the subclasses). -/
noncomputable def HomKind.polyObj : HomKind → Except PyErr PolyObj
  | .generic P => .ok P
  | .dwork n f => dworkPolyObj n f.value
  | .fermat n =>
    match fermatCall n ((varSymbols ("z".toList, some (List.range n))).map X) none with
    | .error e => .error e
    | .ok p => .ok ⟨(HomKind.fermat n).md, p, p.vars.toList⟩

/-- `solve_defining`, `cyjax/variety.py:284-321`, for one point. For `patch=None`, `index_affine_to_hom` compares
`None` with an integer and raises. (For an affine polynomial that is a plain expression, see
`AffineObj`, `sympy.Poly(expr, var)` works as well.) -/
noncomputable def solveDefining {n : ℕ} (V : HomKind) (roots : List ℂ → List ℂ) (zs : Fin n → ℂ)
    (params : List ℂ) (dependent : ℕ) (patch : Option ℕ) : Except PyErr (List (Fin (n + 1) → ℂ)) :=
  match patch with
  | none => .error .typeError
  | some patch =>
    match V.polyObj with
    | .error e => .error e
    | .ok P =>
      match (affinePolyCached P (initCache P) [patch]).2 with
      | .error e => .error e
      | .ok A =>
        match P.md.varSyms[(indexAffineToHom patch dependent).toNat]? with
        | none => .error .indexError
        | some dep =>
          match univariateCoefficients A.obj dep with
          | .error e => .error e
          | .ok coeffs =>
            match coeffs.mapM (callCoeff [.vec (List.ofFn zs), .vec params]) with
            | .error e => .error e
            | .ok cs =>
              let pt := roll zs (-(dependent : ℤ))
              .ok ((roots cs).map fun r => roll (Fin.append pt fun _ : Fin 1 => r) ((dependent : ℤ) + 1))

end Cyjax.Variety
