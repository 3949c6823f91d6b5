import Verif.Model.Geometry
import Verif.Model.DonaldsonStep
import Verif.Model.Variety

/-! # Model of `GeometricObjects.__init__` and of the methods of `AlgebraicMetric` in `cyjax/donaldson.py`

One point at a time: `auto_vmap` (lines 712, 733, 754, 775, 798) runs over batches. The nodes of the graph are evaluated
on access (`ProgEval`), so a method fails only if a node it depends on does. `n + 1` is the number of affine coordinates
for which the sections are made; the matrix `h` has the size of the basis. -/

namespace Cyjax.Donaldson

open Cyjax.Polynomial (PyErr Val)
open Cyjax.Projective Cyjax.Variety

/-- `hom_to_affine(zs)`, `cyjax/projective.py:73-99`, on a list; `argmax` of an empty array raises. -/
noncomputable def homToAffineList : List ℂ → Except PyErr (List ℂ × ℕ)
  | [] => .error .valueError
  | z :: zs =>
    let r := homToAffineAuto (n := zs.length) fun i => (z :: zs).get i
    .ok (List.ofFn r.1, (r.2 : ℕ))

/-- The coordinates and the patch stored by `GeometricObjects.__init__`, `cyjax/donaldson.py:355-362`;
`variety.dim_projective` is `dim_complex - 1` (`cyjax/variety.py:103-106`). -/
noncomputable def initCoords (V : HomKind) (zs : List ℂ) (patch : Option ℕ) : Except PyErr (List ℂ × ℕ) := do
  let (zs, patch) ← match patch with
    | some p => .ok (zs, p)
    | none => homToAffineList zs
  let dim ← dimComplex V
  if (zs.length : ℤ) = (dim : ℤ) - 1 then .ok (zs, patch) else .error .assertionError

variable {n : ℕ}

/-- The affine coordinates as the array the sections expect; `jax.vmap` in `_compute_monomials_index`
(`cyjax/donaldson.py:110`) rejects another length. -/
noncomputable def asArray (n : ℕ) (zs : List ℂ) : Except PyErr (Fin n → ℂ) :=
  if h : zs.length = n then .ok fun i => zs.get (i.cast h.symm) else .error .valueError

/-- `s`, `s_1`, `s_2`, `cyjax/donaldson.py:364-372`: the sections in one patch (no section arguments) and their
derivatives by `jacfwd`. -/
noncomputable def sectionsJet (B : MonomialSections n) (patch : ℕ) (zs : Fin n → ℂ) : Jet B.size n where
  s := B.call zs patch
  s1 a i := deriv (fun t => B.call (Function.update zs i t) patch true a) (zs i)
  s2 a i j := deriv (fun u => deriv (fun t => B.call (Function.update (Function.update zs j u) i t) patch true a)
    (Function.update zs j u i)) (zs j)

/-- Node `grad_def`, `cyjax/donaldson.py:374-375` and `:599-601`. -/
noncomputable def nodeGrad (V : HomKind) (zs : Fin (n + 1) → ℂ) (params : Val) (patch : ℕ)
    (gradDef : Option (Fin (n + 1) → ℂ)) : Except PyErr (Fin (n + 1) → ℂ) :=
  match gradDef with
  | some g => .ok g
  | none => gradDefining V zs params (some (.index patch))

/-- Node `jac_h`, `cyjax/donaldson.py:615-618`: derivative of `variety.jacobian_embed` in the coordinates, the dependent
index fixed (then only the Jacobian is returned, `cyjax/variety.py:164`). -/
noncomputable def nodeJacH (V : HomKind) (zs : Fin (n + 1) → ℂ) (params : Val) (patch : ℕ) (dependent : ℤ) :
    Except PyErr (Fin n → Fin (n + 1) → Fin (n + 1) → ℂ) :=
  match jacobianEmbedAt V zs params (some (.index patch)) (some dependent) with
  | .error e => .error e
  | .ok _ => .ok fun r i a => deriv (fun t =>
      match jacobianEmbedAt V (Function.update zs a t) params (some (.index patch)) (some dependent) with
      | .error _ => 0
      | .ok J => J.1 r i) (zs a)

/-- The nodes `grad_def` and `dependent` (`cyjax/donaldson.py:376-388`); `jac_h` is not evaluated. -/
noncomputable def embFirst (V : HomKind) (zs : Fin (n + 1) → ℂ) (params : Val) (patch : ℕ) (dependent : Option ℤ)
    (gradDef : Option (Fin (n + 1) → ℂ)) : Except PyErr (Graph.Emb n) := do
  let g ← nodeGrad V zs params patch gradDef
  return ⟨g, chooseDep g dependent, fun _ _ _ => 0⟩

/-- The nodes `grad_def`, `dependent` and `jac_h`. -/
noncomputable def embAll (V : HomKind) (zs : Fin (n + 1) → ℂ) (params : Val) (patch : ℕ) (dependent : Option ℤ)
    (gradDef : Option (Fin (n + 1) → ℂ)) : Except PyErr (Graph.Emb n) := do
  let g ← nodeGrad V zs params patch gradDef
  let jacH ← nodeJacH V zs params patch (chooseDep g dependent)
  return ⟨g, chooseDep g dependent, jacH⟩

/-- `AlgebraicMetric.__init__`, `cyjax/donaldson.py:688-710`: variety and sections. -/
structure AlgebraicMetric (n : ℕ) where
  variety : HomKind
  sections : MonomialSections n

/-- `AlgebraicMetric.degree`, `cyjax/donaldson.py:694-697`. -/
def AlgebraicMetric.degree (A : AlgebraicMetric n) : ℕ := A.sections.degree

/-- A matrix `h` for the sections. -/
abbrev AlgebraicMetric.H (A : AlgebraicMetric n) := Matrix (Fin A.sections.size) (Fin A.sections.size) ℂ

variable (A : AlgebraicMetric (n + 1)) (h : A.H) (zs : List ℂ) (params : Val) (patch : Option ℕ)
  (dependent : Option ℤ) (gradDef : Option (Fin (n + 1) → ℂ))

/-- `AlgebraicMetric.kahler_potential`, `cyjax/donaldson.py:712-731`. -/
noncomputable def AlgebraicMetric.kahlerPotential : Except PyErr ℂ := do
  let (zs, patch) ← initCoords A.variety zs patch
  let z ← asArray (n + 1) zs
  return Graph.kahler (.full h) (sectionsJet A.sections patch z) A.degree

/-- `AlgebraicMetric.metric`, `cyjax/donaldson.py:733-752`. -/
noncomputable def AlgebraicMetric.metric : Except PyErr (Matrix (Fin n) (Fin n) ℂ × ℕ × ℤ) := do
  let (zs, patch) ← initCoords A.variety zs patch
  let z ← asArray (n + 1) zs
  let E ← embFirst A.variety z params patch dependent gradDef
  return (Graph.gLoc (.full h) A.degree (sectionsJet A.sections patch z) E, patch, E.dependent)

/-- `AlgebraicMetric.eta`, `cyjax/donaldson.py:754-773`. -/
noncomputable def AlgebraicMetric.eta : Except PyErr ℂ := do
  let (zs, patch) ← initCoords A.variety zs patch
  let z ← asArray (n + 1) zs
  let E ← embFirst A.variety z params patch dependent gradDef
  return Graph.eta (.full h) A.degree (sectionsJet A.sections patch z) E

/-- `AlgebraicMetric.ricci`, `cyjax/donaldson.py:775-796`. -/
noncomputable def AlgebraicMetric.ricci : Except PyErr (Matrix (Fin n) (Fin n) ℂ × ℕ × ℤ) := do
  let (zs, patch) ← initCoords A.variety zs patch
  let z ← asArray (n + 1) zs
  let E ← embAll A.variety z params patch dependent gradDef
  let R ← Graph.ricciLoc (.full h) A.degree (sectionsJet A.sections patch z) E
  return (R, patch, E.dependent)

/-- `AlgebraicMetric.ricci_scalar`, `cyjax/donaldson.py:798-817`. -/
noncomputable def AlgebraicMetric.ricciScalar : Except PyErr ℂ := do
  let (zs, patch) ← initCoords A.variety zs patch
  let z ← asArray (n + 1) zs
  let E ← embAll A.variety z params patch dependent gradDef
  Graph.ricciScalar (.full h) A.degree (sectionsJet A.sections patch z) E

/-- `AlgebraicMetric.sigma_accuracy`, `cyjax/donaldson.py:819-848`: sample points with affine coordinates, gradients,
dependent coordinates, weights with `vol=1`, and `eta` with all of them passed on. `draws` are the pairs of points on the
sphere; the parameters are an array. -/
noncomputable def AlgebraicMetric.sigmaAccuracy (o : SymOrder) (roots : List ℂ → List ℂ) (params : List ℂ)
    (count : ℕ) (draws : List (List ℂ × List ℂ)) : Except PyErr ℝ := do
  let pts ← sampleIntersectAffine (n + 1) A.variety o roots params count draws
  let vals ← pts.mapM fun (z, patch) => do
    let grad ← gradDefining A.variety z (.vec params) (some (.index patch))
    let dep : ℤ := ((argmax fun i => ‖grad i‖ : Fin (n + 1)) : ℕ)
    let w ← weight A.variety z (.vec params) (some (.index patch)) (some dep) (some 1)
    let e ← A.eta h (List.ofFn z) (.vec params) (some (patch : ℕ)) (some dep) (some grad)
    return (e, w)
  return Donaldson.sigmaAccuracy (count := vals.length) (fun i => (vals.get i).1) (fun i => (vals.get i).2)

end Cyjax.Donaldson
