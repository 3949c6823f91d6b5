import Verif.Model.HomPoly

/-! # Model of the classes of polynomial objects: `from_poly`, derivatives and operators -/

namespace Cyjax.Polynomial

open MvPolynomial

/-- The class of a polynomial object, with the attributes of the special ones
(`cyjax/polynomial.py:1203-1211`, `:1233-1236`). -/
inductive PolyClass where
  | poly
  | hom
  | dwork (degree : ℕ) (factor : ℂ)
  | fermat (degree : ℕ)

/-- A polynomial object: its class and its symbolic polynomial with names, indices and parameters. -/
structure AnyPoly where
  cls : PolyClass
  obj : PolyObj

/-- `from_poly`, `cyjax/polynomial.py:452-464`, and its overrides for Dwork and Fermat polynomials,
`:1213-1215`, `:1238-1240`. The constructor of `HomPoly` takes the length of every entry of
`variable_indices`, `:1085`, which raises for the `None` of a scalar variable. (The call signature built by
the constructor, `:349-365`, is not modelled.) -/
def fromPoly (cls : PolyClass) (P : PolyObj) : Except PyErr AnyPoly :=
  match cls with
  | .poly => .ok ⟨.poly, P⟩
  | .hom => if P.md.vars.all (fun v => v.2.isSome) then .ok ⟨.hom, P⟩ else .error .typeError
  | .dwork _ _ => .ok ⟨.poly, P⟩
  | .fermat _ => .ok ⟨.poly, P⟩

/-- `DworkPoly(degree, factor)`, `cyjax/polynomial.py:1203-1211`. -/
noncomputable def dworkObj (degree : ℕ) (factor : DworkFactor) : Except PyErr AnyPoly :=
  match dworkPolyObj degree factor.value with
  | .error e => .error e
  | .ok P => .ok ⟨.dwork degree factor.value, P⟩

/-- Metadata set by `FermatPoly.__init__`, `cyjax/polynomial.py:1233-1236`. -/
def fermatMeta (degree : ℕ) : Meta := ⟨[("z".toList, some (List.range degree))], []⟩

/-- `FermatPoly(degree)`, `cyjax/polynomial.py:1233-1236`, with the polynomial of the property
`sympy_poly`, `:379-386`. -/
noncomputable def fermatObj (degree : ℕ) : Except PyErr AnyPoly :=
  match fermatCall (R := MvPolynomial Sym ℂ) degree
      ((varSymbols ("z".toList, some (List.range degree))).map X) none with
  | .error e => .error e
  | .ok p => .ok ⟨.fermat degree, ⟨fermatMeta degree, p, p.vars.toList⟩⟩

/-- `diff`, `cyjax/polynomial.py:878-883`: the derivative is passed to `from_poly` of the object's class. -/
noncomputable def AnyPoly.diff (o : AnyPoly) (s : Sym) : Except PyErr AnyPoly :=
  match o.obj.diff s with
  | .error e => .error e
  | .ok D => fromPoly o.cls D

/-- `__add__`, `cyjax/polynomial.py:896-905`: the constructor of the base class is called. -/
noncomputable def AnyPoly.add (o o' : AnyPoly) : Except PyErr AnyPoly :=
  match o.obj.add o'.obj with
  | .error e => .error e
  | .ok R => .ok ⟨.poly, R⟩

/-- `__sub__`, `cyjax/polynomial.py:907-916`. -/
noncomputable def AnyPoly.sub (o o' : AnyPoly) : Except PyErr AnyPoly :=
  match o.obj.sub o'.obj with
  | .error e => .error e
  | .ok R => .ok ⟨.poly, R⟩

/-- `__mul__`, `cyjax/polynomial.py:885-894`. -/
noncomputable def AnyPoly.mul (o o' : AnyPoly) : Except PyErr AnyPoly :=
  match o.obj.mul o'.obj with
  | .error e => .error e
  | .ok R => .ok ⟨.poly, R⟩

/-- The keyword `patch`. -/
def patchKey : List Char := "patch".toList

/-- Calling an object with positional inputs and the keyword argument `patch`. For the base class
(`cyjax/polynomial.py:949-994`) it is one of the keyword arguments `var_kwargs`; for `HomPoly`
(`:1185-1190`) it selects the affine polynomial, here of a fresh object (see `C52` for the cache); for Dwork
and Fermat polynomials see `:1217-1222`, `:1242-1247` (inputs of other shapes are an error here). -/
noncomputable def AnyPoly.call (o : AnyPoly) (args : List Val) (patch : Option (List ℕ)) : Except PyErr ℂ :=
  match o.cls with
  | .poly =>
    o.obj.call args (match patch with | none => [] | some p => [(patchKey, .vec (p.map fun n => (n : ℂ)))])
  | .hom => (homCall o.obj (initCache o.obj) patch args []).2
  | .dwork degree factor =>
    match args with
    | [.vec z, .vec ps] => dworkCall degree factor z ps patch
    | _ => .error .typeError
  | .fermat degree =>
    match args with
    | [.vec z] => fermatCall degree z patch
    | [.vec z, .vec _] => fermatCall degree z patch
    | _ => .error .typeError

end Cyjax.Polynomial
