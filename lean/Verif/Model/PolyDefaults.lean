import Verif.Model.Poly
import Mathlib.Data.List.Dedup

/-! # Model of the default arguments of `Poly.from_coeffs_and_powers` -/

namespace Cyjax.Polynomial

/-- `chr(ord('a') + i) for i in range(len(powers))`, `cyjax/polynomial.py:741-743`. -/
def defaultNames (n : ℕ) : List (List Char) :=
  (List.range n).map fun i => [Char.ofNat ('a'.toNat + i)]

/-- `[range(len(pws[0])) for pws in powers]`, `cyjax/polynomial.py:744-745`: `None` cannot be indexed,
and without monomials there is no first entry. -/
def defaultIndices {M : ℕ} : Powers M → Except PyErr (List (Option (List ℕ)))
  | [] => .ok []
  | none :: _ => .error .typeError
  | some p :: ps =>
    if h : 0 < M then
      match defaultIndices ps with
      | .error e => .error e
      | .ok l => .ok (some (List.range (p ⟨0, h⟩).length) :: l)
    else .error .indexError

/-- `list(reduce(set.union, map(set, coeffs_params)))`, `cyjax/polynomial.py:746-747`. `setOrder` is the
order in which python lists the elements of a set, which depends on the hash seed of the process;
`reduce` of an empty sequence raises. -/
def defaultParams {M : ℕ} (setOrder : List Sym → List Sym) (cp : Fin M → List Sym) :
    Except PyErr (List Sym) :=
  if M = 0 then .error .typeError
  else .ok (setOrder ((List.finRange M).flatMap cp).dedup)

/-- `str.isidentifier`. Simplification: ASCII only; python keywords (which `inspect.Parameter` rejects
as well) are not excluded. -/
def isIdentifier (s : List Char) : Bool :=
  match s with
  | [] => false
  | c :: cs => (c.isAlpha || c == '_') && cs.all (fun d => d.isAlphanum || d == '_')

/-- The names of the call signature built in `Poly.__init__`, `cyjax/polynomial.py:349-363`:
`inspect.Parameter` rejects names that are no identifiers and `inspect.Signature` rejects
repeated names, both with a `ValueError`. -/
def signatureOk (names : List (List Char)) : Bool :=
  names.all isIdentifier && decide (names ++ [paramsKey]).Nodup

/-- `Poly.from_coeffs_and_powers` with its default arguments, `cyjax/polynomial.py:681-764`. `none` is
the python default `None`. Simplifications: coefficients and symbolic coefficients have the same
length `M`; names and indices of different lengths are cut to the shorter one. -/
noncomputable def fromCoeffsAndPowers {M : ℕ} (setOrder : List Sym → List Sym) (coeffs : Fin M → ℂ)
    (powers : Powers M) (coeffsParams : Option (Fin M → List Sym)) (names : Option (List (List Char)))
    (indices : Option (List (Option (List ℕ)))) (parameters : Option (List Sym)) :
    Except PyErr PolyObj :=
  let cp := coeffsParams.getD fun _ => []
  let ns := names.getD (defaultNames powers.length)
  match indices.elim (defaultIndices powers) .ok with
  | .error e => .error e
  | .ok inds =>
    match parameters.elim (defaultParams setOrder cp) .ok with
    | .error e => .error e
    | .ok ps =>
      if signatureOk ns then fromCoeffs coeffs powers cp ⟨ns.zip inds, ps⟩ else .error .valueError

end Cyjax.Polynomial
