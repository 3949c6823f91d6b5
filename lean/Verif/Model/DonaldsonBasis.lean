import Verif.Model.UtilMisc
import Verif.Model.Util
import Verif.Model.Subscript
import Mathlib.Data.List.FinRange
import Mathlib.Data.List.Rotate
import Mathlib.Data.Finset.Sort
import Mathlib.Algebra.MvPolynomial.Variables
import Mathlib.Data.Finsupp.Fin
import Mathlib.Analysis.SpecialFunctions.Complex.Log

/-! # Model of the monomial bases of `cyjax/donaldson.py`

A power matrix is the list of its rows; a row is a function `Fin (dim_proj + 1) → ℕ`. -/

namespace Cyjax.Donaldson

open Cyjax.Polynomial (PyErr)

/-- `itertools.combinations_with_replacement` (library code used by `cyjax/donaldson.py:51`): combinations that
contain the first element again come first. -/
def combinationsWR {α : Type*} : List α → ℕ → List (List α)
  | _, 0 => [[]]
  | [], _ + 1 => []
  | a :: l, k + 1 => (combinationsWR (a :: l) k).map (a :: ·) ++ combinationsWR l (k + 1)
termination_by l k => l.length + k

/-- `monomial_basis_indices`, `cyjax/donaldson.py:36-52`. -/
def monomialBasisIndices (dimProj degree : ℕ) : List (List (Fin (dimProj + 1))) :=
  combinationsWR (List.finRange (dimProj + 1)) degree

/-- The scan of `monomial_basis`, `cyjax/donaldson.py:74-78`: `c.at[i].add(1)` for every index of the row. -/
def countScan {m : ℕ} (idc : List (Fin m)) : Fin m → ℕ :=
  idc.foldl (fun c i => Function.update c i (c i + 1)) fun _ => 0

/-- `monomial_basis`, `cyjax/donaldson.py:55-79`. -/
def monomialBasis (dimProj degree : ℕ) : List (Fin (dimProj + 1) → ℕ) :=
  if degree = 0 then [fun _ => 0] else (monomialBasisIndices dimProj degree).map countScan

/-- `monomial_basis_size`, `cyjax/donaldson.py:82-88`; `none` is the `ValueError` of `factorial`. -/
def monomialBasisSize (dimProj degree : ℤ) (reduced : Bool) : Option ℤ := do
  let degreeDef := dimProj + 1
  let basis ← Util.binomial (dimProj + degree) degree
  if !reduced || degreeDef > degree then
    return (basis : ℤ)
  let mod ← Util.binomial (dimProj + degree - degreeDef) (degree - degreeDef)
  return (basis : ℤ) - (mod : ℤ)

/-- The inner loop of `reduced_monomial_basis`, `cyjax/donaldson.py:254-262`: remove the first of the candidates that
is still there; `none` is the `else` branch of the loop. -/
def removeOne {α : Type*} [DecidableEq α] (pows : List α) : List α → Option (List α)
  | [] => none
  | mon :: rest => if mon ∈ pows then some (pows.erase mon) else removeOne pows rest

/-- The outer loop of `reduced_monomial_basis`, `cyjax/donaldson.py:250-262`. -/
def reduceLoop {m : ℕ} (polyPows : List (Fin m → ℕ)) :
    List (Fin m → ℕ) → List (Fin m → ℕ) → Except PyErr (List (Fin m → ℕ))
  | pows, [] => .ok pows
  | pows, aux :: rest =>
    match removeOne pows (polyPows.map fun p => fun i => p i + aux i) with
    | some pows' => reduceLoop polyPows pows' rest
    | none => .error .runtimeError

/-- `reduced_monomial_basis`, `cyjax/donaldson.py:202-264`. Simplification: the rows of the result are kept as a list,
so an empty result has no shape. -/
def reducedMonomialBasis {dimProj : ℕ} (degree : ℕ) (polyPows : List (Fin (dimProj + 1) → ℕ)) :
    Except PyErr (List (Fin (dimProj + 1) → ℕ)) :=
  let modDegrees := polyPows.map fun p => ∑ i, p i
  if modDegrees = modDegrees.rotateRight 1 then
    match modDegrees with
    | [] => .error .indexError
    | modDegree :: _ =>
      if degree < modDegree then .ok (monomialBasis dimProj degree)
      else reduceLoop polyPows (monomialBasis dimProj degree) (monomialBasis dimProj (degree - modDegree))
  else .error .assertionError

/-- `sympy.Poly(poly, domain='CC').terms()` (library code used by `cyjax/donaldson.py:290-291`): the generators are the
symbols that occur in the polynomial, in the order of their indices, and the exponent vectors with non-zero coefficient
are listed in descending lexicographic order. The result has one column per generator; `none` stands for
`GeneratorsNeeded`, raised for a constant. -/
noncomputable def polyTerms {n : ℕ} (P : MvPolynomial (Fin (n + 1)) ℂ) :
    Option (Σ m, List (Fin (m + 1) → ℕ)) :=
  match hm : P.vars.card with
  | 0 => none
  | m + 1 =>
    let gen := P.vars.orderEmbOfFin hm
    let terms := P.support.image fun e => toLex fun j => e (gen j)
    some ⟨m, (terms.sort (· ≥ ·)).map fun t => ofLex t⟩

/-- The power matrix of `MonomialBasisReduced.__init__`, `cyjax/donaldson.py:288-293`; `P` is the defining polynomial at
the given moduli. Simplification: an error of sympy is reported as `polynomialError`. -/
noncomputable def monomialBasisReduced {n : ℕ} (P : MvPolynomial (Fin (n + 1)) ℂ) (degree : ℕ) :
    Except PyErr (Σ m, List (Fin (m + 1) → ℕ)) :=
  match polyTerms P with
  | none => .error .polynomialError
  | some ⟨m, powsMod⟩ =>
    match reducedMonomialBasis degree powsMod with
    | .ok rows => .ok ⟨m, rows⟩
    | .error e => .error e

/-! ## Evaluation of sections -/

/-- The scan of `_getpows`, `cyjax/donaldson.py:93-94`: outputs and final carry. -/
def powScan {K : Type*} [Mul K] (zi : K) : K → ℕ → List K × K
  | z, 0 => ([], z)
  | z, len + 1 => ((z :: (powScan zi (z * zi) len).1), (powScan zi (z * zi) len).2)

/-- `_getpows`, `cyjax/donaldson.py:91-95`. -/
def getPows {K : Type*} [Mul K] [One K] (zi : K) (maxpow : ℕ) : List K :=
  (powScan zi 1 maxpow).1 ++ [(powScan zi 1 maxpow).2]

/-- `a[i]` for a traced non-negative index: out-of-bounds indices are clamped. -/
def gather {K : Type*} [Zero K] (a : List K) (i : ℕ) : K := a.getD (min i (a.length - 1)) 0

/-- `_compute_monomials_index`, `cyjax/donaldson.py:98-111`, without patch. -/
def monomialsIndexHom {K : Type*} [CommSemiring K] {n N : ℕ} (zs : Fin (n + 1) → K)
    (pows : Fin N → Fin (n + 1) → ℕ) (maxdeg : ℕ) : Fin N → K :=
  let zp := fun i => getPows (zs i) maxdeg
  let powsT := fun i a => pows a i
  fun a => ∏ i, gather (zp i) (powsT i a)

/-- `_compute_monomials_index`, `cyjax/donaldson.py:98-111`, with a patch: the column of the patch is removed. -/
def monomialsIndex {K : Type*} [CommSemiring K] {n N : ℕ} (zs : Fin n → K) (patch : ℤ)
    (pows : Fin N → Fin (n + 1) → ℕ) (maxdeg : ℕ) : Fin N → K :=
  let zp := fun i => getPows (zs i) maxdeg
  let powsT := (Util.pop (fun i a => pows a i) patch).2
  fun a => ∏ i, gather (zp i) (powsT i a)

/-- `_compute_monomials_log`, `cyjax/donaldson.py:114-126`, without patch. -/
noncomputable def monomialsLogHom {n N : ℕ} (zs : Fin (n + 1) → ℂ) (pows : Fin N → Fin (n + 1) → ℕ) : Fin N → ℂ :=
  fun a => Complex.exp (∑ i, (pows a i : ℂ) * Complex.log (zs i))

/-- `_compute_monomials_log`, `cyjax/donaldson.py:114-126`, with a patch: powers and coordinates are rolled so that the
patch comes first, and its column is dropped. -/
noncomputable def monomialsLog {n N : ℕ} (zs : Fin n → ℂ) (patch : ℤ) (pows : Fin N → Fin (n + 1) → ℕ) : Fin N → ℂ :=
  let pows' := fun a (i : Fin n) => Cyjax.roll (pows a) (-patch) i.succ
  let zs' := Cyjax.roll zs (-patch)
  fun a => Complex.exp (∑ i, (pows' a i : ℂ) * Complex.log (zs' i))

/-- `_MonomialBasis`, `cyjax/donaldson.py:170-187`: degree and power matrix. -/
structure MonomialSections (n : ℕ) where
  degree : ℕ
  rows : List (Fin (n + 1) → ℕ)

/-- `_MonomialBasis.size`, `cyjax/donaldson.py:178-181`. -/
def MonomialSections.size {n : ℕ} (S : MonomialSections n) : ℕ := S.rows.length

/-- `_MonomialBasis.power_matrix` as an array. -/
def MonomialSections.powers {n : ℕ} (S : MonomialSections n) : Fin S.size → Fin (n + 1) → ℕ := fun a => S.rows.get a

/-- `_MonomialBasis.__call__`, `cyjax/donaldson.py:183-187`, with a patch. -/
noncomputable def MonomialSections.call {n : ℕ} (S : MonomialSections n) (zs : Fin n → ℂ) (patch : ℤ)
    (precompute : Bool := true) : Fin S.size → ℂ :=
  if precompute then monomialsIndex zs patch S.powers S.degree else monomialsLog zs patch S.powers

/-- `_MonomialBasis.__call__`, `cyjax/donaldson.py:183-187`, with homogeneous coordinates (`patch=None`). -/
noncomputable def MonomialSections.callHom {n : ℕ} (S : MonomialSections n) (zs : Fin (n + 1) → ℂ)
    (precompute : Bool := true) : Fin S.size → ℂ :=
  if precompute then monomialsIndexHom zs S.powers S.degree else monomialsLogHom zs S.powers

/-- `MonomialBasisFull.__init__`, `cyjax/donaldson.py:190-199`. -/
def monomialBasisFull (dimProj degree : ℕ) : MonomialSections dimProj := ⟨degree, monomialBasis dimProj degree⟩

end Cyjax.Donaldson
