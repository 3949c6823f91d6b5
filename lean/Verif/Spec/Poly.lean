import Verif.Spec.PolyExpr
import Verif.Model.PolyOps

/-! # Specification vocabulary for `Poly` objects -/

namespace Cyjax.Polynomial

open MvPolynomial

/-- All coefficients are real numbers. -/
def RealCoeffs (p : MvPolynomial Sym ℂ) : Prop := ∀ m, (coeff m p).im = 0

/-- The full positional call of a polynomial under an assignment of values to symbols. -/
noncomputable def PolyObj.callAt (P : PolyObj) (ρ : Sym → ℂ) : Except PyErr ℂ :=
  P.call (P.md.inputs ρ ++ [.vec (P.md.paramInput ρ)]) []

/-- All symbols of the polynomial are declared. -/
def PolyObj.Declared (P : PolyObj) : Prop := ∀ s ∈ P.poly.vars, s ∈ P.md.allSymbols

/-- Symbolic input of one variable, the symbol `s` being replaced by `σ s`. -/
def symInput (σ : Sym → Expr) (v : List Char × Option (List ℕ)) : SymVal :=
  match v.2 with
  | none => .scalar (σ v.1)
  | some inds => .vec (inds.map fun i => σ (mergeSubscript v.1 i))

/-- One factor per entry: `∏ i, v[i] ^ p[i]`. -/
def entryProd {R : Type*} [CommSemiring R] (v : List R) (p : List ℕ) : R :=
  ∏ i ∈ Finset.range v.length, v.getD i 0 ^ p.getD i 0

/-- The documented monomial: product over variables and entries (variables without powers are
skipped). -/
def monSpec {R : Type*} [CommSemiring R] {M : ℕ} (values : Values R) (powers : Powers M) (c : Fin M) : R :=
  ((values.zip powers).map fun vp =>
    match vp with
    | (some v, some p) => entryProd v (p c)
    | _ => 1).prod

/-- Values and powers have matching shapes. -/
def Compatible {R : Type*} {M : ℕ} (values : Values R) (powers : Powers M) : Prop :=
  List.Forall₂ (fun v p => ∀ p', p = some p' → ∃ v', v = some v' ∧ ∀ c, (p' c).length = v'.length)
    values powers

/-- Every entry raised to a positive power is non-zero. -/
def NonZeroWherePowered {M : ℕ} (values : Values ℂ) (powers : Powers M) : Prop :=
  ∀ v p, (some v, some p) ∈ values.zip powers → ∀ c i, i < v.length → (p c).getD i 0 ≠ 0 → v.getD i 0 ≠ 0

/-- Kinds agree: a shared name is a scalar in both or an array in both. -/
def SameKind (m m' : Meta) : Prop :=
  ∀ v ∈ m.vars, ∀ w ∈ m'.vars, v.1 = w.1 → v.2.isSome = w.2.isSome

/-- No parameter of one polynomial shares the base name of a variable of the other. -/
def NoClash (m m' : Meta) : Prop :=
  (∀ s ∈ m.params, ∀ name ix, splitSubscript s = .ok (name, ix) → name ∉ m'.names) ∧
  (∀ s ∈ m'.params, ∀ name ix, splitSubscript s = .ok (name, ix) → name ∉ m.names)

/-- The parameters of a polynomial occur at most linearly. -/
def LinearParams (P : PolyObj) : Prop := ∀ m ∈ P.poly.support, ∀ s ∈ P.md.params, m s ≤ 1

/-- Value at `x` of the univariate polynomial with the coefficients `cs`, highest order first. -/
def polyval (cs : List ℂ) (x : ℂ) : ℂ := ∑ k ∈ Finset.range cs.length, cs.getD (cs.length - 1 - k) 0 * x ^ k

/-- Value of an entry returned by `univariate_coefficients`: a number, or a polynomial to be called. -/
noncomputable def UCoeff.callAt (ρ : Sym → ℂ) : UCoeff → Except PyErr ℂ
  | .num c => .ok c
  | .poly P => P.callAt ρ

end Cyjax.Polynomial
