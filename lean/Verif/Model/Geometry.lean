import Verif.Model.DonaldsonBasis
import Verif.Model.Differential
import Mathlib.LinearAlgebra.Matrix.NonsingularInverse

/-! # Model of `GeometricObjects` of `cyjax/donaldson.py`

The computational graph: every static method is a function of the values of its arguments; the wiring by argument name
is in the section "graph" below. `N` is the number of sections, `n` the number of affine coordinates. -/

namespace Cyjax.Donaldson

open Cyjax.Polynomial (PyErr)
open scoped ComplexConjugate

/-- The argument `h`: a matrix (`h.ndim == 2`) or the array of diagonal entries (`h.ndim == 1`). -/
inductive HArg (N : ℕ) where
  | full (h : Matrix (Fin N) (Fin N) ℂ)
  | diag (h : Fin N → ℂ)

variable {N n m : ℕ}

/-- `s_c`, `cyjax/donaldson.py:393-395`. -/
noncomputable def conjS (s : Fin N → ℂ) : Fin N → ℂ := fun i => conj (s i)

/-- `s_1_c`, `cyjax/donaldson.py:398-405`. -/
noncomputable def conjS1 (s1 : Fin N → Fin n → ℂ) : Fin N → Fin n → ℂ := fun i a => conj (s1 i a)

/-- `s_2_c`, `cyjax/donaldson.py:408-415`. -/
noncomputable def conjS2 (s2 : Fin N → Fin n → Fin n → ℂ) : Fin N → Fin n → Fin n → ℂ := fun i a b => conj (s2 i a b)

/-- `psi`, `cyjax/donaldson.py:426-430`. -/
def psi (h : HArg N) (s sc : Fin N → ℂ) : ℂ :=
  match h with
  | .diag h => ∑ i, s i * h i * sc i
  | .full h => ∑ i, ∑ j, s i * h i j * sc j

/-- `kahler`, `cyjax/donaldson.py:421-423`. -/
noncomputable def kahler (psi : ℂ) (degree : ℕ) : ℂ := Complex.log psi / (Real.pi * degree)

/-- `psi_h`, `cyjax/donaldson.py:433-437`. -/
def psiH (h : HArg N) (s1 : Fin N → Fin n → ℂ) (sc : Fin N → ℂ) : Fin n → ℂ :=
  match h with
  | .diag h => fun a => ∑ i, s1 i a * h i * sc i
  | .full h => fun a => ∑ i, ∑ j, s1 i a * h i j * sc j

/-- `psi_a`, `cyjax/donaldson.py:440-442`. -/
noncomputable def psiA (psiH : Fin n → ℂ) : Fin n → ℂ := fun a => conj (psiH a)

/-- `psi_ha`, `cyjax/donaldson.py:445-449`. -/
def psiHA (h : HArg N) (s1 s1c : Fin N → Fin n → ℂ) : Fin n → Fin n → ℂ :=
  match h with
  | .diag h => fun a b => ∑ i, s1 i a * h i * s1c i b
  | .full h => fun a b => ∑ i, ∑ j, s1 i a * h i j * s1c j b

/-- `psi_hh`, `cyjax/donaldson.py:452-456`. For a one-dimensional `h` the result of the first `einsum` is discarded (no
`return`), and the second one fails: its subscripts ask for a matrix. -/
def psiHH (h : HArg N) (s2 : Fin N → Fin n → Fin n → ℂ) (sc : Fin N → ℂ) : Except PyErr (Fin n → Fin n → ℂ) :=
  match h with
  | .diag _ => .error .valueError
  | .full h => .ok fun a b => ∑ i, ∑ j, s2 i a b * h i j * sc j

/-- `psi_aa`, `cyjax/donaldson.py:459-461`. -/
noncomputable def psiAA (psiHH : Fin n → Fin n → ℂ) : Fin n → Fin n → ℂ := fun a b => conj (psiHH a b)

/-- `psi_hha`, `cyjax/donaldson.py:464-468`. -/
def psiHHA (h : HArg N) (s2 : Fin N → Fin n → Fin n → ℂ) (s1c : Fin N → Fin n → ℂ) : Fin n → Fin n → Fin n → ℂ :=
  match h with
  | .diag h => fun a b c => ∑ i, s2 i a b * h i * s1c i c
  | .full h => fun a b c => ∑ i, ∑ j, s2 i a b * h i j * s1c j c

/-- `psi_hhaa`, `cyjax/donaldson.py:471-475`. -/
def psiHHAA (h : HArg N) (s2 s2c : Fin N → Fin n → Fin n → ℂ) : Fin n → Fin n → Fin n → Fin n → ℂ :=
  match h with
  | .diag h => fun a b c d => ∑ i, s2 i a b * h i * s2c i c d
  | .full h => fun a b c d => ∑ i, ∑ j, s2 i a b * h i j * s2c j c d

/-- `g_proj`, `cyjax/donaldson.py:481-484`. -/
noncomputable def gProj (psi : ℂ) (psiH psiA : Fin n → ℂ) (psiHA : Fin n → Fin n → ℂ) (degree : ℕ) :
    Matrix (Fin n) (Fin n) ℂ :=
  let d : ℂ := degree * Real.pi
  Matrix.of fun i j => (psiHA i j / psi - psiH i * psiA j / psi ^ 2) / d

/-- `psi_h_psi_ha`, `cyjax/donaldson.py:487-489`. -/
def psiHpsiHA (psiH : Fin n → ℂ) (psiHA : Fin n → Fin n → ℂ) : Fin n → Fin n → Fin n → ℂ :=
  fun a i j => psiH a * psiHA i j

/-- `two_hha`, `cyjax/donaldson.py:492-499`. -/
def twoHHA (psiA : Fin n → ℂ) (psiHH : Fin n → Fin n → ℂ) (psiHpsiHA : Fin n → Fin n → Fin n → ℂ) :
    Fin n → Fin n → Fin n → ℂ :=
  let psiHHpsiA := fun a i j => psiA j * psiHH a i
  fun a i j => psiHpsiHA a i j + psiHpsiHA i a j + psiHHpsiA a i j

/-- `three_hha`, `cyjax/donaldson.py:502-507`. -/
def threeHHA (psiH psiA : Fin n → ℂ) : Fin n → Fin n → Fin n → ℂ := fun a i j => psiH a * psiH i * psiA j

/-- `g_proj_h`, `cyjax/donaldson.py:510-520`. -/
noncomputable def gProjH (psi : ℂ) (psiHHA twoHHA threeHHA : Fin n → Fin n → Fin n → ℂ) (degree : ℕ) :
    Fin n → Fin n → Fin n → ℂ :=
  let d : ℂ := degree * Real.pi
  fun a i j => (psiHHA a i j / psi - twoHHA a i j / psi ^ 2 + threeHHA a i j * 2 / psi ^ 3) / d

/-- `g_proj_a`, `cyjax/donaldson.py:523-525`. -/
noncomputable def gProjA (gProjH : Fin n → Fin n → Fin n → ℂ) : Fin n → Fin n → Fin n → ℂ :=
  fun a i j => conj (gProjH a j i)

/-- `psi_hha_psi_a`, `cyjax/donaldson.py:528-533`. -/
def psiHHApsiA (psiA : Fin n → ℂ) (psiHHA : Fin n → Fin n → Fin n → ℂ) : Fin n → Fin n → Fin n → Fin n → ℂ :=
  fun a b i j => psiHHA a i j * psiA b

/-- `psi_ha_psi_ha`, `cyjax/donaldson.py:536-540`. -/
def psiHApsiHA (psiHA : Fin n → Fin n → ℂ) : Fin n → Fin n → Fin n → Fin n → ℂ :=
  fun a b i j => psiHA a b * psiHA i j

/-- `two_haha`, `cyjax/donaldson.py:543-558`. `x.transpose((1, 2, 3, 0))[a, b, i, j] = x[j, a, b, i]` and
`x.transpose((3, 2, 1, 0))[a, b, i, j] = x[j, i, b, a]`. -/
noncomputable def twoHAHA (psiHH psiAA : Fin n → Fin n → ℂ) (psiHApsiHA psiHHApsiA : Fin n → Fin n → Fin n → Fin n → ℂ) :
    Fin n → Fin n → Fin n → Fin n → ℂ :=
  fun a b i j => psiHHApsiA a b i j + psiHHApsiA a j i b + conj (psiHHApsiA j a b i) + conj (psiHHApsiA j i b a) +
    psiHApsiHA a b i j + psiHApsiHA i b a j + psiAA b j * psiHH a i

/-- `three_haha`, `cyjax/donaldson.py:561-572`. -/
def threeHAHA (psiH psiA : Fin n → ℂ) (psiAA : Fin n → Fin n → ℂ) (twoHHA psiHpsiHA : Fin n → Fin n → Fin n → ℂ) :
    Fin n → Fin n → Fin n → Fin n → ℂ :=
  let sum := fun a i j => psiHpsiHA a i j + psiHpsiHA i a j
  fun a b i j => twoHHA a i j * psiA b + sum i a b * psiA j + psiH a * psiH i * psiAA b j

/-- `four_haha`, `cyjax/donaldson.py:575-580`. -/
def fourHAHA (psiA : Fin n → ℂ) (threeHHA : Fin n → Fin n → Fin n → ℂ) : Fin n → Fin n → Fin n → Fin n → ℂ :=
  fun a b i j => threeHHA a i j * psiA b

/-- `g_proj_ha`, `cyjax/donaldson.py:583-595`. `psi_hhaa.transpose((0, 2, 1, 3))[a, b, i, j] = psi_hhaa[a, i, b, j]`. -/
noncomputable def gProjHA (psi : ℂ) (psiHHAA twoHAHA threeHAHA fourHAHA : Fin n → Fin n → Fin n → Fin n → ℂ)
    (degree : ℕ) : Fin n → Fin n → Fin n → Fin n → ℂ :=
  let d : ℂ := degree * Real.pi
  fun a b i j => (psiHHAA a i b j / psi - twoHAHA a b i j / psi ^ 2 + threeHAHA a b i j * 2 / psi ^ 3 -
    fourHAHA a b i j * 6 / psi ^ 4) / d

/-! ## Induced metric and curvature

`m` is the dimension of the variety. -/

/-- `g_loc`, `cyjax/donaldson.py:621-623`. -/
def gLoc (g : Matrix (Fin n) (Fin n) ℂ) (jac jacC : Matrix (Fin m) (Fin n) ℂ) : Matrix (Fin m) (Fin m) ℂ :=
  Matrix.of fun r s => ∑ i, ∑ j, jac r i * g i j * jacC s j

/-- `g_loc_h`, `cyjax/donaldson.py:626-633`. -/
def gLocH (g : Matrix (Fin n) (Fin n) ℂ) (gH : Fin n → Fin n → Fin n → ℂ) (jac : Matrix (Fin m) (Fin n) ℂ)
    (jacH : Fin m → Fin n → Fin n → ℂ) (jacC : Matrix (Fin m) (Fin n) ℂ) : Fin n → Fin m → Fin m → ℂ :=
  fun a r s => (∑ i, ∑ j, jacH r i a * g i j * jacC s j) + ∑ i, ∑ j, jac r i * gH a i j * jacC s j

/-- `g_loc_ha`, `cyjax/donaldson.py:636-648`. -/
noncomputable def gLocHA (g : Matrix (Fin n) (Fin n) ℂ) (gA gH : Fin n → Fin n → Fin n → ℂ)
    (gHA : Fin n → Fin n → Fin n → Fin n → ℂ) (jac jacC : Matrix (Fin m) (Fin n) ℂ) (jacH : Fin m → Fin n → Fin n → ℂ) :
    Fin n → Fin n → Fin m → Fin m → ℂ :=
  let jacCA := fun r i a => conj (jacH r i a)
  fun a b r s => (∑ i, ∑ j, jacH r i a * gA b i j * jacC s j) + (∑ i, ∑ j, jac r i * gHA a b i j * jacC s j) +
    (∑ i, ∑ j, jacH r i a * g i j * jacCA s j b) + ∑ i, ∑ j, jac r i * gH a i j * jacCA s j b

/-- `g_loc_inv`, `cyjax/donaldson.py:651-653`. Simplification: exact inverse; Mathlib's inverse of a singular matrix is
zero where `jnp.linalg.inv` has no meaningful value. -/
noncomputable def gLocInv (g : Matrix (Fin m) (Fin m) ℂ) : Matrix (Fin m) (Fin m) ℂ := g⁻¹

/-- `g_loc_a`, `cyjax/donaldson.py:656-658`. -/
noncomputable def gLocA (gLocH : Fin n → Fin m → Fin m → ℂ) : Fin n → Fin m → Fin m → ℂ :=
  fun a r s => conj (gLocH a s r)

/-- `ricci_proj`, `cyjax/donaldson.py:661-670`. The first `einsum` has no explicit output: the free indices `a`, `b` in
alphabetical order. -/
def ricciProj (gLocH gLocA : Fin n → Fin m → Fin m → ℂ) (gLocHA : Fin n → Fin n → Fin m → Fin m → ℂ)
    (gLocInv : Matrix (Fin m) (Fin m) ℂ) : Matrix (Fin n) (Fin n) ℂ :=
  Matrix.of fun a b => (∑ i, ∑ j, ∑ k, ∑ l, gLocInv j i * gLocH a i k * gLocInv k l * gLocA b l j) -
    ∑ i, ∑ j, gLocInv j i * gLocHA a b i j

/-- `ricci_loc`, `cyjax/donaldson.py:673-675`. -/
def ricciLoc (ricciProj : Matrix (Fin n) (Fin n) ℂ) (jac jacC : Matrix (Fin m) (Fin n) ℂ) :
    Matrix (Fin m) (Fin m) ℂ :=
  Matrix.of fun r s => ∑ i, ∑ j, jac r i * ricciProj i j * jacC s j

/-- `ricci_scalar`, `cyjax/donaldson.py:678-680`. -/
def ricciScalar (ricciLoc gLocInv : Matrix (Fin m) (Fin m) ℂ) : ℂ := ∑ i, ∑ j, ricciLoc i j * gLocInv j i

/-- `eta`, `cyjax/donaldson.py:683-685`. -/
noncomputable def eta (gLoc : Matrix (Fin m) (Fin m) ℂ) (gradDef : Fin (n + 1) → ℂ) (dependent : ℤ) : ℂ :=
  gLoc.det * (‖jget gradDef dependent‖ : ℂ) ^ 2

/-! ## Graph

The nodes as functions of the inputs `h`, sections with derivatives, Jacobian with derivative, gradient, and degree. -/

/-- The values `s`, `s_1`, `s_2` of the sections and their derivatives, `cyjax/donaldson.py:364-372`:
`s_1[α, i] = ∂_i s_α` and `s_2[α, i, j] = ∂_j ∂_i s_α`. -/
structure Jet (N n : ℕ) where
  s : Fin N → ℂ
  s1 : Fin N → Fin n → ℂ
  s2 : Fin N → Fin n → Fin n → ℂ

namespace Graph

variable (h : HArg N) (S : Jet N n) (degree : ℕ)

/-- Node `psi`. -/
noncomputable def psi : ℂ := Donaldson.psi h S.s (conjS S.s)
/-- Node `kahler`. -/
noncomputable def kahler : ℂ := Donaldson.kahler (psi h S) degree
/-- Node `psi_h`. -/
noncomputable def psiH : Fin n → ℂ := Donaldson.psiH h S.s1 (conjS S.s)
/-- Node `psi_a`. -/
noncomputable def psiA : Fin n → ℂ := Donaldson.psiA (psiH h S)
/-- Node `psi_ha`. -/
noncomputable def psiHA : Fin n → Fin n → ℂ := Donaldson.psiHA h S.s1 (conjS1 S.s1)
/-- Node `psi_hh`. -/
noncomputable def psiHH : Except PyErr (Fin n → Fin n → ℂ) := Donaldson.psiHH h S.s2 (conjS S.s)
/-- Node `psi_hha`. -/
noncomputable def psiHHA : Fin n → Fin n → Fin n → ℂ := Donaldson.psiHHA h S.s2 (conjS1 S.s1)
/-- Node `psi_hhaa`. -/
noncomputable def psiHHAA : Fin n → Fin n → Fin n → Fin n → ℂ := Donaldson.psiHHAA h S.s2 (conjS2 S.s2)
/-- Node `g_proj`. -/
noncomputable def gProj : Matrix (Fin n) (Fin n) ℂ :=
  Donaldson.gProj (psi h S) (psiH h S) (psiA h S) (psiHA h S) degree
/-- Node `two_hha`. -/
noncomputable def twoHHA : Except PyErr (Fin n → Fin n → Fin n → ℂ) := do
  let psiHH ← psiHH h S
  return Donaldson.twoHHA (psiA h S) psiHH (psiHpsiHA (psiH h S) (psiHA h S))
/-- Node `g_proj_h`. -/
noncomputable def gProjH : Except PyErr (Fin n → Fin n → Fin n → ℂ) := do
  let two ← twoHHA h S
  return Donaldson.gProjH (psi h S) (psiHHA h S) two (threeHHA (psiH h S) (psiA h S)) degree
/-- Node `g_proj_a`. -/
noncomputable def gProjA : Except PyErr (Fin n → Fin n → Fin n → ℂ) := do
  let gH ← gProjH h S degree
  return Donaldson.gProjA gH
/-- Node `g_proj_ha`. -/
noncomputable def gProjHA : Except PyErr (Fin n → Fin n → Fin n → Fin n → ℂ) := do
  let psiHH ← psiHH h S
  let twoHHA ← twoHHA h S
  let psiAA := Donaldson.psiAA psiHH
  let two := twoHAHA psiHH psiAA (psiHApsiHA (psiHA h S)) (psiHHApsiA (psiA h S) (psiHHA h S))
  let three := threeHAHA (psiH h S) (psiA h S) psiAA twoHHA (psiHpsiHA (psiH h S) (psiHA h S))
  let four := fourHAHA (psiA h S) (threeHHA (psiH h S) (psiA h S))
  return Donaldson.gProjHA (psi h S) (psiHHAA h S) two three four degree

/-- The remaining inputs: the gradient `grad_def` of the defining polynomial (`cyjax/donaldson.py:599-601`), the index
`dependent` and the derivative `jac_h[r, i, a] = ∂_a J_ri` of the Jacobian (`cyjax/donaldson.py:615-618`). -/
structure Emb (n : ℕ) where
  gradDef : Fin (n + 1) → ℂ
  dependent : ℤ
  jacH : Fin n → Fin (n + 1) → Fin (n + 1) → ℂ

variable (S : Jet N (n + 1)) (E : Emb n)

/-- Node `jac`, `cyjax/donaldson.py:604-606`. -/
noncomputable def jac : Matrix (Fin n) (Fin (n + 1)) ℂ := Differential.jacobianEmbed E.gradDef E.dependent
/-- Node `jac_c`, `cyjax/donaldson.py:609-611`. -/
noncomputable def jacC : Matrix (Fin n) (Fin (n + 1)) ℂ := Matrix.of fun r i => conj (jac E r i)
/-- Node `g_loc`. -/
noncomputable def gLoc : Matrix (Fin n) (Fin n) ℂ := Donaldson.gLoc (gProj h S degree) (jac E) (jacC E)
/-- Node `g_loc_inv`. -/
noncomputable def gLocInv : Matrix (Fin n) (Fin n) ℂ := Donaldson.gLocInv (gLoc h degree S E)
/-- Node `g_loc_h`. -/
noncomputable def gLocH : Except PyErr (Fin (n + 1) → Fin n → Fin n → ℂ) := do
  let gH ← gProjH h S degree
  return Donaldson.gLocH (gProj h S degree) gH (jac E) E.jacH (jacC E)
/-- Node `g_loc_a`. -/
noncomputable def gLocA : Except PyErr (Fin (n + 1) → Fin n → Fin n → ℂ) := do
  let gH ← gLocH h degree S E
  return Donaldson.gLocA gH
/-- Node `g_loc_ha`. -/
noncomputable def gLocHA : Except PyErr (Fin (n + 1) → Fin (n + 1) → Fin n → Fin n → ℂ) := do
  let gA ← gProjA h S degree
  let gH ← gProjH h S degree
  let gHA ← gProjHA h S degree
  return Donaldson.gLocHA (gProj h S degree) gA gH gHA (jac E) (jacC E) E.jacH
/-- Node `ricci_proj`. -/
noncomputable def ricciProj : Except PyErr (Matrix (Fin (n + 1)) (Fin (n + 1)) ℂ) := do
  let gH ← gLocH h degree S E
  let gA ← gLocA h degree S E
  let gHA ← gLocHA h degree S E
  return Donaldson.ricciProj gH gA gHA (gLocInv h degree S E)
/-- Node `ricci_loc`. -/
noncomputable def ricciLoc : Except PyErr (Matrix (Fin n) (Fin n) ℂ) := do
  let r ← ricciProj h degree S E
  return Donaldson.ricciLoc r (jac E) (jacC E)
/-- Node `ricci_scalar`. -/
noncomputable def ricciScalar : Except PyErr ℂ := do
  let r ← ricciLoc h degree S E
  return Donaldson.ricciScalar r (gLocInv h degree S E)
/-- Node `eta`. -/
noncomputable def eta : ℂ := Donaldson.eta (gLoc h degree S E) E.gradDef E.dependent

end Graph

end Cyjax.Donaldson
