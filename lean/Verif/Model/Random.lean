import Verif.Model.Projective
import Mathlib.Analysis.SpecialFunctions.Pow.Real
import Mathlib.Analysis.SpecialFunctions.Complex.Circle

/-! # Model of `cyjax/random.py`

Random draws are arguments: `jax.random.uniform` gives numbers in `[0, 1)` (or in the interval it is called with),
`jax.random.normal` any real numbers. Leading axes of the requested shape are independent repetitions, so each function
is modelled for one entry or one row. -/

namespace Cyjax.Random

open Cyjax.Projective
open scoped BigOperators

/-- `uniform_components`, `cyjax/random.py:25-45`, one entry; `r` and `i` are drawn from `[-1, 1)`. -/
noncomputable def uniformComponents (r i : ℝ) : ℂ := (r : ℂ) + Complex.I * (i : ℂ)

/-- `uniform_angle`, `cyjax/random.py:48-71`, one entry. -/
noncomputable def uniformAngle (minrad maxrad : ℝ) (randA randR : ℝ) : ℂ :=
  let rad := Real.sqrt (minrad ^ 2 + randR * (maxrad ^ 2 - minrad ^ 2))
  (rad : ℂ) * Complex.exp (2 * Complex.I * Real.pi * randA)

/-- `uniform_angle_unit`, `cyjax/random.py:74-88`, one entry. -/
noncomputable def uniformAngleUnit (rand : ℝ) : ℂ := Complex.exp (2 * Complex.I * Real.pi * rand)

/-- `real_sphere`, `cyjax/random.py:91-113`, one row of normal draws. -/
noncomputable def realSphere {n : ℕ} (points : Fin n → ℝ) : Fin n → ℝ :=
  fun i => points i / Real.sqrt (∑ j, points j ^ 2)

/-- `real_sphere` for the empty shape, `cyjax/random.py:110-111`. -/
def realSphereScalar : ℝ := 1

/-- `complex_sphere`, `cyjax/random.py:116-139`, one row: `2 * dim` normal draws. -/
noncomputable def complexSphere {n : ℕ} (points : Fin (2 * n) → ℝ) : Fin n → ℂ :=
  let pts := realSphere points
  fun i => (pts ⟨i, by omega⟩ : ℂ) + Complex.I * (pts ⟨n + i, by omega⟩ : ℂ)

/-- `complex_sphere` for the empty shape, `cyjax/random.py:135-136`. -/
def complexSphereScalar : ℂ := 1

/-- `uniform_projective(affine=False)`, `cyjax/random.py:143-167`, one row. -/
noncomputable def uniformProjectiveHom {n : ℕ} (points : Fin (2 * (n + 1)) → ℝ) : Fin (n + 1) → ℂ :=
  complexSphere points

/-- `uniform_projective(affine=True)`, `cyjax/random.py:143-167`, one row: affine coordinates and patch. -/
noncomputable def uniformProjective {n : ℕ} (points : Fin (2 * (n + 1)) → ℝ) : (Fin n → ℂ) × Fin (n + 1) :=
  homToAffineAuto (complexSphere points)

/-- `x.at[other].set(v)` for an integer index: a negative index counts from the end, an index out of range changes
nothing. -/
def setAt {α : Type*} {n : ℕ} (x : Fin n → α) (other : ℤ) (v : α) : Fin n → α :=
  fun i => if (if other < 0 then other + n else other) = (i : ℕ) then v else x i

/-- `projective_overlap`, `cyjax/random.py:170-209`, one row: `dim` draws for the radii and for the angles. The radius
draw of column zero is also the one for `rad_0`. -/
noncomputable def projectiveOverlap : {dim : ℕ} → (thisPatch otherPatch : ℤ) → (patchSize : ℝ) →
    (randR randA : Fin dim → ℝ) → Fin dim → ℂ
  | 0, _, _, _, _, _ => Fin.elim0
  | _ + 1, thisPatch, otherPatch, patchSize, randR, randA =>
    let other := indexHomToAffine thisPatch otherPatch
    let logRadMin := Real.log (1 / patchSize)
    let rad0 := Real.exp (logRadMin + (Real.log patchSize - logRadMin) * randR 0)
    let radMax := min (patchSize * rad0) patchSize
    let radAll := fun i => radMax * Real.sqrt (randR i)
    let radAll := setAt radAll other rad0
    fun i => (radAll i : ℂ) * Complex.exp (2 * Complex.I * Real.pi * randA i)

end Cyjax.Random
