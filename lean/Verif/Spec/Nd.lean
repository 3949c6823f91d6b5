import Verif.Model.UtilMisc

/-! # Specification: entries of an n-dimensional array by multi-index -/

namespace Cyjax

/-- Row-major position of a multi-index in an array of the given shape. -/
def ndOffset : List ℕ → List ℕ → ℕ
  | _ :: sh, i :: is => i * sh.prod + ndOffset sh is
  | _, _ => 0

/-- A multi-index is in range: same length as the shape and every entry below the axis size. -/
inductive NdValid : List ℕ → List ℕ → Prop
  | nil : NdValid [] []
  | cons {s i : ℕ} {sh is : List ℕ} : i < s → NdValid sh is → NdValid (s :: sh) (i :: is)

/-- `a[i0, i1, …]`; `none` if the position is out of range. -/
def Util.Nd.get {α : Type*} (a : Util.Nd α) (idx : List ℕ) : Option α :=
  if h : ndOffset a.shape idx < a.shape.prod then some (a.data ⟨_, h⟩) else none

end Cyjax
