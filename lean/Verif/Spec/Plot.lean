import Verif.Model.Plot
import Verif.Spec.Nd
import Mathlib.Algebra.BigOperators.Finprod
import Mathlib.SetTheory.Cardinal.Finite

/-! # Specification: summaries of parts of an array, and pixels of an image -/

namespace Cyjax.Spec

open Cyjax.TrainScript

/-- The entry of an array at a multi-index. -/
def entryAt (shape : List ℕ) (data : List ℝ) (idx : List ℕ) : ℝ := data.getD (ndOffset shape idx) 0

/-- `v` is the least, greatest or mean value of `f` on `S`. -/
def Summarises : Marg → Set (List ℕ) → (List ℕ → ℝ) → ℝ → Prop
  | .min, S, f, v => IsLeast (f '' S) v
  | .max, S, f, v => IsGreatest (f '' S) v
  | .mean, S, f, v => v = (∑ᶠ idx ∈ S, f idx) / (Nat.card S : ℝ)

/-- The `i`-th point of `n` equally spaced ones from `-r` to `r`. -/
noncomputable def gridPoint (r : ℝ) (n i : ℕ) : ℝ := -r + i * (2 * r / ((n : ℝ) - 1))

/-- Left border of pixel `i` if the interval from `lo` to `hi` is divided into `n` pixels; the right border is that of the next
one. -/
noncomputable def pixelBorder (lo hi : ℝ) (n i : ℕ) : ℝ := lo + i * ((hi - lo) / n)

/-- Centre of pixel `i`. -/
noncomputable def pixelCentre (lo hi : ℝ) (n i : ℕ) : ℝ := (pixelBorder lo hi n i + pixelBorder lo hi n (i + 1)) / 2

end Cyjax.Spec
