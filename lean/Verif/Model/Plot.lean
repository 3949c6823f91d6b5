import Verif.Model.TrainScript

/-! # Model of the plots of the training script, `scripts/train.py:45-125`

A plot is the list of its panels with the data drawn in them. An array is its shape and its entries in row-major order. Left
out: colours, legend text, layout, sharing of axes. Only the call of the script is modelled, with `fig`, `vmin` and `vmax` not
given. -/

namespace Cyjax.TrainScript

open Cyjax.Polynomial (PyErr)

/-- The functions the script passes as `marg2d`, `scripts/train.py:264-273`. -/
inductive Marg where
  | min | max | mean

/-- `np.min`, `np.max` and `np.mean` of the given numbers. `np.min` and `np.max` raise for no numbers; simplification: so does
the mean (numpy returns nan), which is never reached because line 49 raises before. -/
noncomputable def Marg.apply : Marg → List ℝ → Except PyErr ℝ
  | _, [] => .error .valueError
  | .min, x :: l => .ok (l.foldl Min.min x)
  | .max, x :: l => .ok (l.foldl Max.max x)
  | .mean, x :: l => .ok ((x :: l).sum / ((x :: l).length : ℝ))

/-- The entries of an array that a reduction over all axes but those in `keep` combines to the entry `out` of its result. -/
def keptEntries (shape : List ℕ) (data : List ℝ) (keep out : List ℕ) : List ℝ :=
  (((indices shape).zip data).filter fun x => keep.map (fun k => x.1.getD k 0) = out).map Prod.snd

/-- `np.linspace(a, b, n)`. -/
noncomputable def linspace (a b : ℝ) (n : ℕ) : List ℝ :=
  (List.range n).map fun i : ℕ => a + (i : ℝ) * ((b - a) / ((n : ℝ) - 1))

/-- One panel on the diagonal, `scripts/train.py:56-78`. -/
structure Curve where
  /-- row and column in the grid of panels -/
  loc : ℕ × ℕ
  /-- horizontal positions -/
  xvals : List ℝ
  /-- lower border of the band -/
  smin : List ℝ
  /-- upper border of the band -/
  smax : List ℝ
  /-- the line -/
  smean : List ℝ
  /-- limits of the vertical axis -/
  ylim : ℝ × ℝ
  /-- label of the horizontal axis: `Re` or `Im` (0 or 1) of which parameter -/
  xlabel : Option (ℕ × String)

/-- One panel below the diagonal, `scripts/train.py:80-107`. -/
structure Image where
  /-- row and column in the grid of panels -/
  loc : ℕ × ℕ
  /-- rows of the image, the first one at the bottom (`origin='lower'`) -/
  rows : List (List ℝ)
  /-- left, right, bottom and top of the image -/
  extent : ℝ × ℝ × ℝ × ℝ
  /-- limits of the colours -/
  clim : ℝ × ℝ
  /-- label of the horizontal axis -/
  xlabel : Option (ℕ × String)
  /-- label of the vertical axis -/
  ylabel : Option (ℕ × String)

/-- `_cart(zip(ranges, params), range(2))`, `scripts/train.py:56,81-82`. -/
def plotAxes (ranges : List ℝ) (params : List String) : List ((ℝ × String) × ℕ) :=
  (ranges.zip params).flatMap fun x => (List.range 2).map fun part => (x, part)

/-- The body of the first loop, `scripts/train.py:56-78`. `plt.subplot2grid` raises outside of the grid of panels. -/
noncomputable def plotCurve (shape : List ℕ) (data : List ℝ) (vmin vmax : ℝ) (ax : (ℝ × String) × ℕ) (i : ℕ) :
    Except PyErr Curve := do
  let count := shape.length
  if count ≤ i then throw .indexError
  let size := shape.getD i 0
  let xvals := linspace (-ax.1.1) ax.1.1 size
  let smean ← (List.range size).mapM fun a => Marg.mean.apply (keptEntries shape data [i] [a])
  let smin ← (List.range size).mapM fun a => Marg.min.apply (keptEntries shape data [i] [a])
  let smax ← (List.range size).mapM fun a => Marg.max.apply (keptEntries shape data [i] [a])
  return { loc := (i, i), xvals, smin, smax, smean, ylim := (vmin, vmax)
           xlabel := if i = count - 1 then some (ax.2, ax.1.2) else none }

/-- The body of the second loop for `i < j`, `scripts/train.py:86-107`. `marg` has the shape of the axes `i` and `j`, and
`marg.T` is drawn. -/
noncomputable def plotImage (shape : List ℕ) (data : List ℝ) (marg2d : Marg) (vmin vmax : ℝ) (ax1 : (ℝ × String) × ℕ) (i : ℕ)
    (ax2 : (ℝ × String) × ℕ) (j : ℕ) : Except PyErr Image := do
  let count := shape.length
  if count ≤ j then throw .indexError
  let n1 := shape.getD i 0
  let n2 := shape.getD j 0
  let rows ← (List.range n2).mapM fun b => (List.range n1).mapM fun a => marg2d.apply (keptEntries shape data [i, j] [a, b])
  let r1 := ax1.1.1
  let r2 := ax2.1.1
  let delta1 := (2 * r1) / n1 / 2
  let delta2 := (2 * r2) / n2 / 2
  return { loc := (j, i), rows, extent := (-r1 - delta1, r1 + delta1, -r2 - delta2, r2 + delta2), clim := (vmin, vmax)
           ylabel := if j = 0 then some (ax1.2, ax1.1.2) else none
           xlabel := if i = count - 1 then some (ax2.2, ax2.1.2) else none }

/-- `plot_accuracies`, `scripts/train.py:45-125`: the panels on the diagonal and below. The legend needs a second column of
panels (line 111), the colour bar at least one image (line 123). -/
noncomputable def plotAccuracies (shape : List ℕ) (data : List ℝ) (ranges : List ℝ) (params : List String) (marg2d : Marg) :
    Except PyErr (List Curve × List Image) := do
  let vmin ← Marg.min.apply data
  let vmax ← Marg.max.apply data
  let axs := (plotAxes ranges params).zipIdx
  let curves ← axs.mapM fun x => plotCurve shape data vmin vmax x.1 x.2
  let pairs := axs.flatMap fun x => (axs.filter fun y => ¬ x.2 ≥ y.2).map fun y => (x, y)
  let images ← pairs.mapM fun p => plotImage shape data marg2d vmin vmax p.1.1 p.1.2 p.2.1 p.2.2
  if shape.length < 2 then throw .indexError
  if images = [] then throw .attributeError
  return (curves, images)

end Cyjax.TrainScript
