import Verif.Lemmas.Plot
import Verif.Props.TrainScript
import Mathlib.Data.List.Pairwise
import Mathlib.Tactic.FieldSimp
import Mathlib.Tactic.Positivity

/-! # The plots of the training script (C154) -/

namespace Cyjax

open Cyjax.TrainScript
open Cyjax.Polynomial (PyErr)
open Cyjax.Spec

private theorem mapM_exists {α β : Type*} (f : α → Except PyErr β) : ∀ l : List α, (∀ a ∈ l, ∃ b, f a = .ok b) →
    ∃ r, l.mapM f = .ok r ∧ r.length = l.length ∧ ∀ (k : ℕ) (a : α), l[k]? = some a → ∃ b, r[k]? = some b ∧ f a = .ok b
  | [], _ => ⟨[], rfl, rfl, by simp⟩
  | a :: l, h => by
    obtain ⟨b, hb⟩ := h a (by simp)
    obtain ⟨r, hr, hl, hk⟩ := mapM_exists f l fun x hx => h x (by simp [hx])
    refine ⟨b :: r, ?_, by simp [hl], fun k x hx => ?_⟩
    · rw [List.mapM_cons, hb, hr]
      rfl
    · cases k with
      | zero =>
        simp only [List.getElem?_cons_zero, Option.some.injEq] at hx ⊢
        exact ⟨b, rfl, hx ▸ hb⟩
      | succ k =>
        simp only [List.getElem?_cons_succ] at hx ⊢
        exact hk k x hx

/-- What the panel on the diagonal for axis `i` has to show: over the `n` equally spaced positions from `-r` to `r` the mean, the
least and the greatest of all accuracies whose position on axis `i` is the given one. -/
def ShowsAxis (shape : List ℕ) (data : List ℝ) (r : ℝ) (i : ℕ) (c : Curve) : Prop :=
  c.loc = (i, i) ∧ c.xvals.length = shape.getD i 0 ∧ c.smean.length = shape.getD i 0 ∧ c.smin.length = shape.getD i 0 ∧
    c.smax.length = shape.getD i 0 ∧
    ∀ a < shape.getD i 0, ∃ lo mid hi, c.xvals[a]? = some (gridPoint r (shape.getD i 0) a) ∧
      c.smin[a]? = some lo ∧ Summarises .min {idx | NdValid shape idx ∧ idx.getD i 0 = a} (entryAt shape data) lo ∧
      c.smean[a]? = some mid ∧ Summarises .mean {idx | NdValid shape idx ∧ idx.getD i 0 = a} (entryAt shape data) mid ∧
      c.smax[a]? = some hi ∧ Summarises .max {idx | NdValid shape idx ∧ idx.getD i 0 = a} (entryAt shape data) hi

/-- What the panel below the diagonal for the axes `i` (horizontal) and `j` (vertical) has to show: pixel `a` from the left and
`b` from the bottom is the summary of all accuracies with these positions on the two axes. -/
def ShowsAxes (shape : List ℕ) (data : List ℝ) (marg : Marg) (i j : ℕ) (im : Image) : Prop :=
  im.loc = (j, i) ∧ im.rows.length = shape.getD j 0 ∧
    ∀ b < shape.getD j 0, ∃ row, im.rows[b]? = some row ∧ row.length = shape.getD i 0 ∧
      ∀ a < shape.getD i 0, ∃ v, row[a]? = some v ∧
        Summarises marg {idx | NdValid shape idx ∧ idx.getD i 0 = a ∧ idx.getD j 0 = b} (entryAt shape data) v

private theorem curve_ok (shape : List ℕ) (data : List ℝ) (hlen : data.length = shape.prod) (hpos : ∀ s ∈ shape, 0 < s)
    (vmin vmax : ℝ) (ax : (ℝ × String) × ℕ) (i : ℕ) (hi : i < shape.length) :
    ∃ c, plotCurve shape data vmin vmax ax i = .ok c ∧ ShowsAxis shape data ax.1.1 i c ∧ c.ylim = (vmin, vmax) ∧
      c.xlabel = if i = shape.length - 1 then some (ax.2, ax.1.2) else none := by
  have hset : ∀ a, keptSet shape [i] [a] = {idx | NdValid shape idx ∧ idx.getD i 0 = a} := by
    intro a
    ext idx
    simp [keptSet]
  have hne : ∀ a < shape.getD i 0, (keptSet shape [i] [a]).Nonempty := by
    intro a ha
    refine ⟨_, kept_nonempty shape hpos (fun k => if k = i then a else 0) (fun k _ => ?_), by simp [hi]⟩
    by_cases hk : k = i
    · left; simpa [hk] using ha
    · right; simp [hk]
  have hm : ∀ m : Marg, ∃ r, (List.range (shape.getD i 0)).mapM (fun a => m.apply (keptEntries shape data [i] [a])) = .ok r ∧
      r.length = shape.getD i 0 ∧ ∀ a < shape.getD i 0, ∃ v, r[a]? = some v ∧
        Summarises m {idx | NdValid shape idx ∧ idx.getD i 0 = a} (entryAt shape data) v := by
    intro m
    obtain ⟨r, h1, h2, h3⟩ := mapM_exists (fun a => m.apply (keptEntries shape data [i] [a])) (List.range (shape.getD i 0))
      (fun a ha => by
        obtain ⟨v, hv, -⟩ := marg_kept m shape data hlen [i] [a] (hne a (List.mem_range.1 ha))
        exact ⟨v, hv⟩)
    refine ⟨r, h1, by simpa using h2, fun a ha => ?_⟩
    obtain ⟨b, hb, hb'⟩ := h3 a a (List.getElem?_range ha)
    obtain ⟨v, hv, hv'⟩ := marg_kept m shape data hlen [i] [a] (hne a ha)
    have : b = v := Except.ok.inj (hb'.symm.trans hv)
    subst this
    exact ⟨b, hb, hset a ▸ hv'⟩
  obtain ⟨r1, e1, l1, p1⟩ := hm .mean
  obtain ⟨r2, e2, l2, p2⟩ := hm .min
  obtain ⟨r3, e3, l3, p3⟩ := hm .max
  refine ⟨{ loc := (i, i), xvals := linspace (-ax.1.1) ax.1.1 (shape.getD i 0), smin := r2, smax := r3, smean := r1
            ylim := (vmin, vmax), xlabel := if i = shape.length - 1 then some (ax.2, ax.1.2) else none }, ?_, ?_, rfl, rfl⟩
  · unfold plotCurve
    simp only [if_neg (not_le.2 hi), e1, e2, e3, bind, Except.bind, pure, Except.pure]
  · refine ⟨rfl, by simp [linspace], l1, l2, l3, fun a ha => ?_⟩
    obtain ⟨v1, g1, s1⟩ := p1 a ha
    obtain ⟨v2, g2, s2⟩ := p2 a ha
    obtain ⟨v3, g3, s3⟩ := p3 a ha
    refine ⟨v2, v1, v3, ?_, g2, s2, g1, s1, g3, s3⟩
    unfold linspace gridPoint
    rw [List.getElem?_map, List.getElem?_range ha, Option.map_some]
    congr 3
    ring

private theorem image_ok (shape : List ℕ) (data : List ℝ) (hlen : data.length = shape.prod) (hpos : ∀ s ∈ shape, 0 < s)
    (m : Marg) (vmin vmax : ℝ) (ax1 ax2 : (ℝ × String) × ℕ) (i j : ℕ) (hij : i < j) (hj : j < shape.length) :
    ∃ im, plotImage shape data m vmin vmax ax1 i ax2 j = .ok im ∧ ShowsAxes shape data m i j im ∧ im.clim = (vmin, vmax) ∧
      im.extent = (-ax1.1.1 - (2 * ax1.1.1) / (shape.getD i 0 : ℕ) / 2, ax1.1.1 + (2 * ax1.1.1) / (shape.getD i 0 : ℕ) / 2,
        -ax2.1.1 - (2 * ax2.1.1) / (shape.getD j 0 : ℕ) / 2, ax2.1.1 + (2 * ax2.1.1) / (shape.getD j 0 : ℕ) / 2) ∧
      im.xlabel = none ∧ im.ylabel = none := by
  have hset : ∀ a b, keptSet shape [i, j] [a, b] = {idx | NdValid shape idx ∧ idx.getD i 0 = a ∧ idx.getD j 0 = b} := by
    intro a b
    ext idx
    simp [keptSet]
  have hne : ∀ a < shape.getD i 0, ∀ b < shape.getD j 0, (keptSet shape [i, j] [a, b]).Nonempty := by
    intro a ha b hb
    refine ⟨_, kept_nonempty shape hpos (fun k => if k = i then a else if k = j then b else 0) (fun k _ => ?_), ?_⟩
    · by_cases hk : k = i
      · left; simpa [hk] using ha
      · by_cases hk' : k = j
        · left; simpa [hk', hij.ne'] using hb
        · right; simp [hk, hk']
    · simp [hj, hij.trans hj, hij.ne']
  have hrow : ∀ b < shape.getD j 0, ∃ r, (List.range (shape.getD i 0)).mapM
      (fun a => m.apply (keptEntries shape data [i, j] [a, b])) = .ok r ∧
      r.length = shape.getD i 0 ∧ ∀ a < shape.getD i 0, ∃ v, r[a]? = some v ∧
        Summarises m {idx | NdValid shape idx ∧ idx.getD i 0 = a ∧ idx.getD j 0 = b} (entryAt shape data) v := by
    intro b hb
    obtain ⟨r, h1, h2, h3⟩ := mapM_exists (fun a => m.apply (keptEntries shape data [i, j] [a, b]))
      (List.range (shape.getD i 0)) (fun a ha => by
        obtain ⟨v, hv, -⟩ := marg_kept m shape data hlen [i, j] [a, b] (hne a (List.mem_range.1 ha) b hb)
        exact ⟨v, hv⟩)
    refine ⟨r, h1, by simpa using h2, fun a ha => ?_⟩
    obtain ⟨v', hb1, hb'⟩ := h3 a a (List.getElem?_range ha)
    obtain ⟨v, hv, hv'⟩ := marg_kept m shape data hlen [i, j] [a, b] (hne a ha b hb)
    have : v' = v := Except.ok.inj (hb'.symm.trans hv)
    subst this
    exact ⟨v', hb1, hset a b ▸ hv'⟩
  obtain ⟨rows, h1, h2, h3⟩ := mapM_exists (fun b => (List.range (shape.getD i 0)).mapM
      (fun a => m.apply (keptEntries shape data [i, j] [a, b]))) (List.range (shape.getD j 0)) (fun b hb => by
    obtain ⟨r, hr, -⟩ := hrow b (List.mem_range.1 hb)
    exact ⟨r, hr⟩)
  refine ⟨{ loc := (j, i), rows := rows, extent := (-ax1.1.1 - (2 * ax1.1.1) / (shape.getD i 0 : ℕ) / 2,
              ax1.1.1 + (2 * ax1.1.1) / (shape.getD i 0 : ℕ) / 2,
              -ax2.1.1 - (2 * ax2.1.1) / (shape.getD j 0 : ℕ) / 2, ax2.1.1 + (2 * ax2.1.1) / (shape.getD j 0 : ℕ) / 2)
            clim := (vmin, vmax), xlabel := none, ylabel := none }, ?_, ⟨rfl, by simpa using h2, fun b hb => ?_⟩, rfl, rfl, rfl,
            rfl⟩
  · unfold plotImage
    simp only [if_neg (not_le.2 hj), h1, bind, Except.bind, pure, Except.pure, if_neg (show ¬ j = 0 by omega),
      if_neg (show ¬ i = shape.length - 1 by omega)]
  · obtain ⟨row, g1, g2⟩ := h3 b b (List.getElem?_range hb)
    obtain ⟨r, hr, hl, hv⟩ := hrow b hb
    have : row = r := Except.ok.inj (g2.symm.trans hr)
    subst this
    exact ⟨row, g1, hl, hv⟩

private theorem axes_get (ranges : List ℝ) (params : List String) (hr : ranges.length = params.length) :
    (plotAxes ranges params).length = 2 * params.length ∧ ∀ i < 2 * params.length,
      (plotAxes ranges params)[i]? = some ((ranges.getD (i / 2) 0, params.getD (i / 2) ""), i % 2) := by
  induction params generalizing ranges with
  | nil => simp [plotAxes]
  | cons p params ih =>
    cases ranges with
    | nil => simp at hr
    | cons r ranges =>
      obtain ⟨h1, h2⟩ := ih ranges (by simpa using hr)
      have hcons : plotAxes (r :: ranges) (p :: params) = ((r, p), 0) :: ((r, p), 1) :: plotAxes ranges params := by
        simp [plotAxes, List.range_succ]
      rw [hcons]
      refine ⟨by simp [h1]; ring, fun i hi => ?_⟩
      match i with
      | 0 => simp
      | 1 => simp
      | i + 2 =>
        have e1 : (i + 2) / 2 = i / 2 + 1 := by omega
        have e2 : (i + 2) % 2 = i % 2 := by omega
        rw [List.getElem?_cons_succ, List.getElem?_cons_succ, h2 i (by simp at hi; omega), e1, e2]
        simp

private theorem marg_data (m : Marg) (data : List ℝ) (hne : data ≠ []) : ∃ v, m.apply data = .ok v := by
  obtain ⟨x, l, rfl⟩ := List.exists_cons_of_ne_nil hne
  cases m <;> exact ⟨_, rfl⟩

private theorem prod_pos' : ∀ (sh : List ℕ), (∀ s ∈ sh, 0 < s) → 0 < sh.prod
  | [], _ => by simp
  | s :: sh, h => by
    rw [List.prod_cons]
    exact Nat.mul_pos (h s (by simp)) (prod_pos' sh fun t ht => h t (by simp [ht]))

/-- The horizontal and the vertical extent of an image, as the code computes them. -/
private def HasExtent (shape : List ℕ) (ranges : List ℝ) (i j : ℕ) (im : Image) : Prop :=
  im.extent = (-ranges.getD (i / 2) 0 - (2 * ranges.getD (i / 2) 0) / (shape.getD i 0 : ℕ) / 2,
    ranges.getD (i / 2) 0 + (2 * ranges.getD (i / 2) 0) / (shape.getD i 0 : ℕ) / 2,
    -ranges.getD (j / 2) 0 - (2 * ranges.getD (j / 2) 0) / (shape.getD j 0 : ℕ) / 2,
    ranges.getD (j / 2) 0 + (2 * ranges.getD (j / 2) 0) / (shape.getD j 0 : ℕ) / 2)

private theorem plot_ok (shape : List ℕ) (data ranges : List ℝ) (params : List String) (marg : Marg)
    (hlen : data.length = shape.prod) (hpos : ∀ s ∈ shape, 0 < s) (hr : ranges.length = params.length)
    (hs : shape.length = 2 * params.length) (hne : params ≠ []) :
    ∃ curves images vmin vmax, plotAccuracies shape data ranges params marg = .ok (curves, images) ∧
      IsLeast {v | v ∈ data} vmin ∧ IsGreatest {v | v ∈ data} vmax ∧
      curves.length = shape.length ∧
      (∀ i < shape.length, ∃ c, curves[i]? = some c ∧ ShowsAxis shape data (ranges.getD (i / 2) 0) i c ∧ c.ylim = (vmin, vmax) ∧
        c.xlabel = if i = shape.length - 1 then some (i % 2, params.getD (i / 2) "") else none) ∧
      (∀ i j, i < j → j < shape.length → ∃ im ∈ images, im.loc = (j, i)) ∧
      (∀ im ∈ images, im.clim = (vmin, vmax) ∧ im.xlabel = none ∧ im.ylabel = none ∧ ∃ i j, i < j ∧ j < shape.length ∧
        ShowsAxes shape data marg i j im ∧ HasExtent shape ranges i j im) ∧
      (images.map Image.loc).Nodup := by
  have hdne : data ≠ [] := by
    rintro rfl
    have := prod_pos' shape hpos
    simp at hlen
    omega
  have hP : 0 < params.length := List.length_pos_iff.2 hne
  obtain ⟨x, l, hd⟩ := List.exists_cons_of_ne_nil hdne
  obtain ⟨hal, hag⟩ := axes_get ranges params hr
  set axs := (plotAxes ranges params).zipIdx with haxs
  have hget : ∀ i < shape.length, axs[i]? = some (((ranges.getD (i / 2) 0, params.getD (i / 2) ""), i % 2), i) := by
    intro i hi
    rw [haxs, List.getElem?_zipIdx, hag i (by omega)]
    simp
  have haxl : axs.length = shape.length := by rw [haxs, List.length_zipIdx, hal, hs]
  have hmem : ∀ y ∈ axs, ∃ i < shape.length, y = (((ranges.getD (i / 2) 0, params.getD (i / 2) ""), i % 2), i) := by
    intro y hy
    obtain ⟨i, hi⟩ := List.mem_iff_getElem?.1 hy
    have hil : i < shape.length := by
      rw [← haxl]
      exact (List.getElem?_eq_some_iff.1 hi).1
    exact ⟨i, hil, by rw [hget i hil] at hi; exact (Option.some.inj hi).symm⟩
  set vmin := l.foldl Min.min x
  set vmax := l.foldl Max.max x
  obtain ⟨curves, c1, c2, c3⟩ := mapM_exists (fun y => plotCurve shape data vmin vmax y.1 y.2) axs (fun y hy => by
    obtain ⟨i, hi, rfl⟩ := hmem y hy
    obtain ⟨c, hc, -⟩ := curve_ok shape data hlen hpos vmin vmax
      ((ranges.getD (i / 2) 0, params.getD (i / 2) ""), i % 2) i hi
    exact ⟨c, hc⟩)
  set pairs := axs.flatMap fun x => (axs.filter fun y => ¬ x.2 ≥ y.2).map fun y => (x, y) with hpairs
  have hpm : ∀ p ∈ pairs, p.1 ∈ axs ∧ p.2 ∈ axs ∧ p.1.2 < p.2.2 := by
    intro p hp
    rw [hpairs, List.mem_flatMap] at hp
    obtain ⟨y, hy, hp⟩ := hp
    obtain ⟨z, hz, rfl⟩ := List.mem_map.1 hp
    rw [List.mem_filter] at hz
    exact ⟨hy, hz.1, by simpa using hz.2⟩
  have hpm' : ∀ i j, i < j → j < shape.length →
      ((((ranges.getD (i / 2) 0, params.getD (i / 2) ""), i % 2), i),
        (((ranges.getD (j / 2) 0, params.getD (j / 2) ""), j % 2), j)) ∈ pairs := by
    intro i j hij hj
    rw [hpairs, List.mem_flatMap]
    refine ⟨_, List.mem_of_getElem? (hget i (hij.trans hj)), List.mem_map.2 ⟨_, ?_, rfl⟩⟩
    rw [List.mem_filter]
    exact ⟨List.mem_of_getElem? (hget j hj), by simpa using hij⟩
  have himg : ∀ p ∈ pairs, ∃ i j, i < j ∧ j < shape.length ∧ (p.2.2, p.1.2) = (j, i) ∧ ∃ im,
      plotImage shape data marg vmin vmax p.1.1 p.1.2 p.2.1 p.2.2 = .ok im ∧ ShowsAxes shape data marg i j im ∧
      HasExtent shape ranges i j im ∧ im.clim = (vmin, vmax) ∧ im.xlabel = none ∧ im.ylabel = none := by
    intro p hp
    obtain ⟨h1, h2, h3⟩ := hpm p hp
    obtain ⟨i, hi, e1⟩ := hmem _ h1
    obtain ⟨j, hj, e2⟩ := hmem _ h2
    rw [e1, e2] at h3
    obtain ⟨im, k1, k2, k3, k4, k5, k6⟩ := image_ok shape data hlen hpos marg vmin vmax p.1.1 p.2.1 i j h3 hj
    refine ⟨i, j, h3, hj, by rw [e1, e2], im, ?_, k2, ?_, k3, k5, k6⟩
    · rw [← k1, e1, e2]
    · unfold HasExtent
      rw [k4, e1, e2]
  obtain ⟨images, i1, i2, i3⟩ := mapM_exists
    (fun p : ((((ℝ × String) × ℕ) × ℕ) × (((ℝ × String) × ℕ) × ℕ)) =>
      plotImage shape data marg vmin vmax p.1.1 p.1.2 p.2.1 p.2.2) pairs
    (fun p hp => by
      obtain ⟨i, j, -, -, -, im, him, -⟩ := himg p hp
      exact ⟨im, him⟩)
  have hback : ∀ im ∈ images, ∃ p ∈ pairs, plotImage shape data marg vmin vmax p.1.1 p.1.2 p.2.1 p.2.2 = .ok im := by
    intro im him
    obtain ⟨k, hk⟩ := List.mem_iff_getElem?.1 him
    have hkl : k < pairs.length := by
      rw [← i2]
      exact (List.getElem?_eq_some_iff.1 hk).1
    obtain ⟨b, hb, hb'⟩ := i3 k _ (List.getElem?_eq_getElem hkl)
    rw [hk] at hb
    obtain rfl := Option.some.inj hb
    exact ⟨_, List.getElem_mem hkl, hb'⟩
  have hloc : images.map Image.loc = pairs.map fun p => (p.2.2, p.1.2) := by
    refine List.ext_getElem? fun k => ?_
    rw [List.getElem?_map, List.getElem?_map]
    by_cases hk : k < pairs.length
    · obtain ⟨b, hb, hb'⟩ := i3 k _ (List.getElem?_eq_getElem hk)
      obtain ⟨i, j, -, -, e, im, e1, e2, -⟩ := himg _ (List.getElem_mem hk)
      obtain rfl : b = im := Except.ok.inj (hb'.symm.trans e1)
      rw [hb, List.getElem?_eq_getElem hk, Option.map_some, Option.map_some, e, e2.1]
    · rw [List.getElem?_eq_none (by omega), List.getElem?_eq_none (by omega)]
      rfl
  have haxnd : (axs.map Prod.snd).Nodup := by
    rw [haxs, List.zipIdx_map_snd]
    exact List.nodup_range'
  have hfst := hpm' 0 1 (by omega) (by omega)
  refine ⟨curves, images, vmin, vmax, ?_, ?_, ?_, by rw [c2, haxl], fun i hi => ?_, fun i j hij hj => ?_, fun im him => ?_, ?_⟩
  · unfold plotAccuracies
    have e1 : Marg.min.apply data = .ok vmin := by rw [hd]; rfl
    have e2 : Marg.max.apply data = .ok vmax := by rw [hd]; rfl
    have hine : images ≠ [] := by
      intro h
      rw [h] at i2
      exact List.ne_nil_of_mem hfst (List.length_eq_zero_iff.1 i2.symm)
    simp only [e1, e2, bind, Except.bind, ← haxs, c1, ← hpairs, i1, if_neg (show ¬ shape.length < 2 by omega), if_neg hine,
      pure, Except.pure]
  · rw [hd]; exact foldl_min_least l x
  · rw [hd]; exact foldl_max_greatest l x
  · obtain ⟨c, hc, hc'⟩ := c3 i _ (hget i hi)
    obtain ⟨c', k1, k2, k3, k4⟩ := curve_ok shape data hlen hpos vmin vmax
      ((ranges.getD (i / 2) 0, params.getD (i / 2) ""), i % 2) i hi
    obtain rfl : c = c' := Except.ok.inj (hc'.symm.trans k1)
    exact ⟨c, hc, k2, k3, k4⟩
  · have : (j, i) ∈ images.map Image.loc := by
      rw [hloc]
      exact List.mem_map.2 ⟨_, hpm' i j hij hj, rfl⟩
    obtain ⟨im, him, e⟩ := List.mem_map.1 this
    exact ⟨im, him, e⟩
  · obtain ⟨p, hp, hp'⟩ := hback im him
    obtain ⟨i, j, hij, hj, -, im', e1, e2, e3, e4, e5, e6⟩ := himg p hp
    obtain rfl : im = im' := Except.ok.inj (hp'.symm.trans e1)
    exact ⟨e4, e5, e6, i, j, hij, hj, e2, e3⟩
  · rw [hloc, hpairs, List.map_flatMap, List.nodup_flatMap]
    have hax2 : axs.Pairwise fun a b => a.2 ≠ b.2 := by
      simpa [List.Nodup, List.pairwise_map] using haxnd
    refine ⟨fun y _ => ?_, hax2.imp fun {a b} hab => ?_⟩
    · rw [List.map_map, List.Nodup, List.pairwise_map]
      refine List.Pairwise.imp ?_ (List.Pairwise.filter _ hax2)
      intro a b hab h
      exact hab (Prod.mk.inj h).1
    · simp only [Function.onFun]
      intro z hz hz'
      simp only [List.map_map, List.mem_map, Function.comp_apply] at hz hz'
      obtain ⟨u, -, rfl⟩ := hz
      obtain ⟨w, -, e⟩ := hz'
      exact hab (Prod.mk.inj e).2.symm

/-- **C154.** For an array of accuracies with two axes for every parameter the function succeeds. There is one panel on the
diagonal for every axis and one panel below it for every pair of axes, and they show what they have to: mean and range over all
other axes, and the summary that was asked for. All panels have the same scale, the range of all accuracies. -/
theorem C154_plots (shape : List ℕ) (data ranges : List ℝ) (params : List String) (marg : Marg)
    (hlen : data.length = shape.prod) (hpos : ∀ s ∈ shape, 0 < s) (hr : ranges.length = params.length)
    (hs : shape.length = 2 * params.length) (hne : params ≠ []) :
    ∃ curves images vmin vmax, plotAccuracies shape data ranges params marg = .ok (curves, images) ∧
      IsLeast {v | v ∈ data} vmin ∧ IsGreatest {v | v ∈ data} vmax ∧
      curves.length = shape.length ∧
      (∀ i < shape.length, ∃ c, curves[i]? = some c ∧ ShowsAxis shape data (ranges.getD (i / 2) 0) i c ∧ c.ylim = (vmin, vmax)) ∧
      (∀ i j, i < j → j < shape.length → ∃ im ∈ images, ShowsAxes shape data marg i j im) ∧
      (∀ im ∈ images, im.clim = (vmin, vmax) ∧ ∃ i j, i < j ∧ j < shape.length ∧ im.loc = (j, i)) ∧
      (images.map Image.loc).Nodup := by
  obtain ⟨curves, images, vmin, vmax, h1, h2, h3, h4, h5, h6, h7, h8⟩ := plot_ok shape data ranges params marg hlen hpos hr hs hne
  refine ⟨curves, images, vmin, vmax, h1, h2, h3, h4, fun i hi => ?_, fun i j hij hj => ?_, fun im him => ?_, h8⟩
  · obtain ⟨c, k1, k2, k3, -⟩ := h5 i hi
    exact ⟨c, k1, k2, k3⟩
  · obtain ⟨im, him, e⟩ := h6 i j hij hj
    obtain ⟨-, -, -, i', j', -, -, k, -⟩ := h7 im him
    have : (j, i) = (j', i') := e.symm.trans k.1
    obtain ⟨rfl, rfl⟩ := Prod.mk.inj this
    exact ⟨im, him, k⟩
  · obtain ⟨k1, -, -, i, j, hij, hj, k, -⟩ := h7 im him
    exact ⟨k1, i, j, hij, hj, k.1⟩

/-- **C154, axes.** Together with the grid of the evaluation (C123): the horizontal position at which the panel of axis `i` shows a
value is the real part (even `i`) or imaginary part (odd `i`) of parameter `i / 2` of all the moduli whose accuracies are
combined in this value. -/
theorem C154_axes (bounds : List ℝ) (hb : ∀ r ∈ bounds, r ≠ 0) (hne : bounds ≠ []) (g : ℕ) (hg : 2 ≤ g) (data : List ℝ)
    (params : List String) (hp : params.length = bounds.length) (marg : Marg) :
    ∃ shape moduli, evaluationModuli bounds.length bounds g = .ok (shape, moduli) ∧ moduli.length = shape.prod ∧
      (data.length = moduli.length → ∃ curves images, plotAccuracies shape data bounds params marg = .ok (curves, images) ∧
        ∀ i < 2 * bounds.length, ∃ c, curves[i]? = some c ∧ ∀ idx, NdValid shape idx → ∃ m : List ℂ, ∃ z : ℂ,
          moduli[ndOffset shape idx]? = some m ∧ m[i / 2]? = some z ∧
          c.xvals[idx.getD i 0]? = some (if i % 2 = 0 then z.re else z.im)) := by
  obtain ⟨moduli, h1, h2, h3⟩ := C123_grid bounds hb hne g hg
  refine ⟨_, moduli, h1, by rw [h2, List.prod_replicate], fun hd => ?_⟩
  obtain ⟨curves, images, vmin, vmax, e, -, -, -, hc, -⟩ := C154_plots (List.replicate (2 * bounds.length) g) data bounds params
    marg (by rw [hd, h2, List.prod_replicate]) (fun s hs => by rw [List.eq_of_mem_replicate hs]; omega) hp.symm (by simp [hp])
    (by
      rintro rfl
      exact hne (List.length_eq_zero_iff.1 hp.symm))
  refine ⟨curves, images, e, fun i hi => ?_⟩
  obtain ⟨c, k1, k2, -⟩ := hc i (by simpa using hi)
  refine ⟨c, k1, fun idx hidx => ?_⟩
  have hi2 : i / 2 < bounds.length := by omega
  have hgi : (List.replicate (2 * bounds.length) g).getD i 0 = g := by simp [hi]
  have hlt : idx.getD i 0 < g := by
    have : ∀ {sh ix : List ℕ}, NdValid sh ix → ∀ k < sh.length, ix.getD k 0 < sh.getD k 0 := by
      intro sh ix hv
      induction hv with
      | nil => simp
      | cons hi _ ih =>
        intro k hk
        cases k with
        | zero => simpa using hi
        | succ k => simpa using ih k (by simpa using hk)
    have := this hidx i (by simpa using hi)
    rwa [hgi] at this
  refine ⟨_, _, h3 idx hidx, by rw [List.getElem?_ofFn, dif_pos hi2], ?_⟩
  obtain ⟨-, -, -, -, -, hx⟩ := k2
  obtain ⟨-, -, -, hx, -⟩ := hx (idx.getD i 0) (by rw [hgi]; exact hlt)
  rw [hx, hgi]
  unfold gridPoint
  rcases Nat.mod_two_eq_zero_or_one i with h | h
  · have e2 : 2 * (i / 2) = i := by omega
    rw [if_pos h]
    simp [e2, hi2]
  · have e2 : 2 * (i / 2) + 1 = i := by omega
    rw [if_neg (by omega)]
    simp [e2, hi2]

/-- The distance between the centre of a pixel and the grid point whose accuracy it shows. -/
private theorem pixel_distance (r : ℝ) (n a : ℕ) (hn : 2 ≤ n) :
    pixelCentre (-r - (2 * r) / (n : ℝ) / 2) (r + (2 * r) / (n : ℝ) / 2) n a - gridPoint r n a
      = r / (n : ℝ) ^ 2 * (1 - 2 * (a : ℝ) / ((n : ℝ) - 1)) := by
  have h1 : (2 : ℝ) ≤ n := by exact_mod_cast hn
  have h2 : (n : ℝ) - 1 ≠ 0 := by linarith
  have h3 : (n : ℝ) ≠ 0 := by linarith
  unfold pixelCentre pixelBorder gridPoint
  push_cast
  field_simp
  ring

/-- **C154, pixels.** In every image the pixel with the accuracies of a grid point contains the grid point, horizontally and
vertically. Its centre differs from the grid point by at most `r / n²`, where `n` is the number of points of the axis. Missing:
the centre is not the grid point itself, see `C154_pixels_violated`. -/
theorem C154_pixels_partial (shape : List ℕ) (data ranges : List ℝ) (params : List String) (marg : Marg)
    (hlen : data.length = shape.prod) (hpos : ∀ s ∈ shape, 2 ≤ s) (hr : ranges.length = params.length)
    (hs : shape.length = 2 * params.length) (hne : params ≠ []) (hr0 : ∀ r ∈ ranges, 0 < r) :
    ∃ curves images, plotAccuracies shape data ranges params marg = .ok (curves, images) ∧ ∀ im ∈ images,
      ∃ left right bottom top i j, im.extent = (left, right, bottom, top) ∧ im.loc = (j, i) ∧
        (∀ a < shape.getD i 0, pixelBorder left right (shape.getD i 0) a < gridPoint (ranges.getD (i / 2) 0) (shape.getD i 0) a ∧
          gridPoint (ranges.getD (i / 2) 0) (shape.getD i 0) a < pixelBorder left right (shape.getD i 0) (a + 1) ∧
          |pixelCentre left right (shape.getD i 0) a - gridPoint (ranges.getD (i / 2) 0) (shape.getD i 0) a|
            ≤ ranges.getD (i / 2) 0 / (shape.getD i 0 : ℝ) ^ 2) ∧
        (∀ b < shape.getD j 0, pixelBorder bottom top (shape.getD j 0) b < gridPoint (ranges.getD (j / 2) 0) (shape.getD j 0) b ∧
          gridPoint (ranges.getD (j / 2) 0) (shape.getD j 0) b < pixelBorder bottom top (shape.getD j 0) (b + 1) ∧
          |pixelCentre bottom top (shape.getD j 0) b - gridPoint (ranges.getD (j / 2) 0) (shape.getD j 0) b|
            ≤ ranges.getD (j / 2) 0 / (shape.getD j 0 : ℝ) ^ 2) := by
  obtain ⟨curves, images, vmin, vmax, h1, -, -, -, -, -, h7, -⟩ := plot_ok shape data ranges params marg hlen
    (fun s hs => by have := hpos s hs; omega) hr hs hne
  refine ⟨curves, images, h1, fun im him => ?_⟩
  obtain ⟨-, -, -, i, j, hij, hj, k1, k2⟩ := h7 im him
  have key : ∀ (r : ℝ) (n a : ℕ), 0 < r → 2 ≤ n → a < n →
      pixelBorder (-r - (2 * r) / (n : ℝ) / 2) (r + (2 * r) / (n : ℝ) / 2) n a < gridPoint r n a ∧
      gridPoint r n a < pixelBorder (-r - (2 * r) / (n : ℝ) / 2) (r + (2 * r) / (n : ℝ) / 2) n (a + 1) ∧
      |pixelCentre (-r - (2 * r) / (n : ℝ) / 2) (r + (2 * r) / (n : ℝ) / 2) n a - gridPoint r n a| ≤ r / (n : ℝ) ^ 2 := by
    intro r n a hr hn ha
    have g1 : (2 : ℝ) ≤ n := by exact_mod_cast hn
    have g2 : (0 : ℝ) < (n : ℝ) - 1 := by linarith
    have g3 : (a : ℝ) ≤ (n : ℝ) - 1 := by
      have : (a : ℝ) + 1 ≤ n := by exact_mod_cast ha
      linarith
    have hq : 0 ≤ (a : ℝ) / ((n : ℝ) - 1) := by positivity
    have hq' : (a : ℝ) / ((n : ℝ) - 1) ≤ 1 := (div_le_one g2).2 g3
    have hd := pixel_distance r n a hn
    have hpos' : 0 < r / (n : ℝ) ^ 2 := by positivity
    have habs : |pixelCentre (-r - (2 * r) / (n : ℝ) / 2) (r + (2 * r) / (n : ℝ) / 2) n a - gridPoint r n a|
        ≤ r / (n : ℝ) ^ 2 := by
      rw [hd, abs_mul, abs_of_pos hpos']
      refine mul_le_of_le_one_right hpos'.le (abs_le.2 ⟨?_, ?_⟩) <;> rw [mul_div_assoc] <;> linarith
    have hw : ∀ lo hi : ℝ, pixelBorder lo hi n a = pixelCentre lo hi n a - (hi - lo) / n / 2 ∧
        pixelBorder lo hi n (a + 1) = pixelCentre lo hi n a + (hi - lo) / n / 2 := by
      intro lo hi
      unfold pixelCentre pixelBorder
      push_cast
      constructor <;> ring
    have hbig : r / (n : ℝ) ^ 2 < (r + (2 * r) / (n : ℝ) / 2 - (-r - (2 * r) / (n : ℝ) / 2)) / n / 2 := by
      have : (r + (2 * r) / (n : ℝ) / 2 - (-r - (2 * r) / (n : ℝ) / 2)) / n / 2 = r / n + r / (n : ℝ) ^ 2 := by
        field_simp
        ring
      rw [this]
      have : 0 < r / (n : ℝ) := by positivity
      linarith
    have := abs_le.1 habs
    refine ⟨?_, ?_, habs⟩
    · rw [(hw _ _).1]; linarith
    · rw [(hw _ _).2]; linarith
  have hr' : ∀ i < shape.length, 0 < ranges.getD (i / 2) 0 := by
    intro i hi
    have hl : i / 2 < ranges.length := by omega
    simpa [hl] using hr0 _ (List.getElem_mem hl)
  have hs' : ∀ i < shape.length, 2 ≤ shape.getD i 0 := by
    intro i hi
    simpa [hi] using hpos _ (List.getElem_mem hi)
  exact ⟨_, _, _, _, i, j, k2, k1.1, fun a ha => key _ _ a (hr' i (hij.trans hj)) (hs' i (hij.trans hj)) ha,
    fun b hb => key _ _ b (hr' j hj) (hs' j hj) hb⟩

/-- **C154, pixels.** The extent of the images is wrong: half the width of a pixel should be `r / (n - 1)`, the code takes `r / n`.
So for every array the centres of the pixels in the first column are not the grid points they stand for. -/
theorem C154_pixels_violated (shape : List ℕ) (data ranges : List ℝ) (params : List String) (marg : Marg)
    (hlen : data.length = shape.prod) (hpos : ∀ s ∈ shape, 2 ≤ s) (hr : ranges.length = params.length)
    (hs : shape.length = 2 * params.length) (hne : params ≠ []) (hr0 : ∀ r ∈ ranges, 0 < r) :
    ∃ curves images, plotAccuracies shape data ranges params marg = .ok (curves, images) ∧ images ≠ [] ∧ ∀ im ∈ images,
      ∃ left right bottom top i j, im.extent = (left, right, bottom, top) ∧ im.loc = (j, i) ∧
        pixelCentre left right (shape.getD i 0) 0 ≠ gridPoint (ranges.getD (i / 2) 0) (shape.getD i 0) 0 ∧
        pixelCentre bottom top (shape.getD j 0) 0 ≠ gridPoint (ranges.getD (j / 2) 0) (shape.getD j 0) 0 := by
  obtain ⟨curves, images, vmin, vmax, h1, -, -, -, -, h6, h7, -⟩ := plot_ok shape data ranges params marg hlen
    (fun s hs => by have := hpos s hs; omega) hr hs hne
  have hP : 0 < params.length := List.length_pos_iff.2 hne
  refine ⟨curves, images, h1, ?_, fun im him => ?_⟩
  · obtain ⟨im, him, -⟩ := h6 0 1 (by omega) (by omega)
    exact List.ne_nil_of_mem him
  obtain ⟨-, -, -, i, j, hij, hj, k1, k2⟩ := h7 im him
  have key : ∀ i < shape.length, pixelCentre
      (-ranges.getD (i / 2) 0 - (2 * ranges.getD (i / 2) 0) / (shape.getD i 0 : ℕ) / 2)
      (ranges.getD (i / 2) 0 + (2 * ranges.getD (i / 2) 0) / (shape.getD i 0 : ℕ) / 2) (shape.getD i 0) 0
        ≠ gridPoint (ranges.getD (i / 2) 0) (shape.getD i 0) 0 := by
    intro i hi h
    have hn : 2 ≤ shape.getD i 0 := by simpa [hi] using hpos _ (List.getElem_mem hi)
    have hl : i / 2 < ranges.length := by omega
    have hr1 : 0 < ranges.getD (i / 2) 0 := by simpa [hl] using hr0 _ (List.getElem_mem hl)
    have hd := pixel_distance (ranges.getD (i / 2) 0) (shape.getD i 0) 0 hn
    rw [h, sub_self] at hd
    have hn' : (0 : ℝ) < (shape.getD i 0 : ℕ) := by exact_mod_cast (by omega : 0 < shape.getD i 0)
    have : 0 < ranges.getD (i / 2) 0 / ((shape.getD i 0 : ℕ) : ℝ) ^ 2 := by positivity
    rw [Nat.cast_zero, mul_zero, zero_div, sub_zero, mul_one] at hd
    linarith
  exact ⟨_, _, _, _, i, j, k2, k1.1, key i (hij.trans hj), key j hj⟩

/-- **C154, labels.** No image ever carries the name of a parameter, and of the panels on the diagonal only the last one does: the
conditions for the labels, `j == 0` and `i == count - 1`, are never met for `i < j`. -/
theorem C154_labels_violated (shape : List ℕ) (data ranges : List ℝ) (params : List String) (marg : Marg)
    (hlen : data.length = shape.prod) (hpos : ∀ s ∈ shape, 0 < s) (hr : ranges.length = params.length)
    (hs : shape.length = 2 * params.length) (hne : params ≠ []) :
    ∃ curves images, plotAccuracies shape data ranges params marg = .ok (curves, images) ∧
      (∀ im ∈ images, im.xlabel = none ∧ im.ylabel = none) ∧
      ∀ i < shape.length, ∃ c, curves[i]? = some c ∧
        c.xlabel = if i + 1 = shape.length then some (1, params.getLast hne) else none := by
  obtain ⟨curves, images, vmin, vmax, h1, -, -, -, h5, -, h7, -⟩ := plot_ok shape data ranges params marg hlen hpos hr hs hne
  have hP : 0 < params.length := List.length_pos_iff.2 hne
  refine ⟨curves, images, h1, fun im him => ?_, fun i hi => ?_⟩
  · obtain ⟨-, k1, k2, -⟩ := h7 im him
    exact ⟨k1, k2⟩
  · obtain ⟨c, k1, -, -, k2⟩ := h5 i hi
    refine ⟨c, k1, ?_⟩
    rw [k2]
    by_cases h : i + 1 = shape.length
    · have e1 : i % 2 = 1 := by omega
      have e2 : i / 2 = params.length - 1 := by omega
      have e3 : params.length - 1 < params.length := by omega
      rw [if_pos h, if_pos (by omega), e1, e2, List.getLast_eq_getElem]
      simp [e3]
    · rw [if_neg h, if_neg (by omega)]

/-- The hypotheses are met by a grid of two by three accuracies for one parameter. -/
example : ([1, 2, 3, 4, 5, 6] : List ℝ).length = ([2, 3] : List ℕ).prod ∧ (∀ s ∈ ([2, 3] : List ℕ), 2 ≤ s) ∧
    ([10] : List ℝ).length = ["psi"].length ∧ ([2, 3] : List ℕ).length = 2 * ["psi"].length ∧ ["psi"] ≠ [] ∧
    ∀ r ∈ ([10] : List ℝ), 0 < r := by
  simp

/-- The mean over the second row of this array is five. -/
example : Summarises .mean {idx | NdValid [2, 3] idx ∧ idx.getD 0 0 = 1} (entryAt [2, 3] [1, 2, 3, 4, 5, 6]) 5 := by
  have h := marg_kept .mean [2, 3] [1, 2, 3, 4, 5, 6] rfl [0] [1]
    ⟨[1, 0], .cons (by norm_num) (.cons (by norm_num) .nil), rfl⟩
  obtain ⟨v, hv, hs⟩ := h
  have hset : keptSet [2, 3] [0] [1] = {idx | NdValid [2, 3] idx ∧ idx.getD 0 0 = 1} := by
    ext idx
    simp [keptSet]
  rw [hset] at hs
  have : v = 5 := by
    have e : keptEntries [2, 3] [1, 2, 3, 4, 5, 6] [0] [1] = [4, 5, 6] := by
      simp [keptEntries, indices, List.range_succ]
    rw [e] at hv
    have := Except.ok.inj hv
    rw [← this]
    norm_num
  rwa [this] at hs

end Cyjax
