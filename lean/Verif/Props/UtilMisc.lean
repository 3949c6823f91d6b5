import Verif.Lemmas.Nd
import Mathlib.Data.Nat.Choose.Basic

/-! # Properties C06–C10, C13 -/

namespace Cyjax

open Util

/-! ## C06, C07: `prod` -/

private theorem prodLoop_some {α : Type*} [Monoid α] (l : List α) (p : α) :
    prodLoop (some p) l = some (p * l.prod) := by
  induction l generalizing p with
  | nil => simp [prodLoop]
  | cons f fs ih => simp [prodLoop, ih, mul_assoc]

/-- **C06.** `prod` is the (ordered) product of its factors. -/
theorem C06_prod {α : Type*} [Monoid α] (l : List α) : Util.prod l = l.prod := by
  cases l with
  | nil => rfl
  | cons f fs => simp [Util.prod, prodLoop, prodLoop_some]

/-- **C06.** The empty product is one. -/
theorem C06_prod_empty {α : Type*} [Mul α] [One α] : Util.prod ([] : List α) = 1 := rfl

example : Util.prod [(2 : ℕ), 3, 7] = 42 := by decide

private theorem prodHeapLoop_imm {α : Type*} [Monoid α] (h : Heap α) (l : List (Obj α)) (v : α) :
    prodHeapLoop h (some (.imm v)) l = (h, some (.imm (v * (l.map (Obj.read h)).prod))) := by
  induction l generalizing v with
  | nil => simp [prodHeapLoop]
  | cons f fs ih => simp [prodHeapLoop, imul, ih, mul_assoc]

/-- An object does not refer to address `a`. -/
def notAt {α : Type*} (a : ℕ) : Obj α → Prop
  | .imm _ => True
  | .ref b => b ≠ a

private theorem read_update {α : Type*} (h : Heap α) (a : ℕ) (v : α) (o : Obj α) (ho : notAt a o) :
    o.read (Function.update h a v) = o.read h := by
  cases o with
  | imm v => rfl
  | ref b => exact Function.update_of_ne ho _ _

private theorem prodHeapLoop_ref {α : Type*} [Monoid α] (h : Heap α) (l : List (Obj α)) (a : ℕ)
    (hl : ∀ o ∈ l, notAt a o) :
    prodHeapLoop h (some (.ref a)) l =
      (Function.update h a (h a * (l.map (Obj.read h)).prod), some (.ref a)) := by
  induction l generalizing h with
  | nil => simp [prodHeapLoop]
  | cons f fs ih =>
    have hfs : ∀ o ∈ fs, notAt a o := fun o ho => hl o (List.mem_cons_of_mem _ ho)
    simp only [prodHeapLoop, imul]
    rw [ih _ hfs, Function.update_self, Function.update_idem, List.map_cons, List.prod_cons,
      mul_assoc]
    have : fs.map (Obj.read (Function.update h a (h a * f.read h))) = fs.map (Obj.read h) :=
      List.map_congr_left fun o ho => read_update _ _ _ _ (hfs o ho)
    rw [this]

/-- **C07, partial.** If the first factor is immutable (scalars, jax arrays), no argument is
modified and the value is the product. Missing: a mutable first factor, see the next theorems. -/
theorem C07_prod_immutable_partial {α : Type*} [Monoid α] (h : Heap α) (v : α) (l : List (Obj α)) :
    prodHeap h (.imm v :: l) = (h, ((.imm v :: l).map (Obj.read h)).prod) := by
  simp [prodHeap, prodHeapLoop, prodHeapLoop_imm, Obj.read]

/-- **C07, partial.** A mutable first factor not repeated among the others: the value is right and
every other array is unchanged, but the first factor is overwritten with the result. -/
theorem C07_prod_mutable_partial {α : Type*} [Monoid α] (h : Heap α) (a : ℕ) (l : List (Obj α))
    (hl : ∀ o ∈ l, notAt a o) :
    (prodHeap h (.ref a :: l)).2 = ((.ref a :: l).map (Obj.read h)).prod ∧
      (∀ b, b ≠ a → (prodHeap h (.ref a :: l)).1 b = h b) ∧
      (prodHeap h (.ref a :: l)).1 a = ((.ref a :: l).map (Obj.read h)).prod := by
  simp only [prodHeap, prodHeapLoop, prodHeapLoop_ref h l a hl]
  refine ⟨by simp [Obj.read], fun b hb => Function.update_of_ne hb _ _, by simp [Obj.read]⟩

/-- **C07 is violated**: `a = np.array(2); prod([a, 3])` leaves `a == 6`. -/
theorem C07_prod_violated :
    ∃ (h : Heap ℕ) (l : List (Obj ℕ)), h 0 = 2 ∧ (prodHeap h l).1 0 = 6 :=
  ⟨fun _ => 2, [.ref 0, .imm 3], by decide, by decide⟩

/-- **C07/C06 with aliasing**: `prod([a, a, a])` for a mutable array `a` is `a^4`, not `a^3`,
because the second multiplication reads the already updated array. -/
theorem C07_prod_alias_violated :
    ∃ (h : Heap ℕ) (l : List (Obj ℕ)), (prodHeap h l).2 = 2 ^ 4 ∧ (l.map (Obj.read h)).prod = 2 ^ 3 :=
  ⟨fun _ => 2, [.ref 0, .ref 0, .ref 0], by decide, by decide⟩

example : ∃ l : List (Obj ℕ), l.length = 2 ∧ ∀ o ∈ l, notAt 0 o :=
  ⟨[.ref 1, .imm 3], rfl, by simp [notAt]⟩

/-! ## C08: `binomial` -/

/-- **C08.** For `0 ≤ k ≤ n`, `binomial` returns the binomial coefficient. -/
theorem C08_binomial (n k : ℕ) (h : k ≤ n) : Util.binomial n k = some (n.choose k) := by
  have e1 : pyFactorial (n : ℤ) = some n.factorial := by simp [pyFactorial]
  have e2 : pyFactorial (k : ℤ) = some k.factorial := by simp [pyFactorial]
  have e3 : pyFactorial ((n : ℤ) - k) = some (n - k).factorial := by
    rw [← Nat.cast_sub h]; simp only [pyFactorial, Int.toNat_natCast]; rw [if_neg (by omega)]
  simp only [Util.binomial, e1, e2, e3, Option.bind_eq_bind, Option.bind_some, Option.pure_def]
  rw [Nat.choose_eq_factorial_div_factorial h]

/-- **C08.** Outside that range `binomial` raises (`ValueError` from `math.factorial`), rather than
returning zero. -/
theorem C08_binomial_error (n k : ℤ) (h : k < 0 ∨ n < k) : Util.binomial n k = none := by
  have : n < 0 ∨ k < 0 ∨ n - k < 0 := by omega
  simp only [Util.binomial, pyFactorial]
  split_ifs <;> first | rfl | (exfalso; omega)

example : Util.binomial 6 2 = some 15 := by decide
example : Util.binomial 2 3 = none := by decide

/-! ## C09: flatten / unflatten -/

/-- **C09, shapes and entries.** For an array of shape `(*batch, d)` with `d ≥ 1`, flattening,
mapping a per-point function with output shape `out` over the rows and unflattening succeeds, has
shape `(*batch, *out)`, and its entry at `(*b, *o)` is entry `o` of the function applied to the
point at batch index `b`. -/
theorem C09_flatten_map_unflatten {α β : Type*} (d : ℕ) (hd : 0 < d) (out : List ℕ)
    (f : (Fin d → α) → Fin out.prod → β) (zs : Nd α) (batch : List ℕ)
    (hs : zs.shape = batch ++ [d]) :
    ∃ res, batchApply d out f zs = some res ∧ res.shape = batch ++ out ∧
      ∀ b o, NdValid batch b → (ho : NdValid out o) → ∀ pt : Fin d → α,
        (∀ i : Fin d, zs.get (b ++ [(i : ℕ)]) = some (pt i)) →
        res.get (b ++ o) = some (f pt ⟨ndOffset out o, ho.lt⟩) := by
  obtain ⟨sh, data⟩ := zs
  subst hs
  have hfl := flattenCoord_eq batch d hd data
  simp only [batchApply, hfl, List.headD_cons, unflattenCoord]
  refine ⟨_, (dif_pos rfl).trans (Nd.reshape_eq _ _ (batch ++ out) rfl (by simp [vmapRows])),
    rfl, ?_⟩
  intro b o hb ho pt hpt
  have hv := hb.append ho
  rw [Nd.get_valid _ hv]
  have hop : 0 < out.prod := lt_of_le_of_lt (Nat.zero_le _) ho.lt
  have hoff : ndOffset (batch ++ out) (b ++ o) = ndOffset batch b * out.prod + ndOffset out o :=
    ndOffset_append _ _ hb
  simp only [Option.some.injEq, vmapRows]
  have hq : ndOffset (batch ++ out) (b ++ o) / out.prod = ndOffset batch b := by
    rw [hoff, mul_comm, Nat.mul_add_div hop, Nat.div_eq_of_lt ho.lt, add_zero]
  have hm : ndOffset (batch ++ out) (b ++ o) % out.prod = ndOffset out o := by
    rw [hoff, mul_comm, Nat.mul_add_mod, Nat.mod_eq_of_lt ho.lt]
  congr 1
  · funext i
    have h1 : NdValid (batch ++ [d]) (b ++ [(i : ℕ)]) := hb.append (NdValid.cons i.2 NdValid.nil)
    have h2 := hpt i
    rw [Nd.get_valid _ h1] at h2
    simp only [Option.some.injEq] at h2
    rw [← h2]
    congr 1
    apply Fin.ext
    change ndOffset (batch ++ out) (b ++ o) / out.prod * d + (i : ℕ) =
      ndOffset (batch ++ [d]) (b ++ [(i : ℕ)])
    rw [hq, ndOffset_append _ _ hb]
    simp [ndOffset]
  · exact Fin.ext hm

/-- **C09, round trip.** Flattening and unflattening an array of coordinates gives it back. -/
theorem C09_roundtrip {α : Type*} (zs : Nd α) (batch : List ℕ) (d : ℕ) (hd : 0 < d)
    (hs : zs.shape = batch ++ [d]) :
    ∃ flat old, flattenCoord zs = some (flat, old) ∧ flat.shape = [batch.prod, d] ∧
      unflattenCoord flat old = some zs := by
  obtain ⟨sh, data⟩ := zs
  subst hs
  refine ⟨_, _, flattenCoord_eq batch d hd data, rfl, ?_⟩
  unfold unflattenCoord
  exact Nd.reshape_eq _ _ (batch ++ [d]) rfl (by simp)

/-- **C09, scalars**: a 0-d coordinate is treated as one point of dimension one. -/
theorem C09_scalar {α : Type*} (zs : Nd α) (hs : zs.shape = []) :
    ∃ flat, flattenCoord zs = some (flat, []) ∧ flat.shape = [1, 1] := by
  refine ⟨⟨[1, 1], fun i => zs.data ⟨0, by simp [hs]⟩⟩, ?_, rfl⟩
  unfold flattenCoord Nd.atleast1d
  rw [dif_pos hs]
  exact congrArg (Option.map fun a => (a, [])) (Nd.reshape_eq _ _ [1, 1] (by simp) (by simp))

/-- A 2×1×3 array meets the hypotheses. -/
example : ∃ zs : Nd ℕ, zs.shape = [2, 1] ++ [3] ∧ NdValid [2, 1] [1, 0] :=
  ⟨⟨[2, 1, 3], fun i => i⟩, rfl, .cons (by omega) (.cons (by omega) .nil)⟩

/-! ## C10: shuffle -/

/-- **C10.** `shuffle_axis` keeps the shape, and there is, for every index of the leading axes, a
permutation of the axis such that the entry at `(pre, k, post)` is the old entry at
`(pre, π k, post)`: whole slices are moved, independently of `post`. -/
theorem C10_shuffle {α : Type*} (x : Nd α) (pre post : List ℕ) (s : ℕ)
    (hs : x.shape = pre ++ s :: post) (h : pre.length < x.shape.length)
    (σ : ℕ → Equiv.Perm (Fin x.shape[pre.length])) :
    (shuffleAxis x pre.length h σ).shape = x.shape ∧
      ∃ π : List ℕ → Equiv.Perm (Fin s), ∀ i (k : Fin s) j, NdValid pre i → NdValid post j →
        (shuffleAxis x pre.length h σ).get (i ++ (k : ℕ) :: j) =
          x.get (i ++ (π i k : ℕ) :: j) := by
  refine ⟨rfl, ?_⟩
  obtain ⟨sh, data⟩ := x
  subst hs
  have hget : (pre ++ s :: post)[pre.length]'h = s := by simp
  refine ⟨fun i => (finCongr hget).permCongr (σ (ndOffset pre i)), ?_⟩
  intro i k j hi hj
  have hv : ∀ k : Fin s, NdValid (pre ++ s :: post) (i ++ (k : ℕ) :: j) := fun k =>
    hi.append (.cons k.2 hj)
  rw [Nd.get_valid _ (hv k), Nd.get_valid _ (hv _)]
  simp only [shuffleAxis, Option.some.injEq]
  congr 1
  apply Fin.ext
  simp only [hget]
  have hr : 0 < post.prod := lt_of_le_of_lt (Nat.zero_le _) hj.lt
  have hsp : 0 < s := lt_of_le_of_lt (Nat.zero_le _) k.2
  have hdrop : ((pre ++ s :: post).drop (pre.length + 1)).prod = post.prod := by
    rw [← List.drop_drop]; simp
  have e : ∀ k : ℕ, ndOffset (pre ++ s :: post) (i ++ k :: j) =
      (ndOffset pre i * s + k) * post.prod + ndOffset post j := by
    intro k
    rw [ndOffset_append _ _ hi]
    simp only [ndOffset, List.prod_cons]; ring
  simp only [hdrop, e]
  have e1 : ((ndOffset pre i * s + k) * post.prod + ndOffset post j) / post.prod =
      ndOffset pre i * s + k := by
    rw [mul_comm, Nat.mul_add_div hr, Nat.div_eq_of_lt hj.lt, add_zero]
  have e2 : ((ndOffset pre i * s + k) * post.prod + ndOffset post j) % post.prod =
      ndOffset post j := by
    rw [mul_comm, Nat.mul_add_mod, Nat.mod_eq_of_lt hj.lt]
  have e3 : ((ndOffset pre i * s + k) * post.prod + ndOffset post j) / (s * post.prod) =
      ndOffset pre i := by
    rw [mul_comm s, ← Nat.div_div_eq_div_mul, e1, mul_comm, Nat.mul_add_div hsp,
      Nat.div_eq_of_lt k.2, add_zero]
  have e4 : (ndOffset pre i * s + k) % s = k := by
    rw [mul_comm, Nat.mul_add_mod, Nat.mod_eq_of_lt k.2]
  simp only [e1, e2, e3, e4]
  congr 3

/-- A shuffle of the middle axis of a 2×3×2 array. -/
example : ∃ (x : Nd ℕ), x.shape = [2] ++ 3 :: [2] ∧ NdValid [2] [1] :=
  ⟨⟨[2, 3, 2], fun i => i⟩, rfl, .cons (by omega) .nil⟩

/-! ## C13: key sequence -/

private theorem prngTake_spec {Key : Type*} (split : Key → Key × Key) (s : Key) (n : ℕ) :
    prngTake split s n =
      ((List.range n).map fun i => (split ((fun k => (split k).2)^[i] s)).1,
        (fun k => (split k).2)^[n] s) := by
  induction n generalizing s with
  | zero => rfl
  | succ n ih =>
    simp only [prngTake, prngNext, ih, List.range_succ_eq_map, List.map_cons, List.map_map,
      Function.iterate_zero, id, Function.comp_def, Function.iterate_succ_apply]

/-- **C13.** The `n` keys produced are determined by the seed: key number `i` is the first half of
the split of the `i`-fold iterated second half. An integer seed behaves exactly like the key made
from it, and asking for more keys only extends the sequence. -/
theorem C13_prng {Key : Type*} (prngKey : ℤ → Key) (split : Key → Key × Key) (seed : Seed Key)
    (n : ℕ) :
    (prngTake split (prngInit prngKey seed) n).1 =
      (List.range n).map fun i =>
        (split ((fun k => (split k).2)^[i] (prngInit prngKey seed))).1 := by
  rw [prngTake_spec]

/-- **C13.** Integer seed `m` and key seed `PRNGKey(m)` give the same stream. -/
theorem C13_prng_seed {Key : Type*} (prngKey : ℤ → Key) (split : Key → Key × Key) (m : ℤ) (n : ℕ) :
    prngTake split (prngInit prngKey (.int m)) n =
      prngTake split (prngInit prngKey (.key (prngKey m))) n := rfl

/-- **C13.** Continuing a sequence is the same as a longer sequence. -/
theorem C13_prng_continue {Key : Type*} (split : Key → Key × Key) (s : Key) (n m : ℕ) :
    (prngTake split s (n + m)).1 =
      (prngTake split s n).1 ++ (prngTake split (prngTake split s n).2 m).1 := by
  simp only [prngTake_spec, List.range_add, List.map_append, List.map_map]
  congr 1
  apply List.map_congr_left
  intro i _
  simp only [Function.comp]
  rw [Nat.add_comm n i, Function.iterate_add_apply]

/-- **C13.** No key is handed out twice as long as splitting does not collide: if `split` has
injective first halves and the internal chain of keys has not returned to an earlier state, the
first `n` keys are pairwise different. -/
theorem C13_prng_nodup {Key : Type*} (split : Key → Key × Key) (s : Key) (n : ℕ)
    (hinj : Function.Injective fun k => (split k).1)
    (hchain : ∀ i j, i < n → j < n →
      (fun k => (split k).2)^[i] s = (fun k => (split k).2)^[j] s → i = j) :
    (prngTake split s n).1.Nodup := by
  rw [prngTake_spec]
  apply List.Nodup.map_on _ List.nodup_range
  intro i hi j hj h
  exact hchain i j (List.mem_range.1 hi) (List.mem_range.1 hj) (hinj h)

/-- Binary strings with `split k = (0k, 1k)` meet the hypotheses for every `n`. -/
example (n : ℕ) : ∃ (split : List Bool → List Bool × List Bool) (s : List Bool),
    Function.Injective (fun k => (split k).1) ∧
    ∀ i j, i < n → j < n →
      (fun k => (split k).2)^[i] s = (fun k => (split k).2)^[j] s → i = j := by
  refine ⟨fun k => (false :: k, true :: k), [], fun a b h => by simpa using h, ?_⟩
  intro i j _ _ h
  have hl : ∀ i, ((fun k : List Bool => true :: k)^[i] []).length = i := by
    intro i; induction i with
    | zero => rfl
    | succ i ih => rw [Function.iterate_succ_apply', List.length_cons, ih]
  rw [← hl i, ← hl j]; exact congrArg _ h

end Cyjax
