import Verif.Model.TrainScript
import Verif.Spec.Nd
import Verif.Props.BatchSampler
import Mathlib.Tactic.Linarith
import Mathlib.Tactic.FieldSimp
import Mathlib.Tactic.Ring
import Mathlib.Tactic.IntervalCases
import Mathlib.Analysis.Complex.Norm

/-! # The moduli of the training script and the evaluation on a grid (C123, C124) -/

namespace Cyjax

open Cyjax.TrainScript Cyjax.Util
open Cyjax.Polynomial (PyErr)

/-! ## Sampling -/

/-- **C124, sampler.** Real and imaginary part of every sampled modulus lie between minus its bound and its bound. -/
theorem C124_sampler_partial {P : ℕ} (bound re im : Fin P → ℝ) (hb : ∀ j, 0 ≤ bound j) (hre : ∀ j, -1 ≤ re j ∧ re j < 1)
    (him : ∀ j, -1 ≤ im j ∧ im j < 1) (j : Fin P) :
    |(cubeParamSampler bound re im j).re| ≤ bound j ∧ |(cubeParamSampler bound re im j).im| ≤ bound j ∧
      ‖cubeParamSampler bound re im j‖ ≤ Real.sqrt 2 * bound j := by
  have e1 : (cubeParamSampler bound re im j).re = re j * bound j := by
    simp [cubeParamSampler, Random.uniformComponents]
  have e2 : (cubeParamSampler bound re im j).im = im j * bound j := by
    simp [cubeParamSampler, Random.uniformComponents]
  have h1 : |re j| ≤ 1 := abs_le.2 ⟨(hre j).1, (hre j).2.le⟩
  have h2 : |im j| ≤ 1 := abs_le.2 ⟨(him j).1, (him j).2.le⟩
  have b1 : |re j * bound j| ≤ bound j := by
    rw [abs_mul, abs_of_nonneg (hb j)]
    nlinarith [hb j]
  have b2 : |im j * bound j| ≤ bound j := by
    rw [abs_mul, abs_of_nonneg (hb j)]
    nlinarith [hb j]
  refine ⟨by rw [e1]; exact b1, by rw [e2]; exact b2, ?_⟩
  refine Complex.norm_le_sqrt_two_mul_max _ |>.trans ?_
  refine mul_le_mul_of_nonneg_left ?_ (Real.sqrt_nonneg 2)
  rw [e1, e2]
  exact max_le b1 b2

/-- **C124, sampler.** The bound is not a bound for the absolute value, contrary to the comment in the configuration
(`0 < |psi| < 10`): with bound ten the modulus `9 + 9 i` can be drawn. -/
theorem C124_modulus_violated : ∃ re im : Fin 1 → ℝ, (∀ j, -1 ≤ re j ∧ re j < 1) ∧ (∀ j, -1 ≤ im j ∧ im j < 1) ∧
    10 < ‖cubeParamSampler (fun _ => 10) re im 0‖ := by
  refine ⟨fun _ => 9 / 10, fun _ => 9 / 10, fun _ => by norm_num, fun _ => by norm_num, ?_⟩
  rw [← Real.sqrt_sq (norm_nonneg _), Complex.sq_norm, Complex.normSq_apply]
  have e1 : (cubeParamSampler (fun _ : Fin 1 => (10 : ℝ)) (fun _ => 9 / 10) (fun _ => 9 / 10) 0).re = 9 := by
    simp [cubeParamSampler, Random.uniformComponents]
  have e2 : (cubeParamSampler (fun _ : Fin 1 => (10 : ℝ)) (fun _ => 9 / 10) (fun _ => 9 / 10) 0).im = 9 := by
    simp [cubeParamSampler, Random.uniformComponents]
  rw [e1, e2]
  exact Real.lt_sqrt_of_sq_lt (by norm_num)

/-! ## The grid -/

private theorem flatMap_block {α β : Type*} (f : α → List β) (m : ℕ) : ∀ (l : List α), (∀ x ∈ l, (f x).length = m) →
    (l.flatMap f).length = l.length * m ∧
      ∀ (i j : ℕ), j < m → (l.flatMap f)[i * m + j]? = (l[i]?).bind fun x => (f x)[j]?
  | [], _ => by simp
  | x :: l, h => by
    obtain ⟨h1, h2⟩ := flatMap_block f m l fun y hy => h y (by simp [hy])
    have hx := h x (by simp)
    refine ⟨by rw [List.flatMap_cons, List.length_append, hx, h1, List.length_cons]; ring, fun i j hj => ?_⟩
    rw [List.flatMap_cons]
    cases i with
    | zero => rw [zero_mul, zero_add, List.getElem?_append_left (by omega)]; rfl
    | succ i =>
      have : (i + 1) * m + j = m + (i * m + j) := by ring
      rw [this, List.getElem?_append_right (by omega), hx, Nat.add_sub_cancel_left, h2 i j hj]
      rfl

private theorem indices_length : ∀ sh : List ℕ, (indices sh).length = sh.prod
  | [] => rfl
  | s :: sh => by
    unfold indices
    rw [(flatMap_block _ sh.prod _ fun i _ => by rw [List.length_map, indices_length sh]).1, List.length_range,
      List.prod_cons]

private theorem offset_lt : ∀ {sh idx : List ℕ}, NdValid sh idx → ndOffset sh idx < sh.prod
  | _, _, .nil => by simp [ndOffset]
  | _, _, .cons (s := s) (i := i) (sh := sh) (is := is) hi h => by
    have := offset_lt h
    rw [ndOffset, List.prod_cons]
    calc i * sh.prod + ndOffset sh is < i * sh.prod + sh.prod := by omega
      _ = (i + 1) * sh.prod := by ring
      _ ≤ s * sh.prod := Nat.mul_le_mul_right _ hi

private theorem indices_get : ∀ {sh idx : List ℕ}, NdValid sh idx → (indices sh)[ndOffset sh idx]? = some idx
  | _, _, .nil => rfl
  | _, _, .cons (s := s) (i := i) (sh := sh) (is := is) hi h => by
    unfold indices
    rw [ndOffset, (flatMap_block _ sh.prod _ fun i _ => by rw [List.length_map, indices_length sh]).2 i _ (offset_lt h),
      List.getElem?_range hi]
    simp [indices_get h]

private theorem axis_size (r : ℝ) (hr : r ≠ 0) (g : ℕ) (hg : 2 ≤ g) :
    axisSize (-r, r + (2 * r) / ((g : ℝ) - 1) / 10, (2 * r) / ((g : ℝ) - 1)) = g := by
  have hg' : (0 : ℝ) < (g : ℝ) - 1 := by
    have : (2 : ℝ) ≤ g := by exact_mod_cast hg
    linarith
  unfold axisSize
  have : (r + (2 * r) / ((g : ℝ) - 1) / 10 - -r) / ((2 * r) / ((g : ℝ) - 1)) = ((g : ℝ) - 1) + 1 / 10 := by
    field_simp
    ring
  simp only
  rw [this]
  have hc : ⌈((g : ℝ) - 1) + 1 / 10⌉ = (g : ℤ) := by
    rw [Int.ceil_eq_iff]
    push_cast
    constructor <;> linarith
  rw [hc, Int.toNat_natCast]

/-- **C123, grid.** For bounds different from zero and at least two grid points per axis, the moduli form a grid with an axis
for the real part and an axis for the imaginary part of every parameter, each with `g` points. The row of moduli that belongs to
the position `idx` of the grid (in row-major order, the order in which the accuracies are given the shape of the grid) has as
real part of parameter `p` the number `-r + a · 2r/(g-1)`, `a = idx[2p]`, and the imaginary part the same with `idx[2p+1]`. -/
theorem C123_grid (bounds : List ℝ) (hb : ∀ r ∈ bounds, r ≠ 0) (hne : bounds ≠ []) (g : ℕ) (hg : 2 ≤ g) :
    ∃ moduli : List (List ℂ), evaluationModuli bounds.length bounds g = .ok (List.replicate (2 * bounds.length) g, moduli) ∧
      moduli.length = g ^ (2 * bounds.length) ∧
      ∀ idx, NdValid (List.replicate (2 * bounds.length) g) idx →
        moduli[ndOffset (List.replicate (2 * bounds.length) g) idx]? = some (List.ofFn fun p : Fin bounds.length =>
          (⟨-bounds[p] + idx.getD (2 * p) 0 * (2 * bounds[p] / (g - 1)),
            -bounds[p] + idx.getD (2 * p + 1) 0 * (2 * bounds[p] / (g - 1))⟩ : ℂ)) := by
  set P := bounds.length with hP
  have hP0 : 0 < P := List.length_pos_iff.2 hne
  set sl : ℝ → ℝ × ℝ × ℝ := fun r => (-r, r + (2 * r) / ((g : ℝ) - 1) / 10, (2 * r) / ((g : ℝ) - 1)) with hsl
  set slices := bounds.flatMap fun r => List.replicate 2 (sl r) with hslices
  have hgs : gridSlices bounds g = .ok slices := by
    unfold gridSlices
    rw [if_neg (by omega)]
  obtain ⟨hslen, hsget⟩ := flatMap_block (fun r => List.replicate 2 (sl r)) 2 bounds (by simp)
  have hmem : ∀ s ∈ slices, ∃ r ∈ bounds, s = sl r := by
    intro s hs
    rw [hslices, List.mem_flatMap] at hs
    obtain ⟨r, hr, hs⟩ := hs
    exact ⟨r, hr, List.eq_of_mem_replicate hs⟩
  have hg' : (0 : ℝ) < (g : ℝ) - 1 := by
    have : (2 : ℝ) ≤ g := by exact_mod_cast hg
    linarith
  have hsize : slices.map axisSize = List.replicate (2 * P) g := by
    rw [List.eq_replicate_iff]
    refine ⟨by rw [List.length_map, hslen, hP, mul_comm], fun n hn => ?_⟩
    obtain ⟨s, hs, rfl⟩ := List.mem_map.1 hn
    obtain ⟨r, hr, rfl⟩ := hmem s hs
    exact axis_size r (hb r hr) g hg
  set ix := indices (List.replicate (2 * P) g) with hix
  have hixl : ix.length = g ^ (2 * P) := by rw [hix, indices_length, List.prod_replicate]
  set m := g ^ (2 * P) with hm
  have hm0 : 0 < m := Nat.pos_of_ne_zero (by rw [hm]; positivity)
  set row : (ℝ × ℝ × ℝ) × ℕ → List ℝ := fun x => ix.map fun idx => (idx.getD x.2 0 : ℝ) * x.1.2.2 + x.1.1 with hrow
  have hmg : mgrid slices = .ok (List.replicate (2 * P) g, slices.zipIdx.map row) := by
    unfold mgrid
    rw [if_neg, hsize]
    rintro ⟨s, hs, h0⟩
    obtain ⟨r, hr, rfl⟩ := hmem s hs
    have := hb r hr
    simp only [hsl] at h0
    have h2 : (2 * r) / ((g : ℝ) - 1) ≠ 0 := div_ne_zero (by simpa using this) hg'.ne'
    exact h2 h0
  obtain ⟨hdl, hdget⟩ := flatMap_block row m slices.zipIdx fun x _ => by simp [hrow, hixl]
  rw [List.flatMap_def] at hdl hdget
  set data := (slices.zipIdx.map row).flatten with hdata
  have hdl' : data.length = P * 2 * m := by
    rw [hdl, List.length_zipIdx, hslen]
  have hgm : gridModuli P (slices.zipIdx.map row) = .ok ((List.range m).map fun j => (List.range P).map fun p =>
      (data.getD ((p * 2 + 0) * m + j) 0 : ℂ) + Complex.I * (data.getD ((p * 2 + 1) * m + j) 0 : ℂ)) := by
    unfold gridModuli
    simp only [← hdata, hdl']
    rw [if_neg, Nat.mul_div_cancel_left _ (by omega)]
    rw [not_or, not_not, Nat.mul_mod_right]
    exact ⟨by omega, rfl⟩
  refine ⟨(List.range m).map fun j => (List.range P).map fun p =>
    (data.getD ((p * 2 + 0) * m + j) 0 : ℂ) + Complex.I * (data.getD ((p * 2 + 1) * m + j) 0 : ℂ), ?_, ?_, ?_⟩
  rotate_left 1
  · exact (List.length_map ..).trans List.length_range
  · intro idx hidx
    have hj : ndOffset (List.replicate (2 * P) g) idx < m := by
      have := offset_lt hidx
      rwa [List.prod_replicate] at this
    have hget : ix[ndOffset (List.replicate (2 * P) g) idx]? = some idx := indices_get hidx
    rw [List.getElem?_map, List.getElem?_range hj, Option.map_some]
    congr 1
    rw [List.ofFn_eq_map, ← List.map_coe_finRange_eq_range, List.map_map]
    refine List.map_congr_left fun p _ => ?_
    have hent : ∀ c < 2, data.getD ((p * 2 + c) * m + ndOffset (List.replicate (2 * P) g) idx) 0
        = (idx.getD (p * 2 + c) 0 : ℝ) * (2 * bounds[p] / (g - 1)) + -bounds[p] := by
      intro c hc
      rw [List.getD_eq_getElem?_getD, hdget _ _ hj, List.getElem?_zipIdx, hsget _ _ hc,
        List.getElem?_eq_getElem p.2]
      interval_cases c <;> simp [hrow, hget, hsl]
    have e0 := hent 0 (by norm_num)
    have e1 := hent 1 (by norm_num)
    simp only [Function.comp_apply]
    rw [e0, e1, mul_comm 2 (p : ℕ), Nat.add_zero]
    apply Complex.ext
    · simp only [Complex.add_re, Complex.ofReal_re, Complex.mul_re, Complex.I_re, Complex.I_im, Complex.ofReal_im]
      ring
    · simp only [Complex.add_im, Complex.ofReal_re, Complex.mul_im, Complex.I_re, Complex.I_im, Complex.ofReal_im]
      ring
  · unfold evaluationModuli
    rw [hgs]
    simp only [bind, Except.bind]
    rw [hmg]
    simp only
    rw [← hP, hgm]
    rfl

/-- **C123, grid.** The axes run from minus the bound to the bound. -/
theorem C123_ends (r : ℝ) (g : ℕ) (hg : 2 ≤ g) :
    -r + ((0 : ℕ) : ℝ) * (2 * r / (g - 1)) = -r ∧ -r + ((g - 1 : ℕ) : ℝ) * (2 * r / (g - 1)) = r := by
  have hg' : (g : ℝ) - 1 ≠ 0 := by
    have : (2 : ℝ) ≤ g := by exact_mod_cast hg
    linarith
  refine ⟨by simp, ?_⟩
  rw [Nat.cast_sub (by omega), Nat.cast_one]
  field_simp
  ring

/-! ## Evaluation in batches -/

section Evaluate

variable {Key H M S : Type*} (split : Key → Key × Key) (splitN : Key → ℕ → List Key) (sigma : Key → H → M → S)

private theorem slice_get {α : Type*} (a : List α) (b i c : ℕ) (hc : c < b) : (slice a b i)[c]? = a[i * b + c]? := by
  unfold slice
  rw [List.getElem?_drop, List.getElem?_take, if_pos (by nlinarith)]

private theorem slice_length {α : Type*} (a : List α) (b i : ℕ) : (slice a b i).length = min b (a.length - i * b) := by
  unfold slice
  rw [List.length_drop, List.length_take, Nat.succ_mul]
  omega

private theorem loop_spec (hs : List H) (moduli : List M) (hlen : hs.length = moduli.length) (B : ℕ) (hB : 0 < B)
    (hsplit : ∀ k n, (splitN k n).length = n) : ∀ (todo i : ℕ) (rns : Key),
    i * B ≤ hs.length → hs.length ≤ (i + todo) * B →
    (evalLoop split splitN sigma hs moduli B todo i rns).length = hs.length - i * B ∧
    ∀ b c, c < B → (i + b) * B + c < hs.length → ∃ k h m, hs[(i + b) * B + c]? = some h ∧
      moduli[(i + b) * B + c]? = some m ∧
      (splitN (seqKey split rns b) (min B (hs.length - (i + b) * B)))[c]? = some k ∧
      (evalLoop split splitN sigma hs moduli B todo i rns)[b * B + c]? = some (sigma k h m)
  | 0, i, rns, h1, h2 => by
    have : hs.length = i * B := by rw [Nat.add_zero] at h2; omega
    refine ⟨by simp [evalLoop, this], fun b c _ hlt => ?_⟩
    rw [this] at hlt
    nlinarith
  | todo + 1, i, rns, h1, h2 => by
    have hb1 : (slice hs B i).length = min B (hs.length - i * B) := slice_length hs B i
    have hb2 : (slice moduli B i).length = min B (hs.length - i * B) := by rw [slice_length, hlen]
    set s := min B (hs.length - i * B) with hs'
    have hacc : (evalAccuracies splitN sigma (split rns).1 (slice hs B i) (slice moduli B i)).length = s := by
      unfold evalAccuracies
      rw [List.length_zipWith, hsplit, List.length_zip, hb1, hb2]
      simp
    have hunf : evalLoop split splitN sigma hs moduli B (todo + 1) i rns
        = evalAccuracies splitN sigma (split rns).1 (slice hs B i) (slice moduli B i) ++
          evalLoop split splitN sigma hs moduli B todo (i + 1) (split rns).2 := rfl
    have hmul : (i + 1) * B = i * B + B := Nat.succ_mul i B
    have hzero : ∀ c, c < B → i * B + c < hs.length → ∃ k h m, hs[i * B + c]? = some h ∧
        moduli[i * B + c]? = some m ∧ (splitN (split rns).1 s)[c]? = some k ∧
        (evalLoop split splitN sigma hs moduli B (todo + 1) i rns)[c]? = some (sigma k h m) := by
      intro c hc hlt
      have hcs : c < s := by omega
      obtain ⟨h, hh⟩ : ∃ h, hs[i * B + c]? = some h := ⟨_, List.getElem?_eq_getElem hlt⟩
      obtain ⟨m, hm⟩ : ∃ m, moduli[i * B + c]? = some m := ⟨_, List.getElem?_eq_getElem (hlen ▸ hlt)⟩
      obtain ⟨k, hk⟩ : ∃ k, (splitN (split rns).1 s)[c]? = some k :=
        ⟨_, List.getElem?_eq_getElem (by rw [hsplit]; exact hcs)⟩
      refine ⟨k, h, m, hh, hm, hk, ?_⟩
      rw [hunf, List.getElem?_append_left (by omega)]
      unfold evalAccuracies
      rw [List.getElem?_zipWith, hb1, hk, List.zip, List.getElem?_zipWith, slice_get _ _ _ _ hc, slice_get _ _ _ _ hc, hh, hm]
    by_cases hle : (i + 1) * B ≤ hs.length
    · obtain ⟨r1, r2⟩ := loop_spec hs moduli hlen B hB hsplit todo (i + 1) (split rns).2 hle
        (by rw [Nat.add_right_comm, Nat.add_assoc]; exact h2)
      have hsB : s = B := by omega
      refine ⟨by rw [hunf, List.length_append, hacc, r1]; omega, fun b c hc hlt => ?_⟩
      cases b with
      | zero => simpa [seqKey] using hzero c hc hlt
      | succ b =>
        have e : i + (b + 1) = i + 1 + b := by omega
        rw [e] at hlt ⊢
        obtain ⟨k, h, m, q1, q2, q3, q4⟩ := r2 b c hc hlt
        refine ⟨k, h, m, q1, q2, q3, ?_⟩
        have e2 : (b + 1) * B + c = B + (b * B + c) := by ring
        rw [hunf, e2, List.getElem?_append_right (by omega), hacc, hsB, Nat.add_sub_cancel_left, q4]
    · have hrest : ∀ (todo i' : ℕ) (r : Key), i + 1 ≤ i' →
          evalLoop split splitN sigma hs moduli B todo i' r = [] := by
        intro todo
        induction todo with
        | zero => intro _ _ _; rfl
        | succ t ih =>
          intro i' r hi'
          have : evalLoop split splitN sigma hs moduli B (t + 1) i' r
              = evalAccuracies splitN sigma (split r).1 (slice hs B i') (slice moduli B i') ++
                evalLoop split splitN sigma hs moduli B t (i' + 1) (split r).2 := rfl
          rw [this, ih (i' + 1) _ (by omega), List.append_nil, ← List.length_eq_zero_iff]
          have h0 : (slice hs B i').length = 0 := by
            rw [slice_length]
            have := Nat.mul_le_mul_right B hi'
            omega
          unfold evalAccuracies
          rw [List.length_zipWith, List.length_zip, h0]
          simp
      refine ⟨by rw [hunf, hrest _ _ _ le_rfl, List.append_nil, hacc]; omega, fun b c hc hlt => ?_⟩
      cases b with
      | zero => simpa [seqKey] using hzero c hc hlt
      | succ b =>
        exfalso
        have := Nat.mul_le_mul_right B (show i + 1 ≤ i + (b + 1) by omega)
        omega

/-- **C123, evaluation.** For any positive batch size, also one that does not divide the number `N > 0` of moduli, the result has
one accuracy for each row of moduli, in order: accuracy `j` is that of matrix `j` and moduli `j`, with a key of its own: the
`j % B`-th of the keys split from the key of batch `j / B`. -/
theorem C123_evaluate (hsplit : ∀ k n, (splitN k n).length = n) (hs : List H) (moduli : List M)
    (hlen : hs.length = moduli.length) (hne : moduli ≠ []) (B : ℕ) (hB : 0 < B) (rns : Key) :
    ∃ out, evaluate split splitN sigma hs moduli B rns = .ok out ∧ out.length = moduli.length ∧
      ∀ j < moduli.length, ∃ k h m, hs[j]? = some h ∧ moduli[j]? = some m ∧
        (splitN (seqKey split rns (j / B)) (min B (moduli.length - j / B * B)))[j % B]? = some k ∧
        out[j]? = some (sigma k h m) := by
  have hN : 0 < moduli.length := List.length_pos_iff.2 hne
  set T := ⌈(moduli.length : ℚ) / B⌉.toNat with hT
  have hB' : (0 : ℚ) < B := by exact_mod_cast hB
  have hN' : (0 : ℚ) < moduli.length := by exact_mod_cast hN
  have hpos : 0 < ⌈(moduli.length : ℚ) / B⌉ := Int.ceil_pos.2 (by positivity)
  have hTle : moduli.length ≤ T * B := by
    have h1 : (moduli.length : ℚ) / B ≤ T := by
      refine (Int.le_ceil _).trans ?_
      have : ((T : ℤ) : ℚ) = (⌈(moduli.length : ℚ) / B⌉ : ℚ) := by rw [hT, Int.toNat_of_nonneg hpos.le]
      exact this.symm.le
    rw [div_le_iff₀ hB'] at h1
    exact_mod_cast h1
  obtain ⟨r1, r2⟩ := loop_spec split splitN sigma hs moduli hlen B hB hsplit T 0 rns (by simp) (by simpa [hlen] using hTle)
  refine ⟨evalLoop split splitN sigma hs moduli B T 0 rns, ?_, by simpa [hlen] using r1, fun j hj => ?_⟩
  · unfold evaluate
    rw [if_neg hB.ne']
    simp only [← hT]
    rw [if_neg (by omega)]
  · have hd : j / B * B + j % B = j := by rw [mul_comm]; exact Nat.div_add_mod j B
    have := r2 (j / B) (j % B) (Nat.mod_lt _ hB) (by rw [zero_add, hd, hlen]; exact hj)
    rw [zero_add, hd, hlen] at this
    exact this

end Evaluate

/-! ## Concrete cases -/

/-- Two parameters with bounds 10 and 5/2 and five grid points: 625 rows; the row at the end of the first axis, the start of the
second and so on has moduli `10 - 10 i` and `0 + 5/4 i`. -/
example : ∃ moduli : List (List ℂ), evaluationModuli 2 [10, 5 / 2] 5 = .ok ([5, 5, 5, 5], moduli) ∧ moduli.length = 625 ∧
    moduli[4 * 125 + 0 * 25 + 2 * 5 + 3]? = some [⟨10, -10⟩, ⟨0, 5 / 4⟩] := by
  obtain ⟨moduli, h1, h2, h3⟩ := C123_grid [10, 5 / 2] (by norm_num) (by simp) 5 (by norm_num)
  refine ⟨moduli, h1, h2, ?_⟩
  have := h3 [4, 0, 2, 3] (.cons (by norm_num) (.cons (by norm_num) (.cons (by norm_num) (.cons (by norm_num) .nil))))
  rw [show ndOffset (List.replicate (2 * [(10 : ℝ), 5 / 2].length) 5) [4, 0, 2, 3] = 4 * 125 + 0 * 25 + 2 * 5 + 3 from rfl] at this
  rw [this]
  simp [List.ofFn_succ]
  norm_num

/-- Three rows in batches of two: the third row is alone in its batch. -/
example : evaluate (fun k : ℕ => (k, k + 1)) (fun k n => (List.range n).map (10 * k + ·)) (fun k h m => (k, h, m))
    ["a", "b", "c"] [7, 8, 9] 2 0 = .ok [(0, "a", 7), (1, "b", 8), (10, "c", 9)] := by
  unfold evaluate
  simp only [List.length_cons, List.length_nil]
  norm_num
  rfl

end Cyjax
