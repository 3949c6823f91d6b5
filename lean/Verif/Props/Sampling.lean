import Verif.Lemmas.LineKinds
import Verif.Lemmas.ExampleCubic
import Verif.Props.Projective

/-! # Sampled points (C32, C33)

The root finder is any function that is exact for a non-zero leading coefficient (`ExactRoots`); the draws
`(p, q)` are arbitrary lines whose direction `q` does not lie on the variety (true with probability one). -/

namespace Cyjax

open Cyjax.Polynomial Cyjax.Variety Cyjax.Projective MvPolynomial

/-! ## C32 -/

/-- C32: for a general homogeneous polynomial of degree `d`, sampling succeeds and every returned point lies on
one of the lines and satisfies the defining equation. (Parameters must not be called `t`, `p` or `q`.) -/
theorem C32_homogeneous_partial (P : PolyObj) (name : List Char) (m d : ℕ) (h : Proper P name m)
    (hh : HomogeneousIn P.poly name m d) (hn : LineNames P.md.params) (o : SymOrder) (ho : o.Valid)
    (roots : List ℂ → List ℂ) (hr : ExactRoots roots) (ps : List ℂ) (hps : ps.length = P.md.params.length)
    (count : ℕ) (draws : List ((Fin (m + 1) → ℂ) × (Fin (m + 1) → ℂ)))
    (hq : ∀ x ∈ draws, defining (.generic P) (List.ofFn x.2) (.vec ps) none ≠ .ok 0) :
    ∃ zs, sampleIntersect (.generic P) o roots ps count
        (draws.map fun x => (List.ofFn x.1, List.ofFn x.2)) = .ok zs ∧
      ∀ z ∈ zs, defining (.generic P) z (.vec ps) none = .ok 0 ∧
        ∃ x ∈ draws, ∃ r : ℂ, z = List.ofFn (fun i => x.1 i + r * x.2 i) := by
  obtain ⟨e, he⟩ := lineCall_generic h hn ho
  obtain ⟨zs, h1, _, h3⟩ := sample_ok ho he (scales_generic h hh) hr ps hps count draws hq
  exact ⟨zs, h1, h3⟩

/-- C32: the Dwork polynomials (with a real factor). -/
theorem C32_dwork (n : ℕ) (hn : 0 < n) (f : DworkFactor) (hf : f.value.im = 0) (o : SymOrder) (ho : o.Valid)
    (roots : List ℂ → List ℂ) (hr : ExactRoots roots) (psi : ℂ) (count : ℕ)
    (draws : List ((Fin n → ℂ) × (Fin n → ℂ)))
    (hq : ∀ x ∈ draws, ∑ j, x.2 j ^ n + f.value * psi * ∏ j, x.2 j ≠ 0) :
    ∃ zs, sampleIntersect (.dwork n f) o roots [psi] count
        (draws.map fun x => (List.ofFn x.1, List.ofFn x.2)) = .ok zs ∧
      ∀ z ∈ zs, ∃ x ∈ draws, ∃ r : ℂ, z = List.ofFn (fun i => x.1 i + r * x.2 i) ∧
        ∑ j, (x.1 j + r * x.2 j) ^ n + f.value * psi * ∏ j, (x.1 j + r * x.2 j) = 0 := by
  obtain ⟨e, he⟩ := lineCall_dwork hn hf (o := o)
  obtain ⟨zs, h1, _, h3⟩ := sample_ok ho he (scales_dwork f) hr [psi] rfl count draws (by
    intro x hx
    rw [defining_dwork]
    intro h
    exact hq x hx (Except.ok.inj h))
  refine ⟨zs, h1, fun z hz => ?_⟩
  obtain ⟨h4, x, hx, r, rfl⟩ := h3 z hz
  rw [defining_dwork] at h4
  exact ⟨x, hx, r, rfl, Except.ok.inj h4⟩

/-- C32: the Fermat polynomials. -/
theorem C32_fermat (n : ℕ) (hn : 0 < n) (o : SymOrder) (ho : o.Valid)
    (roots : List ℂ → List ℂ) (hr : ExactRoots roots) (count : ℕ)
    (draws : List ((Fin n → ℂ) × (Fin n → ℂ))) (hq : ∀ x ∈ draws, ∑ j, x.2 j ^ n ≠ 0) :
    ∃ zs, sampleIntersect (.fermat n) o roots [] count
        (draws.map fun x => (List.ofFn x.1, List.ofFn x.2)) = .ok zs ∧
      ∀ z ∈ zs, ∃ x ∈ draws, ∃ r : ℂ, z = List.ofFn (fun i => x.1 i + r * x.2 i) ∧
        ∑ j, (x.1 j + r * x.2 j) ^ n = 0 := by
  obtain ⟨e, he⟩ := lineCall_fermat hn (o := o)
  obtain ⟨zs, h1, _, h3⟩ := sample_ok ho he scales_fermat hr [] rfl count draws (by
    intro x hx
    rw [defining_fermat]
    intro h
    exact hq x hx (Except.ok.inj h))
  refine ⟨zs, h1, fun z hz => ?_⟩
  obtain ⟨h4, x, hx, r, rfl⟩ := h3 z hz
  rw [defining_fermat] at h4
  exact ⟨x, hx, r, rfl, Except.ok.inj h4⟩

private theorem toArr_ofFn {n : ℕ} (f : Fin n → ℂ) : toArr n (List.ofFn f) = f := by
  funext i
  simp [toArr]

/-- Conversion of points on the variety to affine coordinates. -/
private theorem affine_ok {V : HomKind} {n d : ℕ} (hs : Scales V (n + 1) d) (hres : Restricts V n) {ps : List ℂ}
    (hps : ps.length = V.md.params.length) (Z : Fin (n + 1) → ℂ) (hZ : Z ≠ 0)
    (h0 : defining V (List.ofFn Z) (.vec ps) none = .ok 0) :
    defining V (List.ofFn (homToAffineAuto Z).1) (.vec ps) (some (.index (homToAffineAuto Z).2)) = .ok 0 := by
  obtain ⟨c, hc, h1⟩ := C17_same_point Z hZ
  rw [hres ps _ _ hps]
  have h2 : affineToHom (homToAffineAuto Z).1 ((homToAffineAuto Z).2 : ℕ) = fun i => c * Z i := funext h1
  rw [h2, hs ps Z c 0 hps h0, mul_zero]

private theorem sample_affine {V : HomKind} {n d : ℕ} {o : SymOrder} {e : Expr} (ho : o.Valid)
    (h : LineCall V (n + 1) o e) (hs : Scales V (n + 1) d) (hres : Restricts V n) {roots : List ℂ → List ℂ}
    (hr : ExactRoots roots) (ps : List ℂ) (hps : ps.length = V.md.params.length) (count : ℕ)
    (draws : List ((Fin (n + 1) → ℂ) × (Fin (n + 1) → ℂ)))
    (hq : ∀ x ∈ draws, defining V (List.ofFn x.2) (.vec ps) none ≠ .ok 0)
    (hpq : ∀ x ∈ draws, ∀ r : ℂ, ∃ i, x.1 i + r * x.2 i ≠ 0) :
    ∃ zs, sampleIntersectAffine n V o roots ps count
        (draws.map fun x => (List.ofFn x.1, List.ofFn x.2)) = .ok zs ∧
      zs.length = min count (draws.length * d) ∧
      ∀ z ∈ zs, defining V (List.ofFn z.1) (.vec ps) (some (.index z.2)) = .ok 0 := by
  obtain ⟨zs, h1, h2, h3⟩ := sample_ok ho h hs hr ps hps count draws hq
  refine ⟨zs.map fun z => homToAffineAuto (toArr (n + 1) z), ?_, ?_, ?_⟩
  · unfold sampleIntersectAffine
    rw [h1]
  · rw [List.length_map, h2]
  · intro z hz
    obtain ⟨w, hw, rfl⟩ := List.mem_map.1 hz
    obtain ⟨h4, x, hx, r, rfl⟩ := h3 w hw
    rw [toArr_ofFn]
    refine affine_ok hs hres hps _ ?_ h4
    obtain ⟨i, hi⟩ := hpq x hx r
    intro h0
    exact hi (congrFun h0 i)

/-- C32: with `affine=True`, every returned pair of affine coordinates and patch satisfies the defining equation
in that patch (lines through the origin excluded: `p` and `q` are not parallel). -/
theorem C32_affine_partial (P : PolyObj) (name : List Char) (m d : ℕ) (h : Proper P name m)
    (hh : HomogeneousIn P.poly name m d) (hpatch : ∀ j : Fin (m + 1), HasPatch P name j)
    (hn : LineNames P.md.params) (o : SymOrder) (ho : o.Valid)
    (roots : List ℂ → List ℂ) (hr : ExactRoots roots) (ps : List ℂ) (hps : ps.length = P.md.params.length)
    (count : ℕ) (draws : List ((Fin (m + 1) → ℂ) × (Fin (m + 1) → ℂ)))
    (hq : ∀ x ∈ draws, defining (.generic P) (List.ofFn x.2) (.vec ps) none ≠ .ok 0)
    (hpq : ∀ x ∈ draws, ∀ r : ℂ, ∃ i, x.1 i + r * x.2 i ≠ 0) :
    ∃ zs, sampleIntersectAffine m (.generic P) o roots ps count
        (draws.map fun x => (List.ofFn x.1, List.ofFn x.2)) = .ok zs ∧
      zs.length = min count (draws.length * d) ∧
      ∀ z ∈ zs, defining (.generic P) (List.ofFn z.1) (.vec ps) (some (.index z.2)) = .ok 0 := by
  obtain ⟨e, he⟩ := lineCall_generic h hn ho
  exact sample_affine ho he (scales_generic h hh) (restricts_generic h hpatch) hr ps hps count draws hq hpq

/-- C32: the same for the Dwork and Fermat polynomials. -/
theorem C32_affine_dwork (n : ℕ) (f : DworkFactor) (hf : f.value.im = 0) (o : SymOrder) (ho : o.Valid)
    (roots : List ℂ → List ℂ) (hr : ExactRoots roots) (psi : ℂ) (count : ℕ)
    (draws : List ((Fin (n + 1) → ℂ) × (Fin (n + 1) → ℂ)))
    (hq : ∀ x ∈ draws, ∑ j, x.2 j ^ (n + 1) + f.value * psi * ∏ j, x.2 j ≠ 0)
    (hpq : ∀ x ∈ draws, ∀ r : ℂ, ∃ i, x.1 i + r * x.2 i ≠ 0) :
    ∃ zs, sampleIntersectAffine n (.dwork (n + 1) f) o roots [psi] count
        (draws.map fun x => (List.ofFn x.1, List.ofFn x.2)) = .ok zs ∧
      ∀ z ∈ zs, 1 + (∑ j, z.1 j ^ (n + 1) + f.value * psi * ∏ j, z.1 j) = 0 := by
  obtain ⟨e, he⟩ := lineCall_dwork (Nat.succ_pos n) hf (o := o)
  obtain ⟨zs, h1, _, h2⟩ := sample_affine ho he (scales_dwork f) (restricts_dwork f) hr [psi] rfl count draws (by
    intro x hx
    rw [defining_dwork]
    intro h
    exact hq x hx (Except.ok.inj h)) hpq
  refine ⟨zs, h1, fun z hz => ?_⟩
  have := h2 z hz
  rw [defining_dwork_patch] at this
  exact Except.ok.inj this

theorem C32_affine_fermat (n : ℕ) (o : SymOrder) (ho : o.Valid)
    (roots : List ℂ → List ℂ) (hr : ExactRoots roots) (count : ℕ)
    (draws : List ((Fin (n + 1) → ℂ) × (Fin (n + 1) → ℂ)))
    (hq : ∀ x ∈ draws, ∑ j, x.2 j ^ (n + 1) ≠ 0)
    (hpq : ∀ x ∈ draws, ∀ r : ℂ, ∃ i, x.1 i + r * x.2 i ≠ 0) :
    ∃ zs, sampleIntersectAffine n (.fermat (n + 1)) o roots [] count
        (draws.map fun x => (List.ofFn x.1, List.ofFn x.2)) = .ok zs ∧
      ∀ z ∈ zs, 1 + ∑ j, z.1 j ^ (n + 1) = 0 := by
  obtain ⟨e, he⟩ := lineCall_fermat (Nat.succ_pos n) (o := o)
  obtain ⟨zs, h1, _, h2⟩ := sample_affine ho he scales_fermat restricts_fermat hr [] rfl count draws (by
    intro x hx
    rw [defining_fermat]
    intro h
    exact hq x hx (Except.ok.inj h)) hpq
  refine ⟨zs, h1, fun z hz => ?_⟩
  have := h2 z hz
  rw [defining_fermat_patch] at this
  exact Except.ok.inj this

/-- C32: what the property says, and does not hold, without the condition on names: sampling fails for every variety with a parameter called `t`. -/
theorem C32_clash_violated (V : HomKind) (ht : tName ∈ V.md.params) (o : SymOrder) (ho : o.Valid)
    (roots : List ℂ → List ℂ) (ps : List ℂ) (count : ℕ) (draws : List (List ℂ × List ℂ)) :
    ∃ e, sampleIntersect V o roots ps count draws = .error e := by
  have key : ∃ e, intersectPoly V o = .error e := by
    unfold intersectPoly
    cases dimComplex V with
    | error e => exact ⟨e, rfl⟩
    | ok n =>
      simp only
      cases V.callSymbolic (lineExprs n) (V.md.params.map .sym) o.subst with
      | error e => exact ⟨e, rfl⟩
      | ok e =>
        simp only
        rcases Nat.eq_zero_or_pos n with rfl | h0
        · -- no coordinates: the names of the two empty arrays coincide
          have h1 : readSymArray [tName] = .ok (tName, none) := by
            unfold readSymArray
            simp only [splitNat_scalar.2 (splitSubscript_good tName good_t)]
            rw [if_pos (by simp)]
          have hargs : symArrayArgs [[tName], symArray pName 0, symArray qName 0] V.md.params =
              .ok ⟨some [tName, "dummy".toList, "dummy".toList], some V.md.params, some [none, some [], some []]⟩ := by
            unfold symArrayArgs
            rw [List.mapM_cons, h1]
            rfl
          rw [hargs]
          simp only
          cases expand e with
          | none => exact ⟨_, rfl⟩
          | some p =>
            simp only
            unfold fromSympy
            rw [if_neg (by simp)]
            have hscan := scan_ok_iff ⟨some [tName, "dummy".toList, "dummy".toList], some V.md.params,
              some [none, some [], some []]⟩ _ rfl (o.free e) (ho.nodup e)
              (noMix_kind (fun h => by cases h) _)
            by_cases hok : ∀ v ∈ o.free e, okSym ⟨some [tName, "dummy".toList, "dummy".toList], some V.md.params,
              some [none, some [], some []]⟩ [tName, "dummy".toList, "dummy".toList] v
            · obtain ⟨app, hs⟩ := hscan.1 hok
              rw [hs]
              unfold finish
              simp only
              rw [if_pos (by simp only [stateOf]; decide)]
              exact ⟨_, rfl⟩
            · obtain ⟨err, hs⟩ := hscan.2 hok
              rw [hs]
              exact ⟨_, rfl⟩
        · rw [symArrayArgs_line h0]
          simp only
          cases expand e with
          | none => exact ⟨_, rfl⟩
          | some p =>
            simp only
            unfold fromSympy
            rw [if_neg (by simp)]
            set a : FromSympyArgs := ⟨some [tName, pName, qName], some V.md.params,
              some [none, some (List.range n), some (List.range n)]⟩ with ha
            have hscan := scan_ok_iff a _ rfl (o.free e) (ho.nodup e)
              (noMix_kind (fun h => by cases h) _)
            by_cases hok : ∀ v ∈ o.free e, okSym a [tName, pName, qName] v
            · obtain ⟨app, hs⟩ := hscan.1 hok
              rw [hs]
              unfold finish
              simp only
              by_cases h1 : ¬ ((stateOf a [tName, pName, qName] (o.free e) app).names ++ [paramsKey]).Nodup
              · rw [if_pos h1]; exact ⟨_, rfl⟩
              rw [if_neg h1]
              by_cases h2 : (stateOf a [tName, pName, qName] (o.free e) app).names.length ≠
                  (stateOf a [tName, pName, qName] (o.free e) app).inds.length
              · rw [if_pos h2]; exact ⟨_, rfl⟩
              rw [if_neg h2, if_pos]
              · exact ⟨_, rfl⟩
              · refine Or.inr (Or.inr (Or.inl ⟨tName, ?_, ?_⟩))
                · simp [finishMeta, stateOf, indsOf, ha, Meta.varSyms, varSymbols]
                · simp only [finishMeta, stateOf, ha]
                  exact List.mem_append_left _ ht
            · obtain ⟨err, hs⟩ := hscan.2 hok
              rw [hs]
              exact ⟨_, rfl⟩
  obtain ⟨e, he⟩ := key
  unfold sampleIntersect
  rw [he]
  exact ⟨e, rfl⟩

/-- Five points on the Dwork quintic (`psi = 3`) on the line through `(0, 1, 0, 0, 0)` and `(1, 0, 0, 0, 0)`. -/
example : ∃ zs, sampleIntersect (.dwork 5 (.flag true)) someOrder someRoots [3] 5
    ([(fun i => if i = 1 then 1 else 0, fun i => if i = 0 then 1 else 0)].map
      fun x : (Fin 5 → ℂ) × (Fin 5 → ℂ) => (List.ofFn x.1, List.ofFn x.2)) = .ok zs ∧ zs.length = 5 := by
  obtain ⟨e, he⟩ := lineCall_dwork (n := 5) (f := .flag true) (by norm_num)
    (by simp [DworkFactor.value]) (o := someOrder)
  obtain ⟨zs, h1, h2, _⟩ := sample_ok someOrder_valid he (scales_dwork (.flag true)) someRoots_exact [3] rfl 5
    [(fun i => if i = 1 then 1 else 0, fun i => if i = 0 then 1 else 0)] (by
      intro x hx
      rw [List.mem_singleton] at hx
      subst hx
      rw [defining_dwork]
      intro h
      have := Except.ok.inj h
      simp [Fin.prod_univ_succ] at this)
  exact ⟨zs, h1, by rw [h2]; rfl⟩

example : LineNames cubic.md.params ∧ Proper cubic "z".toList 2 ∧ HomogeneousIn cubic.poly "z".toList 2 3 ∧
    someOrder.Valid ∧ ExactRoots someRoots ∧
    ∃ q : Fin 3 → ℂ, defining (.generic cubic) (List.ofFn q) (.vec [5]) none ≠ .ok 0 := by
  refine ⟨psi_names, cubic_proper, cubic_homogeneous, someOrder_valid, someRoots_exact, fun i => if i = 0 then 1 else 0, ?_⟩
  obtain ⟨ρ, r1, r2⟩ := exists_point cubic_proper (fun i => if i = 0 then 1 else 0) [5] rfl
  have := defining_none cubic_proper ρ
  simp only [r1, r2] at this
  rw [this]
  have h0 := r1 0
  have h1 := r1 1
  have h2 := r1 2
  intro h
  have h := Except.ok.inj h
  have : eval ρ cubic.poly = ρ (zSym 0) ^ 3 + ρ (zSym 1) ^ 3 + ρ (zSym 2) ^ 3 +
      ρ "psi".toList * (ρ (zSym 0) * ρ (zSym 1) * ρ (zSym 2)) := by
    simp [cubic]
    try ring
  rw [this] at h
  simp only [Fin.val_zero, Fin.val_one, Fin.val_two] at h0 h1 h2
  unfold zSym at h
  rw [h0, h1, h2] at h
  simp at h

example : tName ∈ (HomKind.generic ⟨⟨[("z".toList, some [0, 1])], ["t".toList]⟩, 0, []⟩).md.params := by decide

/-! ## C33 -/

private theorem sampleCount_eq (count n : ℕ) (hn : 0 < n) : sampleCount count n = ⌈(count : ℚ) / (n : ℚ)⌉₊ := by
  apply eq_of_forall_ge_iff
  intro k
  rw [Nat.ceil_le, div_le_iff₀ (by exact_mod_cast hn), sampleCount, Nat.div_le_iff_le_mul_add_pred hn]
  rw [← Nat.cast_mul, Nat.cast_le, mul_comm]
  omega

/-- C33: the number of points returned, for a variety of degree `d` in `n = m + 1` coordinates: `ceil(count/n)` lines with
`d` points each, cut at `count`. -/
theorem C33_length (P : PolyObj) (name : List Char) (m d : ℕ) (h : Proper P name m)
    (hh : HomogeneousIn P.poly name m d) (hn : LineNames P.md.params) (o : SymOrder) (ho : o.Valid)
    (roots : List ℂ → List ℂ) (hr : ExactRoots roots) (ps : List ℂ) (hps : ps.length = P.md.params.length)
    (count : ℕ) (draws : List ((Fin (m + 1) → ℂ) × (Fin (m + 1) → ℂ)))
    (hd : draws.length = sampleCount count (m + 1))
    (hq : ∀ x ∈ draws, defining (.generic P) (List.ofFn x.2) (.vec ps) none ≠ .ok 0) :
    ∃ zs, sampleIntersect (.generic P) o roots ps count
        (draws.map fun x => (List.ofFn x.1, List.ofFn x.2)) = .ok zs ∧
      zs.length = min count (⌈(count : ℚ) / (m + 1 : ℕ)⌉₊ * d) := by
  obtain ⟨e, he⟩ := lineCall_generic h hn ho
  obtain ⟨zs, h1, h2, _⟩ := sample_ok ho he (scales_generic h hh) hr ps hps count draws hq
  refine ⟨zs, h1, ?_⟩
  rw [h2, hd, sampleCount_eq _ _ (Nat.succ_pos m)]

private theorem count_le (count n d : ℕ) (hn : 0 < n) (hd : n ≤ d) : count ≤ sampleCount count n * d := by
  refine le_trans ?_ (Nat.mul_le_mul_left _ hd)
  unfold sampleCount
  have := Nat.div_add_mod (count + n - 1) n
  have h2 := Nat.mod_lt (count + n - 1) hn
  rw [mul_comm]
  omega

/-- C33: exactly `count` points if the degree is at least the number of coordinates. -/
theorem C33_count_partial (P : PolyObj) (name : List Char) (m d : ℕ) (h : Proper P name m)
    (hh : HomogeneousIn P.poly name m d) (hmd : m + 1 ≤ d) (hn : LineNames P.md.params) (o : SymOrder) (ho : o.Valid)
    (roots : List ℂ → List ℂ) (hr : ExactRoots roots) (ps : List ℂ) (hps : ps.length = P.md.params.length)
    (count : ℕ) (draws : List ((Fin (m + 1) → ℂ) × (Fin (m + 1) → ℂ)))
    (hd : draws.length = sampleCount count (m + 1))
    (hq : ∀ x ∈ draws, defining (.generic P) (List.ofFn x.2) (.vec ps) none ≠ .ok 0) :
    ∃ zs, sampleIntersect (.generic P) o roots ps count
        (draws.map fun x => (List.ofFn x.1, List.ofFn x.2)) = .ok zs ∧ zs.length = count := by
  obtain ⟨e, he⟩ := lineCall_generic h hn ho
  obtain ⟨zs, h1, h2, _⟩ := sample_ok ho he (scales_generic h hh) hr ps hps count draws hq
  refine ⟨zs, h1, ?_⟩
  rw [h2, hd]
  exact min_eq_left (count_le _ _ _ (Nat.succ_pos m) hmd)

/-- C33: always exactly `count` points on the Dwork hypersurfaces, -/
theorem C33_dwork (n : ℕ) (hn : 0 < n) (f : DworkFactor) (hf : f.value.im = 0) (o : SymOrder) (ho : o.Valid)
    (roots : List ℂ → List ℂ) (hr : ExactRoots roots) (psi : ℂ) (count : ℕ)
    (draws : List ((Fin n → ℂ) × (Fin n → ℂ))) (hd : draws.length = sampleCount count n)
    (hq : ∀ x ∈ draws, ∑ j, x.2 j ^ n + f.value * psi * ∏ j, x.2 j ≠ 0) :
    ∃ zs, sampleIntersect (.dwork n f) o roots [psi] count
        (draws.map fun x => (List.ofFn x.1, List.ofFn x.2)) = .ok zs ∧ zs.length = count := by
  obtain ⟨e, he⟩ := lineCall_dwork hn hf (o := o)
  obtain ⟨zs, h1, h2, _⟩ := sample_ok ho he (scales_dwork f) hr [psi] rfl count draws (by
    intro x hx
    rw [defining_dwork]
    intro h
    exact hq x hx (Except.ok.inj h))
  exact ⟨zs, h1, by rw [h2, hd]; exact min_eq_left (count_le _ _ _ hn le_rfl)⟩

/-- C33: and on the Fermat hypersurfaces. -/
theorem C33_fermat (n : ℕ) (hn : 0 < n) (o : SymOrder) (ho : o.Valid)
    (roots : List ℂ → List ℂ) (hr : ExactRoots roots) (count : ℕ)
    (draws : List ((Fin n → ℂ) × (Fin n → ℂ))) (hd : draws.length = sampleCount count n)
    (hq : ∀ x ∈ draws, ∑ j, x.2 j ^ n ≠ 0) :
    ∃ zs, sampleIntersect (.fermat n) o roots [] count
        (draws.map fun x => (List.ofFn x.1, List.ofFn x.2)) = .ok zs ∧ zs.length = count := by
  obtain ⟨e, he⟩ := lineCall_fermat hn (o := o)
  obtain ⟨zs, h1, h2, _⟩ := sample_ok ho he scales_fermat hr [] rfl count draws (by
    intro x hx
    rw [defining_fermat]
    intro h
    exact hq x hx (Except.ok.inj h))
  exact ⟨zs, h1, by rw [h2, hd]; exact min_eq_left (count_le _ _ _ hn le_rfl)⟩

/-- C33: for a smaller degree than the number `n` of coordinates, too few points are returned for every positive
multiple of `n`. -/
theorem C33_violated (P : PolyObj) (name : List Char) (m d : ℕ) (h : Proper P name m)
    (hh : HomogeneousIn P.poly name m d) (hmd : d < m + 1) (hn : LineNames P.md.params) (o : SymOrder) (ho : o.Valid)
    (roots : List ℂ → List ℂ) (hr : ExactRoots roots) (ps : List ℂ) (hps : ps.length = P.md.params.length)
    (k : ℕ) (hk : 0 < k) (draws : List ((Fin (m + 1) → ℂ) × (Fin (m + 1) → ℂ)))
    (hd : draws.length = sampleCount ((m + 1) * k) (m + 1))
    (hq : ∀ x ∈ draws, defining (.generic P) (List.ofFn x.2) (.vec ps) none ≠ .ok 0) :
    ∃ zs, sampleIntersect (.generic P) o roots ps ((m + 1) * k)
        (draws.map fun x => (List.ofFn x.1, List.ofFn x.2)) = .ok zs ∧ zs.length = k * d ∧
      zs.length < (m + 1) * k := by
  obtain ⟨e, he⟩ := lineCall_generic h hn ho
  obtain ⟨zs, h1, h2, _⟩ := sample_ok ho he (scales_generic h hh) hr ps hps ((m + 1) * k) draws hq
  have hc : sampleCount ((m + 1) * k) (m + 1) = k := by
    unfold sampleCount
    rw [show (m + 1) * k + (m + 1) - 1 = m + (m + 1) * k by omega, Nat.add_mul_div_left _ _ (Nat.succ_pos m),
      Nat.div_eq_of_lt (Nat.lt_succ_self m), zero_add]
  have hlt : k * d < (m + 1) * k := by
    rw [mul_comm (m + 1) k]
    exact Nat.mul_lt_mul_of_pos_left hmd hk
  rw [hd, hc, min_eq_right hlt.le] at h2
  exact ⟨zs, h1, h2, by rw [h2]; exact hlt⟩

/-- The line `z0 + z1 = 0`. -/
private noncomputable def pointPoly : PolyObj :=
  ⟨⟨[("z".toList, some [0, 1])], []⟩, X (zSym 0) + X (zSym 1), [zSym 0, zSym 1]⟩

private theorem pointPoly_proper : Proper pointPoly "z".toList 1 where
  vars := rfl
  wf :=
    { namesNodup := by decide
      good := by
        intro v hv
        simp only [pointPoly, List.mem_singleton] at hv
        subst hv
        exact goodZ
      indsNodup := by
        intro v hv inds hi
        simp only [pointPoly, List.mem_singleton] at hv
        subst hv
        cases hi
        decide
      paramsNodup := by simp [pointPoly]
      params := by simp [pointPoly] }
  declared := by
    classical
    intro s hs
    have h1 := vars_add_subset _ _ hs
    simp only [vars_X, Finset.mem_union, Finset.mem_singleton] at h1
    rcases h1 with rfl | rfl
    · decide
    · decide
  real := (realCoeffs_X _).add (realCoeffs_X _)

/-- Two points requested, one returned. -/
example : ∃ zs, sampleIntersect (.generic pointPoly) someOrder someRoots [] 2
    ([((fun i => if i = 1 then 1 else 0 : Fin 2 → ℂ), (fun i => if i = 0 then 1 else 0 : Fin 2 → ℂ))].map
      fun x => (List.ofFn x.1, List.ofFn x.2)) = .ok zs ∧ zs.length = 1 := by
  obtain ⟨zs, h1, h2, _⟩ := C33_violated pointPoly "z".toList 1 1 pointPoly_proper
    ((HomogeneousIn.coord goodZ (by omega)).add (HomogeneousIn.coord goodZ (by omega))) (by omega)
    ⟨by simp [pointPoly], by simp [pointPoly]⟩ someOrder someOrder_valid someRoots someRoots_exact [] rfl 1 (by omega)
    [((fun i => if i = 1 then 1 else 0), (fun i => if i = 0 then 1 else 0))] rfl (by
      intro x hx
      rw [List.mem_singleton] at hx
      subst hx
      obtain ⟨ρ, r1, r2⟩ := exists_point pointPoly_proper (fun i => if i = 0 then 1 else 0) [] rfl
      have := defining_none pointPoly_proper ρ
      simp only [r1, r2] at this
      rw [this]
      intro h
      have h := Except.ok.inj h
      have h0 := r1 0
      have h1 := r1 1
      have he : eval ρ pointPoly.poly = ρ (mergeSubscript "z".toList 0) + ρ (mergeSubscript "z".toList 1) := by
        simp [pointPoly, zSym]
      rw [he] at h
      simp only [Fin.val_zero, Fin.val_one] at h0 h1
      rw [h0, h1] at h
      simp at h)
  exact ⟨zs, h1, h2⟩

end Cyjax
