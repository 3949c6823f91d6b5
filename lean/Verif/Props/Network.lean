import Verif.Spec.Network
import Verif.Props.HNet
import Mathlib.MeasureTheory.Integral.Bochner.Basic
import Mathlib.MeasureTheory.Integral.Bochner.Set

/-! # The function computed by the network (C149) -/

namespace Cyjax

open Cyjax.Ml Cyjax.Spec
open Cyjax.Polynomial (PyErr)
open scoped BigOperators

private theorem sum_range_eq (x : List ℝ) (f : ℕ → ℝ) :
    ((List.range x.length).map fun i => x.getD i 0 * f i).sum = ∑ i : Fin x.length, x.get i * f i := by
  rw [← List.sum_ofFn]
  congr 1
  apply List.ext_getElem
  · simp
  · intro k h1 h2
    rw [List.length_map, List.length_range] at h1
    simp [List.getD_eq_getElem?_getD, List.getElem?_eq_getElem h1]

private theorem dense_ofFn (s : ℕ) (p : DenseParams) (x : List ℝ) :
    dense s p x = List.ofFn fun j : Fin s => ∑ i : Fin x.length, x.get i * p.kernel i j + p.bias j := by
  unfold dense
  apply List.ext_getElem
  · simp
  · intro k h1 h2
    simp only [List.getElem_map, List.getElem_range, List.getElem_ofFn]
    rw [sum_range_eq x fun i => p.kernel i k]

private theorem dropped (off : Bool) (keep : ℕ → ℕ → ℕ → Bool) (row l : ℕ) (rate : Option ℚ) (x : List ℝ) :
    (match rate with | none => x | some r => dropout off keep row l r x) =
      x.mapIdx fun j a => dropFactor off rate (keep row l j) * a := by
  cases rate with
  | none => apply List.ext_getElem <;> simp [dropFactor]
  | some r =>
    simp only
    unfold dropout
    split_ifs with h1 h2
    · have h1' : off = true ∨ r = 0 := h1.symm
      apply List.ext_getElem <;> simp [dropFactor, h1']
    · have h1' : ¬ (off = true ∨ r = 0) := fun h => h1 h.symm
      apply List.ext_getElem
      · simp
      · intro k _ _
        simp only [List.getElem_mapIdx, List.getElem_replicate, dropFactor]
        rw [if_neg h1', if_pos h2, zero_mul]
    · have h1' : ¬ (off = true ∨ r = 0) := fun h => h1 h.symm
      apply List.ext_getElem
      · simp
      · intro k _ _
        simp only [List.getElem_mapIdx, dropFactor]
        rw [if_neg h1', if_neg h2]
        split_ifs <;> ring

private theorem sigma_list {x y : List ℝ} (h : x = y) :
    (⟨x.length, x.get⟩ : Σ m : ℕ, Fin m → ℝ) = ⟨y.length, y.get⟩ := by rw [h]

private theorem sigma_ofFn {m : ℕ} (f : Fin m → ℝ) :
    (⟨(List.ofFn f).length, (List.ofFn f).get⟩ : Σ m : ℕ, Fin m → ℝ) = ⟨m, f⟩ := by
  have hl : (List.ofFn f).length = m := List.length_ofFn
  refine Sigma.ext hl ?_
  refine (Fin.heq_fun_iff hl).2 fun i => ?_
  simp

private theorem hidden_layers (act : ℝ → ℝ) (off : Bool) (keep : ℕ → ℕ → ℕ → Bool) (row : ℕ) (params : ℕ → DenseParams)
    (rate : ℕ → Option ℚ) : ∀ (ls : List (ℕ × Option ℚ)) (k : ℕ) (x : List ℝ), (∀ i, ∀ h : i < ls.length, ls[i].2 = rate (k + i)) →
      ∀ y, y = (ls.zipIdx k).foldl (fun x l =>
        let x := (dense l.1.1 (params l.2) x).map act
        match l.1.2 with
        | none => x
        | some r => dropout off keep row l.2 r x) x →
      (⟨y.length, y.get⟩ : Σ m : ℕ, Fin m → ℝ) =
        denseLayers act (fun l => (params l).kernel) (fun l => (params l).bias)
          (fun l j => dropFactor off (rate l) (keep row l j)) (ls.map Prod.fst) k ⟨x.length, x.get⟩
  | [], _, x, _, y, hy => by
    rw [List.zipIdx_nil, List.foldl_nil] at hy
    rw [hy]
    rfl
  | (s, r) :: ls, k, x, h, y, hy => by
    have hr : r = rate k := h 0 (Nat.succ_pos _)
    rw [List.zipIdx_cons, List.foldl_cons] at hy
    simp only at hy
    have := hidden_layers act off keep row params rate ls (k + 1) _ (fun i hi => by
      have := h (i + 1) (by simpa using hi)
      rw [show k + 1 + i = k + (i + 1) by omega]
      exact this) y hy
    rw [this, List.map_cons, denseLayers]
    congr 1
    rw [sigma_list (dropped off keep row k r _), dense_ofFn, List.map_ofFn]
    rw [sigma_list (y := List.ofFn fun j : Fin s => dropFactor off (rate k) (keep row k j) *
        act (∑ i : Fin x.length, x.get i * (params k).kernel i j + (params k).bias j)), sigma_ofFn]
    apply List.ext_getElem
    · simp
    · intro i _ _
      simp [hr]

private theorem output_ofFn (gate : Bool) (m : ℕ) (final : DenseParams) (x : List ℝ) :
    output gate m final x = List.ofFn (gatedLayer gate (m ^ 2) final.kernel final.bias ⟨x.length, x.get⟩) := by
  unfold output gatedLayer
  cases gate
  · simp only [Bool.false_eq_true, if_false]
    rw [dense_ofFn]
  · simp only [if_true]
    rw [dense_ofFn]
    apply List.ext_getElem
    · simp; omega
    · intro k h1 h2
      simp

/-- The rates of the layers; absent ones for layers beyond the list, or without a list. -/
def rateOf (net : HNet) (l : ℕ) : Option ℚ := net.dropoutRates.elim none fun r => (r[l]?).getD none

private theorem rate_getElem (m : ℕ) (q : Option (List (Option ℚ))) (i : ℕ) (hi : i < (q.getD (List.replicate m none)).length) :
    (q.getD (List.replicate m none))[i] = q.elim none fun r => (r[i]?).getD none := by
  cases q with
  | none => simp
  | some r => simp [List.getElem?_eq_getElem (show i < r.length from hi)]

private theorem row_value (net : HNet) (off : Bool) (keep : ℕ → ℕ → ℕ → Bool) (row : ℕ) (params : ℕ → DenseParams)
    (final : DenseParams) (psi : List ℂ) (x : List ℝ)
    (hr : ∀ r, net.dropoutRates = some r → net.layerSizes.length ≤ r.length)
    (hx : features net.powers net.featureAngle net.featureAbs net.featureParts psi = .ok x) :
    net.row (dropout off keep row) params final psi = .ok (List.ofFn
      (gatedLayer net.sigSuppress (net.basisSize ^ 2) final.kernel final.bias
        (denseLayers net.activation (fun l => (params l).kernel) (fun l => (params l).bias)
          (fun l j => dropFactor off (rateOf net l) (keep row l j)) net.layerSizes 0 ⟨x.length, x.get⟩))) := by
  unfold HNet.row
  rw [hx]
  simp only
  rw [output_ofFn]
  have hs : (net.layerSizes.zip (net.dropoutRates.getD (List.replicate net.layerSizes.length none))).map Prod.fst =
      net.layerSizes := by
    apply List.map_fst_zip
    cases h : net.dropoutRates with
    | none => simp
    | some r => simpa using hr r h
  have := hidden_layers net.activation off keep row params (rateOf net)
    (net.layerSizes.zip (net.dropoutRates.getD (List.replicate net.layerSizes.length none))) 0 x (fun i hi => by
      rw [List.getElem_zip]
      simp only [Nat.zero_add, rateOf]
      exact rate_getElem net.layerSizes.length net.dropoutRates i _) _ rfl
  rw [hs] at this
  exact congrArg (fun y => Except.ok (List.ofFn (gatedLayer _ _ _ _ y))) this

/-- **C149.** With no or enough dropout rates, the network maps moduli to the gated last layer of dense layers of the features
(which C83 describes), for any parameters, with the factors of dropout. This holds for one set of moduli; a number is the same as one
modulus. -/
theorem C149_network_partial (net : HNet) (off : Bool) (keep : ℕ → ℕ → ℕ → Bool) (params : ℕ → DenseParams) (final : DenseParams)
    (psi : List ℂ) (x : List ℝ) (hr : ∀ r, net.dropoutRates = some r → net.layerSizes.length ≤ r.length)
    (hx : features net.powers net.featureAngle net.featureAbs net.featureParts psi = .ok x) :
    net.apply off (some keep) params final (.single psi) = .ok (.single (List.ofFn
      (gatedLayer net.sigSuppress (net.basisSize ^ 2) final.kernel final.bias
        (denseLayers net.activation (fun l => (params l).kernel) (fun l => (params l).bias)
          (fun l j => dropFactor off (rateOf net l) (keep 0 l j)) net.layerSizes 0 ⟨x.length, x.get⟩)))) ∧
    ∀ z, psi = [z] → net.apply off (some keep) params final (.scalar z) =
      net.apply off (some keep) params final (.single psi) := by
  constructor
  · simp only [HNet.apply, HNet.call, row_value net off keep 0 params final psi x hr hx]
  · rintro z rfl
    rfl

private theorem mapM_iff {α β ε : Type*} (f : α → Except ε β) : ∀ (l : List α) (r : List β),
    l.mapM f = .ok r ↔ r.length = l.length ∧ ∀ i, ∀ (h : i < l.length) (h' : i < r.length), f l[i] = .ok r[i]
  | [], r => by
    rw [List.mapM_nil]
    constructor
    · intro h
      obtain rfl := Except.ok.inj h
      simp
    · rintro ⟨h, -⟩
      rw [List.length_nil, List.length_eq_zero_iff] at h
      rw [h]
      rfl
  | a :: l, r => by
    rw [List.mapM_cons]
    constructor
    · intro h
      cases h1 : f a with
      | error e => rw [h1] at h; cases h
      | ok b =>
        cases h2 : l.mapM f with
        | error e => rw [h1, h2] at h; cases h
        | ok bs =>
          rw [h1, h2] at h
          obtain rfl := Except.ok.inj h
          obtain ⟨i1, i2⟩ := (mapM_iff f l bs).1 h2
          refine ⟨by simp [i1], fun i hi hi' => ?_⟩
          cases i with
          | zero => exact h1
          | succ i => exact i2 i (Nat.lt_of_succ_lt_succ hi) (Nat.lt_of_succ_lt_succ hi')
    · rintro ⟨h1, h2⟩
      cases r with
      | nil => simp at h1
      | cons b bs =>
        have e1 : f a = .ok b := h2 0 (Nat.succ_pos _) (Nat.succ_pos _)
        have e2 := (mapM_iff f l bs).2 ⟨by simpa using h1, fun i hi hi' =>
          h2 (i + 1) (Nat.succ_lt_succ hi) (Nat.succ_lt_succ hi')⟩
        rw [e1, e2]
        rfl

/-- **C149, batches.** A batch gives one result for each set of moduli, in the same order, each equal to the result for this set
alone (with the dropout of its row). Arrays with more than two axes are rejected. -/
theorem C149_rows (net : HNet) (off : Bool) (keep : ℕ → ℕ → ℕ → Bool) (params : ℕ → DenseParams) (final : DenseParams)
    (psis : List (List ℂ)) (hs : List (List ℝ)) :
    (net.apply off (some keep) params final (.batch psis) = .ok (.batch hs) ↔ hs.length = psis.length ∧
      ∀ i, ∀ (h : i < psis.length) (h' : i < hs.length),
        net.apply off (some fun _ => keep i) params final (.single psis[i]) = .ok (.single hs[i])) ∧
    net.apply off (some keep) params final .more = .error .valueError := by
  refine ⟨?_, rfl⟩
  have hone : ∀ i z r, net.apply off (some fun _ => keep i) params final (.single z) = .ok (.single r) ↔
      net.row (dropout off keep i) params final z = .ok r := by
    intro i z r
    have hd : dropout off (fun _ => keep i) 0 = dropout off keep i := rfl
    simp only [HNet.apply, HNet.call, hd]
    cases net.row (dropout off keep i) params final z with
    | error e => simp
    | ok y => simp
  have hb : net.apply off (some keep) params final (.batch psis) = .ok (.batch hs) ↔
      psis.zipIdx.mapM (fun x => net.row (dropout off keep x.2) params final x.1) = .ok hs := by
    simp only [HNet.apply, HNet.call]
    cases psis.zipIdx.mapM (fun x => net.row (dropout off keep x.2) params final x.1) with
    | error e => simp
    | ok y => simp
  rw [hb, mapM_iff]
  refine and_congr (by rw [List.length_zipIdx]) ?_
  constructor
  · intro h i hi hi'
    rw [hone]
    have := h i (by rwa [List.length_zipIdx]) hi'
    simp only [List.getElem_zipIdx, Nat.zero_add] at this
    exact this
  · intro h i hi hi'
    have := (hone _ _ _).1 (h i (by rwa [List.length_zipIdx] at hi) hi')
    simp only [List.getElem_zipIdx, Nat.zero_add]
    exact this

/-- **C149, evaluation.** With `deterministic` neither the presence of a key nor its value matters. -/
theorem C149_deterministic (net : HNet) (rngs rngs' : Option (ℕ → ℕ → ℕ → Bool)) (params : ℕ → DenseParams) (final : DenseParams)
    (psi : Moduli) : net.apply true rngs params final psi = net.apply true rngs' params final psi := by
  have hd : ∀ keep keep', dropout true keep = dropout true keep' := by
    intro keep keep'
    funext row l r x
    simp [dropout]
  have : ∀ rngs keep, net.apply true rngs params final psi = net.call (dropout true keep) params final psi := by
    intro rngs keep
    cases rngs with
    | some k => rw [hd keep k]; rfl
    | none =>
      simp only [HNet.apply]
      rw [hd keep fun _ _ _ => true]
      cases net.call (dropout true fun _ _ _ => true) params final psi <;> simp
  rw [this rngs fun _ _ _ => true, this rngs' fun _ _ _ => true]

/-- **C149, missing key.** Without a key the training mode fails for every input if a layer has a rate other than zero and one;
otherwise the key does not matter. -/
theorem C149_missing_key (net : HNet) (params : ℕ → DenseParams) (final : DenseParams) (psi : Moduli) :
    ((∃ l ∈ net.layers, ∃ r, l.2 = some r ∧ r ≠ 0 ∧ r ≠ 1) → ∃ e, net.apply false none params final psi = .error e) ∧
    ((∀ l ∈ net.layers, ∀ r, l.2 = some r → r = 0 ∨ r = 1) → ∀ keep,
      net.apply false none params final psi = net.apply false (some keep) params final psi) := by
  constructor
  · intro h
    simp only [HNet.apply]
    cases net.call (dropout false fun _ _ _ => true) params final psi with
    | error e => exact ⟨e, rfl⟩
    | ok out => exact ⟨.runtimeError, if_pos ⟨trivial, h⟩⟩
  · intro h keep
    have hh : ∀ i x, Ml.hidden net.activation (dropout false (fun _ _ _ => true) i) params net.layerSizes net.dropoutRates x =
        Ml.hidden net.activation (dropout false keep i) params net.layerSizes net.dropoutRates x := by
      intro i x
      unfold Ml.hidden
      have key : ∀ (ls : List (ℕ × Option ℚ)) (k : ℕ) (x : List ℝ), (∀ l ∈ ls, ∀ r, l.2 = some r → r = 0 ∨ r = 1) →
          (ls.zipIdx k).foldl (fun x l =>
            let x := (dense l.1.1 (params l.2) x).map net.activation
            match l.1.2 with
            | none => x
            | some rate => dropout false (fun _ _ _ => true) i l.2 rate x) x =
          (ls.zipIdx k).foldl (fun x l =>
            let x := (dense l.1.1 (params l.2) x).map net.activation
            match l.1.2 with
            | none => x
            | some rate => dropout false keep i l.2 rate x) x := by
        intro ls
        induction ls with
        | nil => intro k x _; rfl
        | cons l ls ih =>
          intro k x hl
          rw [List.zipIdx_cons, List.foldl_cons, List.foldl_cons, ih _ _ fun l hl' => hl l (by simp [hl'])]
          congr 1
          obtain ⟨s, r⟩ := l
          cases r with
          | none => rfl
          | some r =>
            rcases hl (s, some r) (by simp) r rfl with rfl | rfl
            · simp [dropout]
            · simp [dropout]
      exact key _ 0 x h
    have hrow : ∀ i, net.row (dropout false (fun _ _ _ => true) i) params final = net.row (dropout false keep i) params final := by
      intro i
      funext z
      unfold HNet.row
      simp only [hh i]
    have hcall : net.call (dropout false fun _ _ _ => true) params final psi = net.call (dropout false keep) params final psi := by
      unfold HNet.call
      simp only [hrow]
    have hno : ¬ (True ∧ ∃ l ∈ net.layers, ∃ r, l.2 = some r ∧ r ≠ 0 ∧ r ≠ 1) := by
      rintro ⟨-, l, hl, r, hr, h0, h1⟩
      rcases h l hl r hr with rfl | rfl
      · exact h0 rfl
      · exact h1 rfl
    simp only [HNet.apply, hcall]
    cases net.call (dropout false keep) params final psi with
    | error e => rfl
    | ok out => exact if_neg hno

open MeasureTheory in
/-- **C149, dropout.** If entries are kept with probability one minus the rate, dropout does not change the expectation of any
entry. -/
theorem C149_dropout_mean {Ω : Type*} [MeasurableSpace Ω] (μ : Measure Ω) [IsProbabilityMeasure μ]
    (keep : Ω → ℕ → ℕ → ℕ → Bool) (row l : ℕ) (rate : ℚ) (h0 : 0 ≤ rate) (h1 : rate < 1)
    (hm : ∀ j, MeasurableSet {ω | keep ω row l j = true})
    (hk : ∀ j, μ.real {ω | keep ω row l j = true} = 1 - rate) (x : List ℝ) (j : ℕ) :
    (∀ ω, (dropout false (keep ω) row l rate x).length = x.length) ∧
    ∫ ω, (dropout false (keep ω) row l rate x).getD j 0 ∂μ = x.getD j 0 := by
  by_cases hr : rate = 0
  · subst hr
    simp [dropout]
  · have hr1 : rate ≠ 1 := h1.ne
    have hd : ∀ ω, dropout false (keep ω) row l rate x =
        x.mapIdx fun j a => if keep ω row l j then a / (1 - (rate : ℝ)) else 0 := by
      intro ω
      unfold dropout
      rw [if_neg (by simpa using hr), if_neg hr1]
    refine ⟨fun ω => by rw [hd, List.length_mapIdx], ?_⟩
    have hv : ∀ ω, (dropout false (keep ω) row l rate x).getD j 0 =
        Set.indicator {ω | keep ω row l j = true} (fun _ => x.getD j 0 / (1 - rate)) ω := by
      intro ω
      rw [hd, List.getD_eq_getElem?_getD, List.getElem?_mapIdx, List.getD_eq_getElem?_getD, Set.indicator_apply]
      cases x[j]? with
      | none => simp
      | some a => simp
    simp only [hv]
    rw [integral_indicator_const _ (hm j), hk j, smul_eq_mul]
    have : (1 - (rate : ℝ)) ≠ 0 := by
      have : (rate : ℝ) < 1 := by exact_mod_cast h1
      linarith
    field_simp

/-- **C149** fails for the order given in the docstring: with one section, zero kernel and biases 0 and 1 of the last layer, the
output is one half, where `out[0] * sigmoid(out[1])` is zero. -/
theorem C149_documented_violated (keep : ℕ → ℕ → ℕ → Bool) (params : ℕ → DenseParams) :
    ∃ (net : HNet) (final : DenseParams) (x : List ℝ), net.dropoutRates = none ∧ net.layerSizes = [] ∧
      features net.powers net.featureAngle net.featureAbs net.featureParts [1] = .ok x ∧
      net.apply true (some keep) params final (.single [1]) = .ok (.single [1 / 2]) ∧
      List.ofFn (documentedLayer net.sigSuppress (net.basisSize ^ 2) final.kernel final.bias ⟨x.length, x.get⟩) = [0] := by
  obtain ⟨E, -, -, h⟩ := C83_features [1, 2, 3] true true true ![1] ⟨1, by simp⟩ (by norm_num) (by simp)
  have hl : List.ofFn ![(1 : ℂ)] = [1] := by simp
  rw [hl] at h
  refine ⟨⟨1, [], none, [1, 2, 3], true, id, true, true, true⟩, ⟨fun _ _ => 0, fun j => j⟩, _, rfl, rfl, h, ?_, ?_⟩
  · rw [(C149_network_partial _ true keep params _ [1] _ (by simp) h).1]
    simp [gatedLayer, Real.sigmoid_zero, List.ofFn_succ]
  · simp [documentedLayer, List.ofFn_succ]

/-- The hypotheses of C149 are met by a network with two hidden layers, one with dropout. -/
example (keep : ℕ → ℕ → ℕ → Bool) (params : ℕ → DenseParams) (final : DenseParams) : ∃ (net : HNet) (h : List ℝ),
    net.layerSizes = [3, 5] ∧ net.dropoutRates = some [some (1 / 2), none] ∧ h.length = 4 ∧
    net.apply false (some keep) params final (.single [Complex.I, 2]) = .ok (.single h) ∧
    ∃ e, net.apply false none params final (.single [Complex.I, 2]) = .error e := by
  obtain ⟨E, -, -, h⟩ := C83_features [1, 2] true true true ![Complex.I, 2] ⟨1, by simp⟩ (by norm_num) (by simp)
  have hl : List.ofFn ![Complex.I, 2] = [Complex.I, 2] := by simp [List.ofFn_succ]
  rw [hl] at h
  let net : HNet := ⟨2, [3, 5], some [some (1 / 2), none], [1, 2], true, Real.sigmoid, true, true, true⟩
  refine ⟨net, _, rfl, rfl, ?_, (C149_network_partial net false keep params final [Complex.I, 2] _ (by
    intro r hr
    obtain rfl := Option.some.inj hr
    simp [net]) h).1, ?_⟩
  · simp [net]
  · refine (C149_missing_key net params final _).1 ⟨(3, some (1 / 2)), ?_, 1 / 2, rfl, by norm_num, by norm_num⟩
    simp [HNet.layers, net]

end Cyjax
