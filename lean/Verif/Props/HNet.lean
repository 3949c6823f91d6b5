import Verif.Lemmas.HNet
import Verif.Props.Cholesky
import Mathlib.Analysis.SpecialFunctions.Complex.Circle

/-! # Network for the moduli dependence (C83, C84, C93, C94) -/

namespace Cyjax

open Cyjax.Ml Matrix
open Cyjax.Polynomial (PyErr)
open scoped BigOperators

/-! ## C83 -/

/-- **C83.** The features of moduli `psi` are the angles of the moduli, then the absolute values, real parts and
imaginary parts of all products `∏ psi_i ^ e_i`, where each `e ≠ 0` with entries among the powers and zero is used
exactly once, in lexicographic order. -/
theorem C83_features {m : ℕ} (powers : List ℚ) (angle abs parts : Bool) (psi : Fin m → ℂ)
    (hp : ∃ p ∈ powers, p ≠ 0) (hm : 0 < m) (hf : angle ∨ abs ∨ parts) :
    ∃ E : List (Fin m → ℚ), E.Pairwise (fun e e' => ∃ i, (∀ j < i, e j = e' j) ∧ e i < e' i) ∧
      (∀ e, e ∈ E ↔ (∀ i, e i = 0 ∨ e i ∈ powers) ∧ e ≠ 0) ∧
      features powers angle abs parts (List.ofFn psi) =
        .ok ((if angle then List.ofFn fun i => Complex.arg (psi i) else []) ++
          (if abs then E.map fun e => ‖∏ i, psi i ^ (e i : ℂ)‖ else []) ++
          (if parts then E.map (fun e => (∏ i, psi i ^ (e i : ℂ)).re) ++ E.map (fun e => (∏ i, psi i ^ (e i : ℂ)).im)
            else [])) := by
  refine ⟨expFns powers m, lex_expFns powers m, mem_expFns powers m, ?_⟩
  rw [features_ofFn, if_neg, if_neg]
  · rintro ⟨rfl, rfl, rfl⟩
    simp at hf
  · rw [expFns_eq_nil]
    rintro (h | h)
    · omega
    · obtain ⟨p, hp, h0⟩ := hp
      exact h0 (h p hp)

/-- **C83.** The number of features, if there are any: one angle for each of `m` moduli, and `q ^ m - 1` products, where
`q` is the number of different powers including zero. -/
theorem C83_count {m : ℕ} (powers : List ℚ) (angle abs parts : Bool) (psi : Fin m → ℂ) (x : List ℝ)
    (h : features powers angle abs parts (List.ofFn psi) = .ok x) :
    x.length = (if angle then m else 0) + (if abs then (insert 0 powers.toFinset).card ^ m - 1 else 0) +
      (if parts then 2 * ((insert 0 powers.toFinset).card ^ m - 1) else 0) := by
  have hl : (expFns powers m).length = (insert 0 powers.toFinset).card ^ m - 1 := by
    rw [← length_featurePowers]
    exact List.length_map _
  rw [features_ofFn] at h
  by_cases h1 : expFns powers m = []
  · rw [if_pos h1] at h; cases h
  · rw [if_neg h1] at h
    by_cases h2 : angle = false ∧ abs = false ∧ parts = false
    · rw [if_pos h2] at h; cases h
    · rw [if_neg h2] at h
      have := Except.ok.inj h
      subst this
      cases angle <;> cases abs <;> cases parts <;> simp [hl] <;> omega

/-- **C83.** A `ValueError` is raised exactly if there is no modulus, no power other than zero or no kind of feature. -/
theorem C83_errors {m : ℕ} (powers : List ℚ) (angle abs parts : Bool) (psi : Fin m → ℂ) :
    features powers angle abs parts (List.ofFn psi) = .error .valueError ↔
      m = 0 ∨ (∀ p ∈ powers, p = 0) ∨ (angle = false ∧ abs = false ∧ parts = false) := by
  rw [features_ofFn]
  by_cases h1 : expFns powers m = []
  · rw [if_pos h1]
    rw [expFns_eq_nil] at h1
    tauto
  · rw [if_neg h1]
    rw [expFns_eq_nil] at h1
    by_cases h2 : angle = false ∧ abs = false ∧ parts = false
    · rw [if_pos h2]; tauto
    · rw [if_neg h2]
      constructor
      · intro h; cases h
      · intro h; tauto

/-- Two moduli and powers 1, 2, 1: eight products, hence 2 + 8 + 16 features. -/
example : ∃ x, features [1, 2, 1] true true true (List.ofFn ![Complex.I, 2]) = .ok x ∧ x.length = 26 := by
  obtain ⟨E, _, _, h⟩ := C83_features [1, 2, 1] true true true ![Complex.I, 2] ⟨1, by simp⟩ (by norm_num) (by simp)
  exact ⟨_, h, (C83_count _ _ _ _ _ _ h).trans rfl⟩

/-! ## C93 -/

/-- The documented features for the products `f`. -/
noncomputable def docFeatures (angle abs parts : Bool) (f : List ℂ) : List ℝ :=
  (if angle then f.map Complex.arg else []) ++ (if abs then f.map (‖·‖) else []) ++
    (if parts then f.map Complex.re ++ f.map Complex.im else [])

/-- **C93.** Without angles the features are the documented ones for the list of products. -/
theorem C93_documented_partial {m : ℕ} (powers : List ℚ) (abs parts : Bool) (psi : Fin m → ℂ)
    (hp : ∃ p ∈ powers, p ≠ 0) (hm : 0 < m) (hf : abs ∨ parts) :
    ∃ E : List (Fin m → ℚ), E.Pairwise (fun e e' => ∃ i, (∀ j < i, e j = e' j) ∧ e i < e' i) ∧
      (∀ e, e ∈ E ↔ (∀ i, e i = 0 ∨ e i ∈ powers) ∧ e ≠ 0) ∧
      features powers false abs parts (List.ofFn psi) =
        .ok (docFeatures false abs parts (E.map fun e => ∏ i, psi i ^ (e i : ℂ))) := by
  obtain ⟨E, h1, h2, h3⟩ := C83_features powers false abs parts psi hp hm (Or.inr hf)
  refine ⟨E, h1, h2, h3.trans ?_⟩
  unfold docFeatures
  simp only [List.map_map, Function.comp_def]
  rfl

/-- **C93** fails with angles: for modulus `i` and power two, the only product is `i ^ 2 = -1` with angle `π`, but the
feature is the angle `π / 2` of the modulus. -/
theorem C93_angle_violated : features [2] true false false [Complex.I] = .ok [Real.pi / 2] ∧
    ∀ E : List (Fin 1 → ℚ), E.Nodup → (∀ e, e ∈ E ↔ (∀ i, e i = 0 ∨ e i ∈ [(2 : ℚ)]) ∧ e ≠ 0) →
      docFeatures true false false (E.map fun e => ∏ i, Complex.I ^ (e i : ℂ)) = [Real.pi] := by
  constructor
  · obtain ⟨E, _, _, h⟩ := C83_features [2] true false false ![Complex.I] ⟨2, by simp⟩ (by norm_num) (by simp)
    have hl : List.ofFn ![Complex.I] = [Complex.I] := by simp
    rw [hl] at h
    rw [h]
    simp
  · intro E hn hE
    have hE' : E = [fun _ => 2] := by
      apply List.perm_singleton.mp
      rw [List.perm_ext_iff_of_nodup hn (List.nodup_singleton _)]
      intro e
      rw [hE, List.mem_singleton]
      constructor
      · rintro ⟨h1, h2⟩
        funext i
        have hi : i = 0 := Subsingleton.elim _ _
        subst hi
        rcases h1 0 with h | h
        · exact absurd (funext fun j => by rw [Subsingleton.elim j 0, h]; rfl) h2
        · simpa using h
      · rintro rfl
        refine ⟨fun i => Or.inr (by simp), fun h => ?_⟩
        have := congrFun h 0
        norm_num at this
    have hsq : Complex.I ^ (((2 : ℚ) : ℂ)) = -1 := by
      have : (((2 : ℚ) : ℂ)) = ((2 : ℕ) : ℂ) := by push_cast; rfl
      rw [this, Complex.cpow_natCast, Complex.I_sq]
    rw [hE']
    simp only [docFeatures, List.map_cons, List.map_nil, Finset.univ_unique, Finset.prod_const,
      Finset.card_singleton, pow_one, hsq]
    simp

/-! ## C84 -/

/-- The rows of the result. -/
def outRows : HOut → List (List ℝ)
  | .single h => [h]
  | .batch hs => hs

theorem final_dense (sig : Bool) (n : ℕ) (f : ℝ) (noise : ℕ → ℝ) (x : List ℝ) :
    output sig n (finalInit sig n f noise) x =
      if sig then (hermitianParamInit n (some f) noise).map fun a => 1 / 2 * a
      else hermitianParamInit n (some f) noise := by
  have hn : n ≤ n ^ 2 := Nat.le_self_pow two_ne_zero n
  have hl : (hermitianParamInit n (some f) noise).length = n ^ 2 := by
    simp [hermitianParamInit]; omega
  unfold output
  simp only [dense_zero _ (finalInit sig n f noise) rfl]
  unfold finalInit biasInit
  cases sig
  · simp only [Bool.false_eq_true, if_false]
    apply List.ext_getElem
    · simp [hl]
    · intro k h1 h2
      simp [List.getD_eq_getElem?_getD, List.getElem?_eq_getElem h2]
  · simp only [if_true]
    apply List.ext_getElem
    · simp [hl]; omega
    · intro k h1 h2
      rw [List.length_map] at h2
      simp only [List.getElem_zipWith, List.getElem_take, List.getElem_drop, List.getElem_map, List.getElem_range,
        List.getD_eq_getElem?_getD]
      rw [List.getElem?_append_left (by rw [List.length_replicate]; exact h2),
        List.getElem?_append_right (by rw [List.length_replicate]; omega), List.length_replicate]
      have hk : n ^ 2 + k - (hermitianParamInit n (some f) noise).length = k := by omega
      rw [hk, List.getElem?_eq_getElem h2, List.getElem?_eq_getElem (by simp; omega)]
      simp [Real.sigmoid_zero]

private theorem call_rows (net : HNet) (drop : ℕ → ℕ → ℚ → List ℝ → List ℝ) (params : ℕ → DenseParams)
    (final : DenseParams) (z : Moduli) (out : HOut) (h : net.call drop params final z = .ok out) :
    ∀ r ∈ outRows out, ∃ y, r = output net.sigSuppress net.basisSize final y := by
  have hrow : ∀ i z r, net.row (drop i) params final z = .ok r →
      ∃ y, r = output net.sigSuppress net.basisSize final y := by
    intro i z r hr
    unfold HNet.row at hr
    cases hx : features net.powers net.featureAngle net.featureAbs net.featureParts z with
    | error e => rw [hx] at hr; cases hr
    | ok x => rw [hx] at hr; exact ⟨_, (Except.ok.inj hr).symm⟩
  cases z with
  | scalar z =>
    simp only [HNet.call] at h
    cases hr : net.row (drop 0) params final [z] with
    | error e => rw [hr] at h; cases h
    | ok r =>
      rw [hr] at h
      have := Except.ok.inj h
      subst this
      intro r' hr'
      rw [outRows, List.mem_singleton] at hr'
      exact hrow _ _ _ (hr' ▸ hr)
  | single z =>
    simp only [HNet.call] at h
    cases hr : net.row (drop 0) params final z with
    | error e => rw [hr] at h; cases h
    | ok r =>
      rw [hr] at h
      have := Except.ok.inj h
      subst this
      intro r' hr'
      rw [outRows, List.mem_singleton] at hr'
      exact hrow _ _ _ (hr' ▸ hr)
  | batch zs =>
    simp only [HNet.call] at h
    cases hr : zs.zipIdx.mapM (fun x => net.row (drop x.2) params final x.1) with
    | error e => rw [hr] at h; cases h
    | ok rs =>
      rw [hr] at h
      have := Except.ok.inj h
      subst this
      intro r hmem
      rw [outRows] at hmem
      have key : ∀ (zs : List (List ℂ × ℕ)) (rs : List (List ℝ)), zs.mapM (fun x => net.row (drop x.2) params final x.1) = .ok rs →
          ∀ r ∈ rs, ∃ z : List ℂ × ℕ, net.row (drop z.2) params final z.1 = .ok r := by
        intro zs
        induction zs with
        | nil =>
          intro rs h r hr
          rw [List.mapM_nil] at h
          have := Except.ok.inj h
          subst this
          simp at hr
        | cons z zs ih =>
          intro rs h r hr
          rw [List.mapM_cons] at h
          cases h1 : net.row (drop z.2) params final z.1 with
          | error e => rw [h1] at h; cases h
          | ok r1 =>
            rw [h1] at h
            cases h2 : zs.mapM (fun x => net.row (drop x.2) params final x.1) with
            | error e => rw [h2] at h; cases h
            | ok rs1 =>
              rw [h2] at h
              have := Except.ok.inj h
              subst this
              rcases List.mem_cons.mp hr with rfl | hr
              · exact ⟨z, h1⟩
              · exact ih _ h2 r hr
      obtain ⟨z, hz⟩ := key _ rs hr r hmem
      exact hrow _ _ _ hz
  | more => cases h

/-- **C84.** Without suppression, the initial network gives the initial H-matrix of `hermitian_param_init` for every
input, whatever the hidden layers compute; with fluctuation zero it is the identity. -/
theorem C84_identity_partial (net : HNet) (drop : ℕ → ℕ → ℚ → List ℝ → List ℝ) (params : ℕ → DenseParams)
    (f : ℝ) (noise : ℕ → ℝ) (z : Moduli) (out : HOut) (hs : net.sigSuppress = false)
    (h : net.call drop params (finalInit net.sigSuppress net.basisSize f noise) z = .ok out) :
    ∀ r ∈ outRows out,
      choleskyFromParam r = .ok ⟨net.basisSize, Matrix.diagonal fun i => ((1 + noise i * f : ℝ) : ℂ) ^ 2⟩ ∧
      (f = 0 → choleskyFromParam r = .ok ⟨net.basisSize, 1⟩) := by
  intro r hr
  obtain ⟨y, rfl⟩ := call_rows net drop params _ z out h r hr
  rw [final_dense, hs, if_neg (by simp)]
  have := C79_fluctuation net.basisSize f noise
  refine ⟨this, fun h0 => ?_⟩
  rw [this, h0]
  congr 2
  simp

/-- **C84.** With suppression (the default), everything is multiplied by one half before decoding: the initial matrix
is one quarter of the identity (fluctuation zero). -/
theorem C84_suppressed (net : HNet) (drop : ℕ → ℕ → ℚ → List ℝ → List ℝ) (params : ℕ → DenseParams)
    (f : ℝ) (noise : ℕ → ℝ) (z : Moduli) (out : HOut) (hs : net.sigSuppress = true)
    (h : net.call drop params (finalInit net.sigSuppress net.basisSize f noise) z = .ok out) :
    ∀ r ∈ outRows out,
      choleskyFromParam r =
        .ok ⟨net.basisSize, Matrix.diagonal fun i => ((1 / 2 * (1 + noise i * f) : ℝ) : ℂ) ^ 2⟩ ∧
      (f = 0 → choleskyFromParam r = .ok ⟨net.basisSize, (1 / 4 : ℂ) • (1 : Matrix _ _ ℂ)⟩) := by
  intro r hr
  obtain ⟨y, rfl⟩ := call_rows net drop params _ z out h r hr
  rw [final_dense, hs, if_pos rfl]
  have hmap : (hermitianParamInit net.basisSize (some f) noise).map (fun a => 1 / 2 * a) =
      (List.range net.basisSize).map (fun i => 1 / 2 * (1 + noise i * f)) ++
        (List.replicate (net.basisSize ^ 2) 0).drop net.basisSize := by
    simp [hermitianParamInit]
  have := cholesky_init_value (n := net.basisSize) fun i => 1 / 2 * (1 + noise i * f)
  rw [hmap]
  refine ⟨this, fun h0 => ?_⟩
  rw [this, h0]
  congr 2
  rw [smul_one_eq_diagonal]
  congr 1
  funext i
  push_cast
  ring

/-- A network with two hidden layers and the default features. -/
def exampleNet (sig : Bool) : HNet where
  basisSize := 2
  layerSizes := [3, 3]
  dropoutRates := none
  powers := [1, 2, 3]
  sigSuppress := sig
  activation := fun x => x
  featureAngle := true
  featureAbs := true
  featureParts := true

theorem exampleNet_call (sig : Bool) (drop : ℕ → ℕ → ℚ → List ℝ → List ℝ) (params : ℕ → DenseParams) (final : DenseParams)
    (z : ℂ) : ∃ h, (exampleNet sig).call drop params final (.scalar z) = .ok (.single h) := by
  obtain ⟨E, _, _, h⟩ := C83_features [1, 2, 3] true true true ![z] ⟨1, by simp⟩ (by norm_num) (by simp)
  have hl : List.ofFn ![z] = [z] := by simp
  rw [hl] at h
  simp only [HNet.call, HNet.row, exampleNet, h]
  exact ⟨_, rfl⟩

/-- **C84** fails with the default `sig_suppress`: the initial matrix is not the identity. -/
theorem C84_violated (drop : ℕ → ℕ → ℚ → List ℝ → List ℝ) (params : ℕ → DenseParams) (noise : ℕ → ℝ) (z : ℂ) :
    ∃ h, (exampleNet true).call drop params (finalInit true 2 0 noise) (.scalar z) = .ok (.single h) ∧
      choleskyFromParam h ≠ .ok ⟨2, 1⟩ := by
  obtain ⟨h, hh⟩ := exampleNet_call true drop params (finalInit true 2 0 noise) z
  refine ⟨h, hh, fun hc => ?_⟩
  have := (C84_suppressed (exampleNet true) drop params 0 noise _ _ rfl hh h (by simp [outRows])).2 rfl
  rw [hc] at this
  have h2 := Except.ok.inj this
  rw [Sigma.mk.injEq] at h2
  have h3 : (1 : Matrix (Fin 2) (Fin 2) ℂ) 0 0 = ((1 / 4 : ℂ) • (1 : Matrix (Fin 2) (Fin 2) ℂ)) 0 0 :=
    congrFun (congrFun (eq_of_heq h2.2) 0) 0
  simp at h3

example (drop : ℕ → ℕ → ℚ → List ℝ → List ℝ) (params : ℕ → DenseParams) (noise : ℕ → ℝ) (z : ℂ) :
    ∃ h, (exampleNet false).call drop params (finalInit false 2 0 noise) (.scalar z) = .ok (.single h) ∧
      choleskyFromParam h = .ok ⟨2, 1⟩ := by
  obtain ⟨h, hh⟩ := exampleNet_call false drop params (finalInit false 2 0 noise) z
  exact ⟨h, hh, (C84_identity_partial (exampleNet false) drop params 0 noise _ _ rfl hh h (by simp [outRows])).2 rfl⟩

/-! ## C94 -/

/-- A stack of dense layers of the given sizes, each followed by the activation function. -/
def stack (activation : ℝ → ℝ) : List (ℕ × DenseParams) → List ℝ → List ℝ
  | [], x => x
  | (size, p) :: ls, x => stack activation ls ((dense size p x).map activation)

private theorem fold_stack (activation : ℝ → ℝ) (drop : ℕ → ℚ → List ℝ → List ℝ) (params : ℕ → DenseParams) :
    ∀ (ls : List (ℕ × Option ℚ)) (k : ℕ) (x : List ℝ), (∀ l ∈ ls, l.2 = none) →
      (ls.zipIdx k).foldl (fun x l =>
        let x := (dense l.1.1 (params l.2) x).map activation
        match l.1.2 with
        | none => x
        | some rate => drop l.2 rate x) x =
      stack activation (ls.zipIdx k |>.map fun l => (l.1.1, params l.2)) x
  | [], _, _, _ => rfl
  | l :: ls, k, x, h => by
    obtain ⟨s, r⟩ := l
    have hr : r = none := h (s, r) (by simp)
    subst hr
    simp only [List.zipIdx_cons, List.foldl_cons, List.map_cons, stack]
    exact fold_stack activation drop params ls (k + 1) _ fun l hl => h l (by simp [hl])

/-- **C94.** Without dropout rates there is one dense layer with activation for each entry of `layer_sizes`, in order. -/
theorem C94_layers_partial (activation : ℝ → ℝ) (drop : ℕ → ℚ → List ℝ → List ℝ) (params : ℕ → DenseParams)
    (sizes : List ℕ) (x : List ℝ) :
    Ml.hidden activation drop params sizes none x =
      stack activation (sizes.zipIdx.map fun l => (l.1, params l.2)) x := by
  unfold Ml.hidden
  simp only [Option.getD_none]
  refine (fold_stack activation drop params _ 0 x ?_).trans ?_
  · intro l hl
    have := (List.of_mem_zip (a := l.1) (b := l.2) hl).2
    exact (List.mem_replicate.mp this).2
  · congr 1
    apply List.ext_getElem
    · simp
    · intro k h1 h2
      simp

/-- **C94.** With dropout rates of at least the same number, but all absent, the same holds; the surplus is ignored. -/
theorem C94_rates_partial (activation : ℝ → ℝ) (drop : ℕ → ℚ → List ℝ → List ℝ) (params : ℕ → DenseParams)
    (sizes : List ℕ) (k : ℕ) (hk : sizes.length ≤ k) (x : List ℝ) :
    Ml.hidden activation drop params sizes (some (List.replicate k none)) x =
      stack activation (sizes.zipIdx.map fun l => (l.1, params l.2)) x := by
  unfold Ml.hidden
  simp only [Option.getD_some]
  refine (fold_stack activation drop params _ 0 x ?_).trans ?_
  · intro l hl
    have := (List.of_mem_zip (a := l.1) (b := l.2) hl).2
    exact (List.mem_replicate.mp this).2
  · congr 1
    apply List.ext_getElem
    · simp; omega
    · intro k h1 h2
      simp

/-- **C94** fails if fewer dropout rates than layer sizes are given: the remaining layers are left out without any error,
whatever the parameters. -/
theorem C94_short_violated (activation : ℝ → ℝ) (drop : ℕ → ℚ → List ℝ → List ℝ) (params : ℕ → DenseParams)
    (sizes : List ℕ) (rates : List (Option ℚ)) (x : List ℝ) :
    Ml.hidden activation drop params sizes (some rates) x =
      Ml.hidden activation drop params (sizes.take rates.length) (some rates) x := by
  have hz : ∀ (s : List ℕ) (r : List (Option ℚ)), s.zip r = (s.take r.length).zip r := by
    intro s
    induction s with
    | nil => intro r; simp
    | cons a s ih =>
      intro r
      cases r with
      | nil => simp
      | cons b r => simp [ih r]
  unfold Ml.hidden
  simp only [Option.getD_some]
  rw [hz]

/-- In particular two layers of sizes 3 and 5 with a single rate give three numbers instead of five. -/
theorem C94_example_violated (activation : ℝ → ℝ) (drop : ℕ → ℚ → List ℝ → List ℝ) (params : ℕ → DenseParams)
    (x : List ℝ) : (Ml.hidden activation drop params [3, 5] (some [none]) x).length = 3 ∧
      (stack activation ([3, 5].zipIdx.map fun l => (l.1, params l.2)) x).length = 5 := by
  constructor
  · simp [Ml.hidden, dense]
  · simp [stack, dense]

end Cyjax
