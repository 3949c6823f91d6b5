import Verif.Lemmas.TrainDiff
import Mathlib.Analysis.SpecialFunctions.Sigmoid

/-! # Continuous differentiability of the network in its parameters -/

namespace Cyjax

open Cyjax.Donaldson Cyjax.Spec Cyjax.Projective Cyjax.Variety Cyjax.Differential Cyjax.Ml MvPolynomial
open Cyjax.Polynomial (PyErr Val)
open scoped ComplexOrder Matrix ComplexConjugate

variable {E : Type*} [NormedAddCommGroup E] [NormedSpace ℝ E] {θ : E}

/-! ## The network -/

private theorem diff_conj {f : E → ℂ} (hf : ContDiffAt ℝ 1 f θ) : ContDiffAt ℝ 1 (fun t => conj (f t)) θ :=
  Complex.conjCLE.contDiff.contDiffAt.comp θ hf

/-- A list of fixed length whose entries are continuously differentiable at `θ`. -/
private structure SmoothList (θ : E) (x : E → List ℝ) (len : ℕ) : Prop where
  length : ∀ t, (x t).length = len
  diff : ∀ i, ContDiffAt ℝ 1 (fun t => (x t).getD i 0) θ

private theorem getD_map_range (f : ℕ → ℝ) (N i : ℕ) : ((List.range N).map f).getD i 0 = if i < N then f i else 0 := by
  rw [List.getD_eq_getElem?_getD, List.getElem?_map]
  by_cases h : i < N
  · rw [List.getElem?_range h, if_pos h]; rfl
  · rw [List.getElem?_eq_none (by simpa using h), if_neg h]; rfl

private theorem diffList_const (x : List ℝ) : SmoothList θ (fun _ : E => x) x.length :=
  ⟨fun _ => rfl, fun _ => contDiffAt_const⟩

private theorem diffList_dense {x : E → List ℝ} {len : ℕ} (hx : SmoothList θ x len) (m : ℕ) {p : E → DenseParams}
    (hk : ∀ i j, ContDiffAt ℝ 1 (fun t => (p t).kernel i j) θ) (hb : ∀ j, ContDiffAt ℝ 1 (fun t => (p t).bias j) θ) :
    SmoothList θ (fun t => dense m (p t) (x t)) m := by
  refine ⟨fun t => by simp [dense], fun j => ?_⟩
  unfold dense
  simp only [getD_map_range, hx.length]
  by_cases hj : j < m
  · simp only [if_pos hj]
    refine ContDiffAt.add ?_ (hb j)
    simp only [← List.sum_toFinset _ (List.nodup_range (n := len))]
    exact ContDiffAt.sum fun i _ => (hx.diff i).mul (hk i j)
  · simp only [if_neg hj]
    exact contDiffAt_const

private theorem diffList_map {x : E → List ℝ} {len : ℕ} (hx : SmoothList θ x len) {a : ℝ → ℝ} (ha : ContDiff ℝ 1 a) :
    SmoothList θ (fun t => (x t).map a) len := by
  refine ⟨fun t => by simp [hx.length], fun i => ?_⟩
  have : (fun t => ((x t).map a).getD i 0) = fun t => if i < len then a ((x t).getD i 0) else 0 := by
    funext t
    by_cases h : i < len
    · have h' : i < (x t).length := by rw [hx.length]; exact h
      simp [h, h', List.getD_eq_getElem?_getD]
    · have h' : (x t).length ≤ i := by rw [hx.length]; omega
      simp [h, h', List.getD_eq_getElem?_getD]
  rw [this]
  by_cases h : i < len
  · simp only [if_pos h]
    exact ha.contDiffAt.comp θ (hx.diff i)
  · simp only [if_neg h]
    exact contDiffAt_const

private theorem diffList_mask {x : E → List ℝ} {len : ℕ} (hx : SmoothList θ x len) (c : ℕ → ℝ) :
    SmoothList θ (fun t => (x t).mapIdx fun i v => c i * v) len := by
  refine ⟨fun t => by simp [hx.length], fun i => ?_⟩
  have : (fun t => ((x t).mapIdx fun i v => c i * v).getD i 0) = fun t => c i * (x t).getD i 0 := by
    funext t
    rw [List.getD_eq_getElem?_getD, List.getD_eq_getElem?_getD, List.getElem?_mapIdx]
    cases (x t)[i]? <;> simp
  rw [this]
  exact contDiffAt_const.mul (hx.diff i)

private theorem diffList_hidden {drop : ℕ → ℚ → List ℝ → List ℝ} (hdrop : IsMask drop) {a : ℝ → ℝ} (ha : ContDiff ℝ 1 a)
    {params : E → ℕ → DenseParams} (hk : ∀ l i j, ContDiffAt ℝ 1 (fun t => (params t l).kernel i j) θ)
    (hb : ∀ l j, ContDiffAt ℝ 1 (fun t => (params t l).bias j) θ) (sizes : List ℕ)
    (rates : Option (List (Option ℚ))) (x : List ℝ) :
    ∃ len, SmoothList θ (fun t => hidden a drop (params t) sizes rates x) len := by
  have key : ∀ (ls : List ((ℕ × Option ℚ) × ℕ)) (x : E → List ℝ) (len : ℕ), SmoothList θ x len →
      ∃ len', SmoothList θ (fun t => ls.foldl (fun x l =>
        let x := (dense l.1.1 (params t l.2) x).map a
        match l.1.2 with
        | none => x
        | some rate => drop l.2 rate x) (x t)) len' := by
    intro ls
    induction ls with
    | nil => intro x len hx; exact ⟨len, hx⟩
    | cons l ls ih =>
      intro x len hx
      have h1 := diffList_map (diffList_dense hx l.1.1 (hk l.2) (hb l.2)) ha
      rcases hl : l.1.2 with _ | rate
      · obtain ⟨len', h⟩ := ih _ _ h1
        refine ⟨len', ?_⟩
        simpa only [List.foldl_cons, hl] using h
      · obtain ⟨c, hc⟩ := hdrop l.2 rate
        obtain ⟨len', h⟩ := ih _ _ (diffList_mask h1 c)
        refine ⟨len', ?_⟩
        simpa only [List.foldl_cons, hl, hc] using h
  exact key _ _ _ (diffList_const x)

private theorem getD_zipWith_sig (u v : List ℝ) (i : ℕ) (h : u.length = v.length) :
    (List.zipWith (fun a b => Real.sigmoid a * b) u v).getD i 0 = Real.sigmoid (u.getD i 0) * v.getD i 0 := by
  rw [List.getD_eq_getElem?_getD, List.getD_eq_getElem?_getD, List.getD_eq_getElem?_getD, List.getElem?_zipWith]
  by_cases hi : i < u.length
  · have hj : i < v.length := by omega
    simp [hi, hj]
  · have hj : ¬ i < v.length := by omega
    simp [hi, hj]

private theorem diffList_output {x : E → List ℝ} {len : ℕ} (hx : SmoothList θ x len) (sig : Bool) (m : ℕ) {final : E → DenseParams}
    (hk : ∀ i j, ContDiffAt ℝ 1 (fun t => (final t).kernel i j) θ)
    (hb : ∀ j, ContDiffAt ℝ 1 (fun t => (final t).bias j) θ) :
    SmoothList θ (fun t => output sig m (final t) (x t)) (m ^ 2) := by
  cases sig
  · exact diffList_dense hx (m ^ 2) hk hb
  · have h1 := diffList_dense hx (m ^ 2 * 2) hk hb
    refine ⟨fun t => ?_, fun i => ?_⟩
    · simp [output, dense]
      omega
    · have h2 : (fun t => (output true m (final t) (x t)).getD i 0) = fun t =>
          Real.sigmoid (if i < m ^ 2 then (dense (m ^ 2 * 2) (final t) (x t)).getD i 0 else 0) *
            (dense (m ^ 2 * 2) (final t) (x t)).getD (m ^ 2 + i) 0 := by
        funext t
        unfold output
        simp only [if_true]
        rw [getD_zipWith_sig _ _ _ (by simp [h1.length]; omega)]
        congr 1
        · congr 1
          rw [List.getD_eq_getElem?_getD, List.getElem?_take, List.getD_eq_getElem?_getD]
          split_ifs <;> rfl
        · rw [List.getD_eq_getElem?_getD, List.getElem?_drop, ← List.getD_eq_getElem?_getD]
      rw [h2]
      refine ContDiffAt.mul ?_ (h1.diff _)
      by_cases hi : i < m ^ 2
      · simp only [if_pos hi]
        exact (analyticAt_sigmoid (x := _)).contDiffAt.comp θ (h1.diff i)
      · simp only [if_neg hi]
        exact contDiffAt_const

/-! ## The decoded matrix -/

private theorem diff_ofReal {f : E → ℝ} (hf : ContDiffAt ℝ 1 f θ) : ContDiffAt ℝ 1 (fun t => ((f t : ℝ) : ℂ)) θ :=
  Complex.ofRealCLM.contDiff.contDiffAt.comp θ hf

private theorem diff_decode {m : ℕ} {p : E → List ℝ} (hp : SmoothList θ p (m ^ 2)) :
    ∃ H : E → Matrix (Fin m) (Fin m) ℂ, (∀ t, choleskyFromParam (p t) = .ok ⟨m, H t⟩) ∧
      (∀ i j, ContDiffAt ℝ 1 (fun t => H t i j) θ) ∧
      ∀ t, (∀ i < m, (p t).getD i 0 ≠ 0) → (H t).PosDef := by
  choose M h1 h2 h3 h4 h5 using fun t => C78_blocks (p t) (hp.length t)
  have hM : ∀ i j, ContDiffAt ℝ 1 (fun t => M t i j) θ := by
    intro i j
    rcases lt_trichotomy i j with hij | rfl | hij
    · obtain ⟨k, hk, hkij⟩ := List.getElem_of_mem ((mem_triu i j).2 hij)
      have hk' : k < (m ^ 2 - m) / 2 := by
        have := h3 θ
        rw [rowsAbove_eq, List.length_map] at this
        omega
      have : (fun t => M t i j) = fun t => (((p t).getD (m + k) 0 : ℝ) : ℂ) +
          Complex.I * (((p t).getD (m + (m ^ 2 - m) / 2 + k) 0 : ℝ) : ℂ) := by
        funext t
        have := h4 t k hk'
        rw [rowsAbove_eq, List.getElem?_map, List.getElem?_eq_getElem hk, hkij] at this
        exact Option.some.inj this
      rw [this]
      exact (diff_ofReal (hp.diff _)).add (contDiffAt_const.mul (diff_ofReal (hp.diff _)))
    · simp only [h2]
      exact diff_ofReal (hp.diff _)
    · simp only [h1 _ i j hij]
      exact contDiffAt_const
  refine ⟨fun t => M t * (M t)ᴴ, h5, fun i j => ?_, fun t ht => ?_⟩
  · simp only [Matrix.mul_apply, Matrix.conjTranspose_apply]
    exact ContDiffAt.sum fun k _ => (hM i k).mul (diff_conj (hM j k))
  · rw [posDef_mul_iff, det_upper (d := fun i => (p t).getD i 0) ⟨h1 t, h2 t⟩, Finset.prod_ne_zero_iff]
    intro i _
    exact Complex.ofReal_ne_zero.2 (ht i i.2)

section Network

variable {n : ℕ} {A : AlgebraicMetric (n + 1)} {net : HNet} {drop : ℕ → ℚ → List ℝ → List ℝ} {params : E → ℕ → DenseParams}
  {final : E → DenseParams} (hsize : net.basisSize = A.sections.size) (hpow : ∃ q ∈ net.powers, q ≠ 0)
  (hfeat : net.featureAngle ∨ net.featureAbs ∨ net.featureParts) (hact : ContDiff ℝ 1 net.activation) (hdrop : IsMask drop)
  (hk : ∀ l i j, ContDiffAt ℝ 1 (fun t => (params t l).kernel i j) θ)
  (hb : ∀ l j, ContDiffAt ℝ 1 (fun t => (params t l).bias j) θ)
  (hfk : ∀ i j, ContDiffAt ℝ 1 (fun t => (final t).kernel i j) θ)
  (hfb : ∀ j, ContDiffAt ℝ 1 (fun t => (final t).bias j) θ)

include hsize hpow hfeat hact hdrop hk hb hfk hfb

/-- The matrix that the network gives for a set of moduli is a continuously differentiable function of its parameters. -/
theorem network_matrix_smooth (psi : List ℂ) (hpsi : psi ≠ [])
    (hdiag : ∀ h, net.row drop (params θ) (final θ) psi = .ok h → ∀ i < net.basisSize, h.getD i 0 ≠ 0) :
    ∃ (p : E → List ℝ) (H : E → A.H), (∀ t, net.row drop (params t) (final t) psi = .ok (p t) ∧
        ∃ M, choleskyFromParam (p t) = .ok M ∧ asH A M = .ok (H t)) ∧
      (∀ i j, ContDiffAt ℝ 1 (fun t => H t i j) θ) ∧ ∀ᶠ t in nhds θ, (H t).PosDef := by
  obtain ⟨N, -, -, hx⟩ := C83_features net.powers net.featureAngle net.featureAbs net.featureParts psi.get hpow
    (List.length_pos_iff.2 hpsi) hfeat
  rw [List.ofFn_get] at hx
  obtain ⟨x, hx'⟩ : ∃ x, features net.powers net.featureAngle net.featureAbs net.featureParts psi = .ok x := ⟨_, hx⟩
  obtain ⟨len, h1⟩ := diffList_hidden hdrop hact hk hb net.layerSizes net.dropoutRates x
  have h2 := diffList_output h1 net.sigSuppress net.basisSize hfk hfb
  obtain ⟨H, d1, d2, d3⟩ := diff_decode h2
  have hrow : ∀ t, net.row drop (params t) (final t) psi = .ok (output net.sigSuppress net.basisSize (final t)
      (hidden net.activation drop (params t) net.layerSizes net.dropoutRates x)) := by
    intro t
    unfold HNet.row
    rw [hx']
  choose H' a1 a2 a3 using fun t => asH_ok (A := A) hsize (H t)
  refine ⟨_, H', fun t => ⟨hrow t, _, d1 t, a1 t⟩, fun i j => ?_, ?_⟩
  · simp only [a3]
    exact d2 _ _
  · have hne : ∀ i : Fin net.basisSize, ∀ᶠ t in nhds θ, (output net.sigSuppress net.basisSize (final t)
        (hidden net.activation drop (params t) net.layerSizes net.dropoutRates x)).getD i 0 ≠ 0 := fun i =>
      (h2.diff i).continuousAt.eventually_ne (hdiag _ (hrow θ) i i.2)
    filter_upwards [Filter.eventually_all.mpr hne] with t ht
    exact a2 t (d3 t fun i hi => ht ⟨i, hi⟩)

end Network

end Cyjax
