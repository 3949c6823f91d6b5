import Verif.Spec.Training
import Verif.Spec.Loss
import Verif.Props.Loss
import Verif.Props.AlmostSure
import Verif.Props.BatchSampler

/-! # Training samples and the loss on them (C121) -/

namespace Cyjax

open Cyjax.Donaldson Cyjax.Spec Cyjax.Projective Cyjax.Variety Cyjax.Differential Cyjax.Ml MvPolynomial
open MeasureTheory ProbabilityTheory
open Cyjax.Polynomial (PyErr Val DworkFactor)
open scoped ComplexOrder

theorem mapM_inv {α β : Type*} {f : α → Except PyErr β} : ∀ {l : List α} {r : List β}, l.mapM f = .ok r →
    r.length = l.length ∧ ∀ (i : ℕ) (hi : i < l.length) (hi' : i < r.length), f l[i] = .ok r[i]
  | [], r, h => by
    obtain rfl : r = [] := (Except.ok.inj h).symm
    simp
  | x :: l, r, h => by
    rw [List.mapM_cons] at h
    cases hx : f x with
    | error e => rw [hx] at h; cases h
    | ok y =>
      rw [hx] at h
      cases hl : l.mapM f with
      | error e => rw [hl] at h; cases h
      | ok ys =>
        rw [hl] at h
        obtain rfl : r = y :: ys := (Except.ok.inj h).symm
        obtain ⟨h1, h2⟩ := mapM_inv hl
        refine ⟨by simp [h1], fun i hi hi' => ?_⟩
        cases i with
        | zero => exact hx
        | succ i => exact h2 i (by simpa using hi) (by simpa using hi')

theorem mapM_congr {α β : Type*} {f g : α → Except PyErr β} : ∀ {l : List α}, (∀ x ∈ l, f x = g x) → l.mapM f = l.mapM g
  | [], _ => rfl
  | x :: l, h => by
    rw [List.mapM_cons, List.mapM_cons, h x (by simp), mapM_congr (l := l) fun y hy => h y (by simp [hy])]

theorem mapM_ofFn {α β : Type*} {f : α → Except PyErr β} {N : ℕ} {x : Fin N → α} {y : Fin N → β}
    (h : ∀ i, f (x i) = .ok (y i)) : (List.ofFn x).mapM f = .ok (List.ofFn y) := by
  rw [List.ofFn_eq_map, List.ofFn_eq_map, List.mapM_map]
  exact mapM_ok fun i _ => h i

theorem loss_list {N : ℕ} (η w : Fin N → ℝ) (E : List ℂ) (W : List ℝ) (hE : E = List.ofFn fun i => (η i : ℂ))
    (hW : W = List.ofFn w) :
    varianceEtaLoss (n := E.length) (fun i => (E.get i).re) (fun i => W.getD i 0) = varianceEtaLoss η w := by
  obtain rfl : E.length = N := by rw [hE, List.length_ofFn]
  congr 1
  · funext i
    have := congrArg (fun l : List ℂ => l[(i : ℕ)]?) hE
    simp only [List.getElem?_ofFn, i.2, dif_pos, List.getElem?_eq_getElem] at this
    rw [List.get_eq_getElem, Option.some.inj this, Complex.ofReal_re]
  · funext i
    rw [hW, List.getD_eq_getElem?_getD, List.getElem?_ofFn, dif_pos i.2]
    rfl

section Sample

variable {n : ℕ} {V : HomKind} {e : ℕ} {o : SymOrder} (ho : o.Valid) {roots : List ℂ → List ℂ} (hr : ExactRoots roots)

/-- The row for one set of moduli, from the points that `sample_intersect` returns. -/
theorem sampleRow_ok {ps : List ℂ} {F : MvPolynomial (Fin (n + 2)) ℂ} (hS : Samplable V (n + 1) e ps)
    (hF : Hypersurface V (.vec ps) (n + 1) e F) (hsm : SmoothHypersurface F) (ho : o.Valid) (hr : ExactRoots roots)
    {Key : Type*} (draws : Key → List ((Fin (n + 2) → ℂ) × (Fin (n + 2) → ℂ))) (bs : ℕ) (k : Key)
    (hd : ∀ x ∈ draws k, Admissible F x) :
    ∃ Zs : List (Fin (n + 2) → ℂ), sampleIntersect V o roots ps bs (asLists (draws k)) = .ok (Zs.map List.ofFn) ∧
      (∀ Z ∈ Zs, Z ≠ 0 ∧ eval Z F = 0) ∧
      sampleRow n V o roots (fun k => asLists (draws k)) bs k ps =
        .ok ⟨ps, Zs.map homToAffineAuto, Zs.map (pointWeight e F)⟩ ∧
      GoodRow V (min bs ((draws k).length * e)) (⟨ps, Zs.map homToAffineAuto, Zs.map (pointWeight e F)⟩ : SampleRow (n + 1)) := by
  obtain ⟨Zs, h1, h2, -, h3, -, h5⟩ := C111_sample hS hF hsm ho hr bs (draws k) hd
  refine ⟨Zs, hom_of_weights h3, fun Z hZ => ⟨(h2 Z hZ).1, (h2 Z hZ).2.1⟩, ?_, ?_, ?_, ?_, ?_, ?_⟩
  · unfold sampleRow
    rw [h5]
    rfl
  · rw [List.length_map, h1]
  · intro x hx
    obtain ⟨Z, hZ, rfl⟩ := List.mem_map.1 hx
    obtain ⟨hZ0, hz0, -⟩ := h2 Z hZ
    have hp0 : Z (homToAffineAuto Z).2 ≠ 0 := (C17_bounded Z hZ0 0).1
    obtain ⟨-, -, hz⟩ := C17_patch Z
    rw [hF.defining, hz, C16_roundtrip Z _ hp0, show (fun i => Z i / Z (homToAffineAuto Z).2) =
      fun i => (Z (homToAffineAuto Z).2)⁻¹ * Z i from funext fun i => by ring, eval_smul_homogeneous hF.homogeneous, hz0,
      mul_zero]
  · intro x hx i
    obtain ⟨Z, hZ, rfl⟩ := List.mem_map.1 hx
    exact (C17_bounded Z (h2 Z hZ).1 i).2
  · rw [List.mapM_map]
    exact mapM_ok fun Z hZ => weight_auto hF Z (h2 Z hZ).1 (h2 Z hZ).2.1 (hsm Z (h2 Z hZ).1 (h2 Z hZ).2.1)
  · intro w hw
    obtain ⟨Z, hZ, rfl⟩ := List.mem_map.1 hw
    exact (h2 Z hZ).2.2

include ho hr

/-- **C121, one sample.** If the moduli sampler returns as many sets of moduli as there are keys, the members of the family
at these moduli are smooth and the lines drawn for them are admissible, then a sample has one row for each set of moduli,
in order, with points on that member of the family and their positive weights. -/
theorem C121_batch {Key : Type*} (split : Key → Key × Key) (splitN : Key → ℕ → List Key)
    (paramsSampler : Key → ℕ → List (List ℂ)) (draws : Key → List ((Fin (n + 2) → ℂ) × (Fin (n + 2) → ℂ))) (bsp bs : ℕ)
    (key : Key) (count : ℕ) (hlen : (splitN (split key).2 bsp).length = (paramsSampler (split key).1 bsp).length)
    (hgood : ∀ x ∈ (splitN (split key).2 bsp).zip (paramsSampler (split key).1 bsp), (draws x.1).length = count ∧
      ∃ F : MvPolynomial (Fin (n + 2)) ℂ, Samplable V (n + 1) e x.2 ∧ Hypersurface V (.vec x.2) (n + 1) e F ∧
        SmoothHypersurface F ∧ ∀ y ∈ draws x.1, Admissible F y) :
    ∃ rows, sampleBatch n V o roots split splitN paramsSampler (fun k => asLists (draws k)) bsp bs key = .ok rows ∧
      rows.map SampleRow.params = paramsSampler (split key).1 bsp ∧
      ∀ row ∈ rows, GoodRow V (min bs (count * e)) row := by
  have hrow : ∀ x : Key × List ℂ, ∃ row : SampleRow (n + 1), x ∈ (splitN (split key).2 bsp).zip (paramsSampler (split key).1 bsp) →
      sampleRow n V o roots (fun k => asLists (draws k)) bs x.1 x.2 = .ok row ∧ row.params = x.2 ∧
        GoodRow V (min bs (count * e)) row := by
    intro x
    by_cases hx : x ∈ (splitN (split key).2 bsp).zip (paramsSampler (split key).1 bsp)
    · obtain ⟨h1, F, h2, h3, h4, h5⟩ := hgood x hx
      obtain ⟨Zs, -, -, a1, a2⟩ := sampleRow_ok h2 h3 h4 ho hr draws bs x.1 h5
      rw [h1] at a2
      exact ⟨_, fun _ => ⟨a1, rfl, a2⟩⟩
    · exact ⟨⟨[], [], []⟩, fun h => absurd h hx⟩
  choose row hrow using hrow
  refine ⟨((splitN (split key).2 bsp).zip (paramsSampler (split key).1 bsp)).map row, ?_, ?_, ?_⟩
  · unfold sampleBatch
    simp only
    rw [if_pos hlen, mapM_ok (g := row)]
    intro x hx
    exact (hrow x hx).1
  · rw [List.map_map]
    calc _ = ((splitN (split key).2 bsp).zip (paramsSampler (split key).1 bsp)).map Prod.snd :=
          List.map_congr_left fun x hx => (hrow x hx).2.1
      _ = _ := List.map_snd_zip hlen.ge
  · intro r hr'
    obtain ⟨x, hx, rfl⟩ := List.mem_map.1 hr'
    exact (hrow x hx).2.2

/-- **C121, the stream.** Let the normal numbers drawn for each key be independent of each other and the moduli sampler return
`bsp` sets of moduli at which the family is smooth of degree at least the number of coordinates. Almost surely the sampler can
be made and every call of `next` succeeds: call number `j` returns the moduli drawn with key number `j` of the sequence, and for
each of them exactly `bs` points on that member of the family with positive weights, whatever the size of the buffer. -/
theorem C121_stream {Key : Type*} (split : Key → Key × Key) (splitN : Key → ℕ → List Key)
    (paramsSampler : Key → ℕ → List (List ℂ)) (bsp bs B : ℕ) (hB : 0 < B) (s0 : Key) (he : n + 2 ≤ e)
    (hk : ∀ k, (splitN k bsp).length = bsp) (hp : ∀ k, (paramsSampler k bsp).length = bsp)
    (hsm : ∀ k, ∀ ps ∈ paramsSampler k bsp, ∃ F : MvPolynomial (Fin (n + 2)) ℂ, Samplable V (n + 1) e ps ∧
      Hypersurface V (.vec ps) (n + 1) e F ∧ SmoothHypersurface F)
    {Ω : Type*} [MeasurableSpace Ω] {P : Measure Ω}
    (X : Key → Ω → Fin 2 → Fin (sampleCount bs (n + 2)) → Fin (2 * (n + 2)) → ℝ)
    (hX : ∀ k, HasLaw (X k) (normalsLaw (n + 2) (sampleCount bs (n + 2))) P) :
    ∀ᵐ ω ∂P, ∃ batches : ℕ → List (SampleRow (n + 1)),
      (∀ j, (batches j).map SampleRow.params = paramsSampler (split (seqKey split s0 j)).1 bsp ∧
        ∀ row ∈ batches j, GoodRow V bs row) ∧
      ∃ st, samplerInit split (sampleBatch n V o roots split splitN paramsSampler (fun k => asLists (lineDraws (X k ω))) bsp bs)
          B s0 = .ok st ∧
        ∀ N, (samplerRun split (sampleBatch n V o roots split splitN paramsSampler (fun k => asLists (lineDraws (X k ω))) bsp bs)
          B N st).1 = (List.range N).map fun j => .ok (batches j) := by
  have hne : ∀ x : List ℂ, ∃ F : MvPolynomial (Fin (n + 2)) ℂ, (∃ k, x ∈ paramsSampler k bsp) → Samplable V (n + 1) e x ∧
      Hypersurface V (.vec x) (n + 1) e F ∧ SmoothHypersurface F := by
    intro x
    by_cases hx : ∃ k, x ∈ paramsSampler k bsp
    · obtain ⟨k, hk⟩ := hx
      obtain ⟨F, hF⟩ := hsm k x hk
      exact ⟨F, fun _ => hF⟩
    · exact ⟨0, fun h => absurd h hx⟩
  choose F hF using hne
  have key : ∀ᵐ ω ∂P, ∀ (j i : ℕ), ∀ x ∈ ((splitN (split (seqKey split s0 j)).2 bsp).zip
      (paramsSampler (split (seqKey split s0 j)).1 bsp))[i]?, ∀ y ∈ lineDraws (X x.1 ω), Admissible (F x.2) y := by
    rw [ae_all_iff]
    intro j
    rw [ae_all_iff]
    intro i
    cases hx : ((splitN (split (seqKey split s0 j)).2 bsp).zip (paramsSampler (split (seqKey split s0 j)).1 bsp))[i]? with
    | none => exact Filter.Eventually.of_forall fun ω x hx => by cases hx
    | some x =>
      have hmem := List.mem_of_getElem? hx
      obtain ⟨-, f2, f3⟩ := hF x.2 ⟨_, (List.of_mem_zip (a := x.1) (b := x.2) hmem).2⟩
      have had := ae_admissible (count := sampleCount bs (n + 2)) (F x.2) (smooth_ne_zero f3) f2.homogeneous
      rw [← (hX x.1).map_eq] at had
      filter_upwards [ae_of_ae_map (hX x.1).aemeasurable had] with ω hω
      intro x' hx'
      obtain rfl := Option.some.inj hx'
      exact hω.2
  filter_upwards [key] with ω hω
  have hbatch : ∀ j, ∃ rows, sampleBatch n V o roots split splitN paramsSampler (fun k => asLists (lineDraws (X k ω))) bsp bs
        (seqKey split s0 j) = .ok rows ∧
      rows.map SampleRow.params = paramsSampler (split (seqKey split s0 j)).1 bsp ∧ ∀ row ∈ rows, GoodRow V bs row := by
    intro j
    have := C121_batch (V := V) (e := e) ho hr split splitN paramsSampler (fun k => lineDraws (X k ω)) bsp bs (seqKey split s0 j)
      (sampleCount bs (n + 2)) (by rw [hk, hp]) (by
        intro x hx
        refine ⟨by rw [lineDraws, List.length_ofFn], F x.2, ?_⟩
        obtain ⟨f1, f2, f3⟩ := hF x.2 ⟨_, (List.of_mem_zip (a := x.1) (b := x.2) hx).2⟩
        refine ⟨f1, f2, f3, ?_⟩
        obtain ⟨i, hi⟩ := List.mem_iff_getElem?.1 hx
        exact hω j i x hi)
    rwa [min_eq_left ((sampleCount_mul bs (n + 2) (by omega)).1.trans (Nat.mul_le_mul_left _ he))] at this
  choose batches b1 b2 b3 using hbatch
  exact ⟨batches, fun j => ⟨b2 j, b3 j⟩, C80_total split _ B hB s0 batches b1⟩

end Sample

section Loss

variable {n : ℕ} {A : AlgebraicMetric (n + 1)} {e : ℕ} {F : MvPolynomial (Fin (n + 2)) ℂ}

/-- `eta` at a point of a smooth hypersurface in affine coordinates. -/
theorem eta_affine {ps : List ℂ} (hF : Hypersurface A.variety (.vec ps) (n + 1) e F) (hsm : SmoothHypersurface F)
    (hB : SpansModulo F A.sections.degree A.sections.rows) (hk : A.sections.degree ≠ 0) (h : A.H) (hh : h.PosDef)
    (z : Fin (n + 1) → ℂ) (p : Fin (n + 2)) (h0 : defining A.variety (List.ofFn z) (.vec ps) (some (.index p)) = .ok 0) :
    ∃ η : ℝ, 0 < η ∧ A.eta h (List.ofFn z) (.vec ps) (some (p : ℕ)) none none = .ok (η : ℂ) := by
  have hz0 : eval (affineToHom z (p : ℕ)) F = 0 := Except.ok.inj ((hF.defining p z).symm.trans h0)
  have hp1 : affineToHom z (p : ℕ) p = 1 := C15_one_at_patch z p
  have hZ0 : affineToHom z (p : ℕ) ≠ 0 := fun h => by
    rw [h] at hp1
    exact zero_ne_one hp1
  obtain ⟨k, hk0⟩ := smooth_affine hF.homogeneous _ hz0 (hsm _ hZ0 hz0) p (by rw [hp1]; exact one_ne_zero)
  rw [C15_roundtrip] at hk0
  have hd0 := argmax_ne (G := fun k => eval z (pderiv k (dehom p F))) hk0
  obtain ⟨K, g, η, R, c, -, -, -, -, r5, r6, -⟩ := C105_affine hF h hh hB hk p z _ none _ (hF.grad p z) h0 hd0
    (Or.inr ⟨rfl, rfl⟩)
  refine ⟨η.re, (Complex.pos_iff.1 r6).1, ?_⟩
  rw [r5]
  congr 1
  exact Complex.ext rfl (by rw [Complex.ofReal_im]; exact (Complex.pos_iff.1 r6).2.symm)

variable {row : SampleRow (n + 1)} {count : ℕ} (hrow : GoodRow A.variety count row) (hc : count ≠ 0)
  (hF : Hypersurface A.variety (.vec row.params) (n + 1) e F) (hsm : SmoothHypersurface F)
  (hB : SpansModulo F A.sections.degree A.sections.rows) (hk : A.sections.degree ≠ 0) (h : A.H) (hh : h.PosDef)

include hrow hc hF hsm hB hk hh

/-- **C121, loss.** On a row of a training sample the loss of a positive definite matrix is defined: with the values `η` of
`eta` at the points and their weights `w` it is the variance of `η` over its squared mean, times the mean weight. It is not negative,
and zero exactly if `eta` is the same at all points. -/
theorem C121_loss : ∃ (η w : Fin row.pts.length → ℝ) (L : ℝ), (∀ i, 0 < η i ∧ 0 < w i) ∧
    (∀ i, A.eta h (List.ofFn (row.pts.get i).1) (.vec row.params) (some ((row.pts.get i).2 : ℕ)) none none = .ok (η i : ℂ)) ∧
    row.weights = List.ofFn w ∧
    varianceEtaLossRow A h row = .ok L ∧
    L = (∑ i, w i) / row.pts.length * (wvar w η / wavg w η ^ 2) ∧ 0 ≤ L ∧ (L = 0 ↔ ∀ i j, η i = η j) := by
  have hη : ∀ i : Fin row.pts.length, ∃ η : ℝ, 0 < η ∧ A.eta h (List.ofFn (row.pts.get i).1) (.vec row.params)
      (some ((row.pts.get i).2 : ℕ)) none none = .ok (η : ℂ) := fun i =>
    eta_affine hF hsm hB hk h hh _ _ (hrow.on_variety _ (List.get_mem _ _))
  choose η η0 hη using hη
  obtain ⟨hl, -⟩ := mapM_inv hrow.weights
  let w : Fin row.pts.length → ℝ := fun i => row.weights.get (i.cast hl.symm)
  have hw : row.weights = List.ofFn w := by
    apply List.ext_getElem
    · simp [hl]
    · intro i h1 h2
      simp [w]
  have w0 : ∀ i, 0 < w i := fun i => hrow.positive _ (List.get_mem _ _)
  have hn : row.pts.length ≠ 0 := by rw [hrow.count_eq]; exact hc
  have : Nonempty (Fin row.pts.length) := ⟨⟨0, Nat.pos_of_ne_zero hn⟩⟩
  have hW : 0 < ∑ i, w i := Finset.sum_pos (fun i _ => w0 i) Finset.univ_nonempty
  have hE : 0 < ∑ i, w i * η i := Finset.sum_pos (fun i _ => mul_pos (w0 i) (η0 i)) Finset.univ_nonempty
  have hm : wavg w η ≠ 0 := (div_pos hE hW).ne'
  have hval : varianceEtaLossRow A h row = .ok (varianceEtaLoss η w) := by
    have hm : row.pts.mapM (fun x => A.eta h (List.ofFn x.1) (.vec row.params) (some (x.2 : ℕ)) none none) =
        .ok (List.ofFn fun i => (η i : ℂ)) := by
      conv_lhs => rw [← List.ofFn_get row.pts]
      exact mapM_ofFn hη
    unfold varianceEtaLossRow
    rw [hm]
    simp only [bind, Except.bind]
    rw [if_pos (by rw [hl, List.length_ofFn]), loss_list η w _ row.weights rfl hw]
    rfl
  refine ⟨η, w, _, fun i => ⟨η0 i, w0 i⟩, hη, hw, hval, C82_variance η w hW hm η0, C82_nonneg η w (fun i => (w0 i).le) hW hm, ?_⟩
  rw [C82_zero_iff η w (fun i => (w0 i).le) hW η0]
  exact ⟨fun h i j => h i j (w0 i) (w0 j), fun h i j _ _ => h i j⟩

omit hc hsm hk in
/-- **C121, loss.** Multiplying the matrix by a positive number does not change the loss. -/
theorem C121_scale (c : ℝ) (hc0 : 0 < c) : varianceEtaLossRow A ((c : ℂ) • h) row = varianceEtaLossRow A h row := by
  have key : row.pts.mapM (fun x => A.eta ((c : ℂ) • h) (List.ofFn x.1) (.vec row.params) (some (x.2 : ℕ)) none none) =
      row.pts.mapM (fun x => A.eta h (List.ofFn x.1) (.vec row.params) (some (x.2 : ℕ)) none none) := by
    refine mapM_congr fun x hx => ?_
    have hz0 : eval (affineToHom x.1 (x.2 : ℕ)) F = 0 :=
      Except.ok.inj ((hF.defining x.2 x.1).symm.trans (hrow.on_variety x hx))
    rw [eta_val hF, eta_val hF]
    exact congrArg Except.ok (C71_induced c h hc0.ne' _ _ _ (psi_pos h hh hB _ _ hz0).ne').2.2.2
  unfold varianceEtaLossRow
  rw [key]

end Loss

/-- Cauchy–Schwarz for the average and the variance of the same numbers. -/
private theorem sigma_le_loss {N : ℕ} (η w : Fin N → ℝ) (hN : N ≠ 0) (hη : ∀ i, 0 < η i) (hw : ∀ i, 0 < w i) :
    ((∑ i, |1 - η i * (∑ j, w j) / ∑ j, η j * w j| * w i) / ∑ i, w i) ^ 2 * ((∑ i, w i) / N) ≤
      (∑ i, w i) / N * (wvar w η / wavg w η ^ 2) := by
  have : Nonempty (Fin N) := ⟨⟨0, Nat.pos_of_ne_zero hN⟩⟩
  have hW : 0 < ∑ i, w i := Finset.sum_pos (fun i _ => hw i) Finset.univ_nonempty
  have hE : 0 < ∑ i, w i * η i := Finset.sum_pos (fun i _ => mul_pos (hw i) (hη i)) Finset.univ_nonempty
  have hcomm : ∑ j, η j * w j = ∑ j, w j * η j := Finset.sum_congr rfl fun i _ => mul_comm _ _
  rw [hcomm]
  set W := ∑ i, w i with hWdef
  set E := ∑ i, w i * η i with hEdef
  have hN' : (0 : ℝ) < N := Nat.cast_pos.2 (Nat.pos_of_ne_zero hN)
  have hm : wavg w η = E / W := rfl
  have hcs : (∑ i, |1 - η i * W / E| * w i) ^ 2 ≤ (∑ i, (1 - η i * W / E) ^ 2 * w i) * ∑ i, w i := by
    refine Finset.sum_sq_le_sum_mul_sum_of_sq_le_mul _ (fun i _ => mul_nonneg (sq_nonneg _) (hw i).le) (fun i _ => (hw i).le)
      fun i _ => le_of_eq ?_
    rw [mul_pow, sq_abs]
    ring
  have hv : wvar w η / wavg w η ^ 2 = (∑ i, (1 - η i * W / E) ^ 2 * w i) / W := by
    unfold wvar
    rw [hm]
    conv_lhs => unfold wavg
    rw [← hWdef, div_div, mul_comm W, ← div_div, Finset.sum_div]
    congr 1
    refine Finset.sum_congr rfl fun i _ => ?_
    field_simp
    ring
  rw [hv, mul_comm (W / N)]
  refine mul_le_mul_of_nonneg_right ?_ (by positivity)
  rw [div_pow, div_le_div_iff₀ (by positivity) hW]
  calc _ ≤ ((∑ i, (1 - η i * W / E) ^ 2 * w i) * W) * W := mul_le_mul_of_nonneg_right hcs hW.le
    _ = _ := by ring

section Accuracy

variable {n : ℕ} {A : AlgebraicMetric (n + 1)} {ps : List ℂ} {e : ℕ} {F : MvPolynomial (Fin (n + 2)) ℂ}
  (hS : Samplable A.variety (n + 1) e ps) (hF : Hypersurface A.variety (.vec ps) (n + 1) e F)
  (hsm : SmoothHypersurface F) (he : e ≠ 0) (hB : SpansModulo F A.sections.degree A.sections.rows)
  (hk : A.sections.degree ≠ 0) (h : A.H) (hh : h.PosDef) {o : SymOrder} (ho : o.Valid) {roots : List ℂ → List ℂ}
  (hr : ExactRoots roots) (count : ℕ) (hc : count ≠ 0) {Key : Type*}
  (draws : Key → List ((Fin (n + 2) → ℂ) × (Fin (n + 2) → ℂ))) (key : Key) (hdr : draws key ≠ [])
  (hd : ∀ x ∈ draws key, Admissible F x)

include hS hF hsm he hB hk hh ho hr hc hdr hd

/-- **C121, loss and accuracy.** For the same random lines, the loss on the sampled row bounds the accuracy: `σ² · mean(w)` is
at most the loss. One is zero exactly if the other is. -/
theorem C121_accuracy : ∃ (row : SampleRow (n + 1)) (L σ : ℝ),
    sampleRow n A.variety o roots (fun k => asLists (draws k)) count key ps = .ok row ∧
    varianceEtaLossRow A h row = .ok L ∧
    A.sigmaAccuracy h o roots ps count (asLists (draws key)) = .ok σ ∧
    σ ^ 2 * (row.weights.sum / row.weights.length) ≤ L ∧ (L = 0 ↔ σ = 0) := by
  obtain ⟨Zs, η', w', σ, s1, s2, s3, s4, s5, s6, -, s7⟩ := C110_sigma hS hF hsm he hB hk h hh ho hr count hc _ hdr hd
  obtain ⟨Zs', r1, r2, r3, r4⟩ := sampleRow_ok hS hF hsm ho hr draws count key hd
  obtain rfl : Zs' = Zs := List.map_injective_iff.2 List.ofFn_injective (Except.ok.inj (r1.symm.trans s1))
  set row : SampleRow (n + 1) := ⟨ps, Zs'.map homToAffineAuto, Zs'.map (pointWeight e F)⟩ with hrow
  have hcnt : min count ((draws key).length * e) ≠ 0 := by
    have : 0 < (draws key).length := List.length_pos_iff.2 hdr
    exact (lt_min (Nat.pos_of_ne_zero hc) (Nat.mul_pos this (Nat.pos_of_ne_zero he))).ne'
  obtain ⟨η, w, L, p1, p2, p3, p4, p5, p6, p7⟩ := C121_loss r4 hcnt hF hsm hB hk h hh
  have hlen : row.pts.length = Zs'.length := List.length_map _
  have hn : row.pts.length ≠ 0 := by rw [hlen, s2]; exact hcnt
  have e1 : ∀ i, η i = η' (Zs'.get (i.cast hlen)) := by
    intro i
    have h1 := p2 i
    have hi : row.pts.get i = homToAffineAuto (Zs'.get (i.cast hlen)) := by simp [hrow]
    rw [hi] at h1
    have h2 := (s3 _ (List.get_mem Zs' (i.cast hlen))).2.2.2.2.1
    rw [(C103_homogeneous A hF.dim h (.vec ps) none none _).2.2.1] at h2
    exact_mod_cast Except.ok.inj (h1.symm.trans h2)
  have e2 : ∀ i, w i = w' (Zs'.get (i.cast hlen)) := by
    intro i
    have hmem := List.get_mem Zs' (i.cast hlen)
    have h1 : row.weights[(i : ℕ)]? = some (w i) := by rw [p3, List.getElem?_ofFn, dif_pos i.2]
    have h2 : row.weights[(i : ℕ)]? = some (pointWeight e F (Zs'.get (i.cast hlen))) := by
      simp [hrow]
      exact ⟨_, List.getElem?_eq_getElem (i.2.trans_eq hlen), rfl⟩
    rw [Option.some.inj (h1.symm.trans h2)]
    exact Except.ok.inj ((weight_auto hF _ (r2 _ hmem).1 (r2 _ hmem).2 (hsm _ (r2 _ hmem).1 (r2 _ hmem).2)).symm.trans
      (s3 _ hmem).2.2.2.2.2)
  have hsum : ∀ f : (Fin (n + 2) → ℂ) → ℝ, (Zs'.map f).sum = ∑ i : Fin row.pts.length, f (Zs'.get (i.cast hlen)) := by
    intro f
    rw [← sum_get Zs' f]
    exact (Fintype.sum_equiv (finCongr hlen) _ _ fun i => rfl).symm
  have hσ : σ = (∑ i, |1 - η i * (∑ j, w j) / ∑ j, η j * w j| * w i) / ∑ i, w i := by
    rw [s5]
    simp only [hsum, e1, e2]
  refine ⟨row, L, σ, r3, p4, s4, ?_, ?_⟩
  · have hws : row.weights.sum = ∑ i, w i := by rw [p3, List.sum_ofFn]
    have hwl : row.weights.length = row.pts.length := by rw [p3, List.length_ofFn]
    rw [hws, hwl, p5, hσ]
    exact sigma_le_loss η w hn (fun i => (p1 i).1) fun i => (p1 i).2
  · rw [p7, s7]
    constructor
    · intro hη Z hZ Z' hZ'
      obtain ⟨i, rfl⟩ := List.get_of_mem hZ
      obtain ⟨j, rfl⟩ := List.get_of_mem hZ'
      have := hη (i.cast hlen.symm) (j.cast hlen.symm)
      rw [e1, e1] at this
      exact this
    · intro hη i j
      rw [e1, e1]
      exact hη _ (List.get_mem _ _) _ (List.get_mem _ _)

end Accuracy

/-- The hypotheses of `C121_stream` can be met: two sets of moduli `psi = 0` of the Dwork quintic for every key. -/
example : ∃ (P : Measure (Fin 2 → Fin 100 → Fin (2 * 5) → ℝ)) (_ : IsProbabilityMeasure P)
    (X : ℕ → (Fin 2 → Fin 100 → Fin (2 * 5) → ℝ) → Fin 2 → Fin 100 → Fin (2 * 5) → ℝ),
    (∀ k, HasLaw (X k) (normalsLaw 5 100) P) ∧ sampleCount 500 5 = 100 ∧
    ∃ F : MvPolynomial (Fin 5) ℂ, Samplable (.dwork 5 (.flag true)) 4 5 [0] ∧
      Hypersurface (.dwork 5 (.flag true)) (.vec [0]) 4 5 F ∧ SmoothHypersurface F :=
  ⟨normalsLaw 5 100, inferInstance, fun _ ω => ω, fun _ => HasLaw.id, rfl, _,
    .dwork 4 (.flag true) (by simp [DworkFactor.value]) 0, hypersurface_dwork_explicit 4 (.flag true) 0 [],
    (smooth_dwork (m := 4) ((DworkFactor.flag true).value * 0)).2 (by norm_num)⟩

end Cyjax
