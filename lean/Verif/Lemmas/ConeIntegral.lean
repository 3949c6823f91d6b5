import Verif.Lemmas.ConeCoordinates
import Mathlib.Analysis.Calculus.FDeriv.Mul
import Mathlib.Analysis.Calculus.FDeriv.Pi

/-! # The roots along a random direction, in coordinates -/

namespace Cyjax

open MeasureTheory MvPolynomial Cyjax.Spec Set
open scoped ENNReal

section Poly

variable {m : ℕ}

/-- The derivative of a polynomial in a direction. -/
noncomputable def dirD (F : MvPolynomial (Fin m) ℂ) (q Z : Fin m → ℂ) : ℂ := ∑ i, q i * eval Z (pderiv i F)

theorem dirD_single (F : MvPolynomial (Fin m) ℂ) (i : Fin m) (Z : Fin m → ℂ) :
    dirD F (Pi.single i 1) Z = eval Z (pderiv i F) := by
  simp [dirD, Pi.single_apply]

theorem continuous_evalZ (F : MvPolynomial (Fin m) ℂ) : Continuous fun Z : Fin m → ℂ => eval Z F :=
  MvPolynomial.continuous_eval F

theorem continuous_dirD (F : MvPolynomial (Fin m) ℂ) : Continuous fun x : (Fin m → ℂ) × (Fin m → ℂ) => dirD F x.1 x.2 := by
  unfold dirD
  refine continuous_finsetSum _ fun i _ => ((continuous_apply i).comp continuous_fst).mul ?_
  exact (continuous_evalZ (pderiv i F)).comp continuous_snd

/-- The difference quotient of a polynomial along a line. -/
theorem exists_quotient (F : MvPolynomial (Fin m) ℂ) :
    ∃ H : ((Fin m → ℂ) × (Fin m → ℂ)) × (ℂ × ℂ) → ℂ, Continuous H ∧
      (∀ Z r y y', eval (Z + y • r) F - eval (Z + y' • r) F = (y - y') * H ((Z, r), (y, y'))) ∧
      ∀ Z r y, H ((Z, r), (y, y)) = dirD F r (Z + y • r) := by
  induction F using MvPolynomial.induction_on with
  | C a => exact ⟨fun _ => 0, continuous_const, by simp, by simp [dirD]⟩
  | add f g hf hg =>
    obtain ⟨H, hH, h1, h2⟩ := hf
    obtain ⟨K, hK, k1, k2⟩ := hg
    refine ⟨fun x => H x + K x, hH.add hK, fun Z r y y' => ?_, fun Z r y => ?_⟩
    · rw [mul_add, ← h1, ← k1, map_add, map_add]
      ring
    · simp only [h2, k2]
      simp [dirD, mul_add, Finset.sum_add_distrib]
  | mul_X f i hf =>
    obtain ⟨H, hH, h1, h2⟩ := hf
    refine ⟨fun x => H x * (x.1.1 i + x.2.1 * x.1.2 i) + eval (x.1.1 + x.2.2 • x.1.2) f * x.1.2 i, ?_,
      fun Z r y y' => ?_, fun Z r y => ?_⟩
    · have := (continuous_evalZ f).comp (f := fun x : ((Fin m → ℂ) × (Fin m → ℂ)) × (ℂ × ℂ) => x.1.1 + x.2.2 • x.1.2)
        (by fun_prop)
      refine (hH.mul ?_).add (this.mul ?_)
      · fun_prop
      · fun_prop
    · have := h1 Z r y y'
      simp only [map_mul, eval_X, Pi.add_apply, Pi.smul_apply, smul_eq_mul]
      linear_combination (Z i + y * r i) * this
    · simp only [h2, dirD, Derivation.leibniz, pderiv_X, smul_eq_mul, map_add, map_mul, eval_X, mul_add (_ : ℂ) (eval _ _ * _), Finset.sum_add_distrib,
        Pi.add_apply, Pi.smul_apply]
      rw [add_comm]
      congr 1
      · rw [Finset.sum_eq_single i]
        · simp [mul_comm]
        · intro j _ hj
          simp [hj.symm]
        · simp
      · rw [Finset.sum_mul]
        exact Finset.sum_congr rfl fun j _ => by ring

theorem hasStrictFDerivAt_eval (F : MvPolynomial (Fin m) ℂ) (Z : Fin m → ℂ) :
    HasStrictFDerivAt (fun Z : Fin m → ℂ => eval Z F)
      (∑ i, eval Z (pderiv i F) • (ContinuousLinearMap.proj i : (Fin m → ℂ) →L[ℂ] ℂ)) Z := by
  induction F using MvPolynomial.induction_on with
  | C a =>
    simp only [eval_C]
    refine (hasStrictFDerivAt_const (𝕜 := ℂ) a Z).congr_fderiv ?_
    ext v
    simp
  | add f g hf hg =>
    simp only [map_add]
    refine (hf.add hg).congr_fderiv ?_
    rw [← Finset.sum_add_distrib]
    exact Finset.sum_congr rfl fun i _ => (add_smul _ _ _).symm
  | mul_X f i hf =>
    simp only [map_mul, eval_X]
    refine (hf.mul (hasStrictFDerivAt_apply i Z)).congr_fderiv ?_
    ext v
    simp [Derivation.leibniz, pderiv_X, Finset.mul_sum, add_mul, Finset.sum_add_distrib, Pi.single_apply, apply_ite, mul_assoc]

/-- A polynomial on an affine plane. -/
theorem hasStrictFDerivAt_plane (F : MvPolynomial (Fin m) ℂ) (u q r : Fin m → ℂ) (z : ℂ × ℂ) :
    HasStrictFDerivAt (fun z : ℂ × ℂ => eval (u + z.2 • r + z.1 • q) F)
      (dirD F q (u + z.2 • r + z.1 • q) • ContinuousLinearMap.fst ℂ ℂ ℂ +
        dirD F r (u + z.2 • r + z.1 • q) • ContinuousLinearMap.snd ℂ ℂ ℂ) z := by
  have h1 : HasStrictFDerivAt (fun z : ℂ × ℂ => u + z.2 • r + z.1 • q)
      ((ContinuousLinearMap.snd ℂ ℂ ℂ).smulRight r + (ContinuousLinearMap.fst ℂ ℂ ℂ).smulRight q) z := by
    refine HasStrictFDerivAt.add (HasStrictFDerivAt.const_add u ?_) ?_
    · exact ((ContinuousLinearMap.snd ℂ ℂ ℂ).smulRight r).hasStrictFDerivAt
    · exact ((ContinuousLinearMap.fst ℂ ℂ ℂ).smulRight q).hasStrictFDerivAt
  refine ((hasStrictFDerivAt_eval F _).comp z h1).congr_fderiv ?_
  ext <;> simp [dirD, mul_comm]

/-- Sums over the simple roots along lines are measurable. -/
theorem measurable_rootSum {X : Type*} [TopologicalSpace X] [PolishSpace X] [MeasurableSpace X] [BorelSpace X]
    (F : MvPolynomial (Fin m) ℂ) {A r : X → Fin m → ℂ} (hA : Continuous A) (hr : Continuous r) {E : Set (X × ℂ)}
    (hE : MeasurableSet E)
    (hsub : ∀ z ∈ E, eval (A z.1 + z.2 • r z.1) F = 0 ∧ dirD F (r z.1) (A z.1 + z.2 • r z.1) ≠ 0)
    {h : X × ℂ → ℝ≥0∞} (hh : Measurable h) : Measurable fun x => ∑' y, E.indicator h (x, y) := by
  obtain ⟨H, hH, h1, h2⟩ := exists_quotient F
  refine measurable_fibre_sum hE (fun z hz => ?_) hh
  obtain ⟨-, hz2⟩ := hsub z hz
  rw [← h2] at hz2
  have hc : Continuous fun x : X × (ℂ × ℂ) => H ((A x.1, r x.1), x.2) := hH.comp (by fun_prop)
  have hopen : IsOpen {x : X × (ℂ × ℂ) | H ((A x.1, r x.1), x.2) ≠ 0} := isOpen_ne_fun hc continuous_const
  obtain ⟨U, V, hU, hV, hzU, hzV, hUV⟩ := isOpen_prod_iff.1 hopen z.1 (z.2, z.2) hz2
  obtain ⟨V1, V2, hV1, hV2, hz1, hz2, hVV⟩ := isOpen_prod_iff.1 hV z.2 z.2 hzV
  refine ⟨U ×ˢ (V1 ∩ V2), hU.prod (hV1.inter hV2), ⟨hzU, hz1, hz2⟩, ?_⟩
  rintro ⟨x, y⟩ ⟨hxE, hxU, hy⟩ ⟨x', y'⟩ ⟨hxE', hxU', hy'⟩ hxx
  obtain rfl : x = x' := hxx
  have hne : H ((A x, r x), (y, y')) ≠ 0 := hUV (show (x, (y, y')) ∈ U ×ˢ V from ⟨hxU, hVV ⟨hy.1, hy'.2⟩⟩)
  have := h1 (A x) (r x) y y'
  rw [(hsub _ hxE).1, (hsub _ hxE').1, sub_zero, eq_comm, mul_eq_zero] at this
  rw [sub_eq_zero.1 (this.resolve_right hne)]

theorem measurable_rootSum_indicator {X : Type*} [TopologicalSpace X] [PolishSpace X] [MeasurableSpace X] [BorelSpace X]
    (F : MvPolynomial (Fin m) ℂ) {A r : X → Fin m → ℂ} (hA : Continuous A) (hr : Continuous r) {G : X → Set (Fin m → ℂ)}
    (hG : MeasurableSet {z : X × ℂ | A z.1 + z.2 • r z.1 ∈ G z.1})
    (hsub : ∀ x, ∀ Z ∈ G x, eval Z F = 0 ∧ dirD F (r x) Z ≠ 0) {k : X → (Fin m → ℂ) → ℝ≥0∞}
    (hk : Measurable fun z : X × ℂ => k z.1 (A z.1 + z.2 • r z.1)) :
    Measurable fun x => ∑' y : ℂ, (G x).indicator (k x) (A x + y • r x) := by
  have h := measurable_rootSum F hA hr hG (fun z hz => hsub z.1 _ hz) hk
  have heq : ∀ x (y : ℂ), (G x).indicator (k x) (A x + y • r x) =
      {z : X × ℂ | A z.1 + z.2 • r z.1 ∈ G z.1}.indicator (fun z : X × ℂ => k z.1 (A z.1 + z.2 • r z.1)) (x, y) := by
    intro x y
    by_cases hz : A x + y • r x ∈ G x
    · rw [indicator_of_mem hz, indicator_of_mem (show (x, y) ∈ {z : X × ℂ | A z.1 + z.2 • r z.1 ∈ G z.1} from hz)]
    · rw [indicator_of_notMem hz, indicator_of_notMem (show (x, y) ∉ {z : X × ℂ | A z.1 + z.2 • r z.1 ∈ G z.1} from hz)]
  simp_rw [heq]
  exact h

end Poly

section Direction

variable {n : ℕ} (p : Fin (n + 2)) (d : Fin (n + 1)) (F : MvPolynomial (Fin (n + 2)) ℂ)

theorem hpoint_shift (x y : ℂ) (w : Fin n → ℂ) :
    hpoint p d x y w = hpoint p d x 0 w + y • (Pi.single (p.succAbove d) 1 : Fin (n + 2) → ℂ) := by
  refine ext_hpoint p d ?_ ?_ fun k => ?_
  · simp [hpoint_p]
  · simp [hpoint_d]
  · have : p.succAbove (d.succAbove k) ≠ p.succAbove d := fun h => Fin.succAbove_ne d k (Fin.succAbove_right_injective h)
    simp [hpoint_w, this]

theorem measurable_hpointSum {X : Type*} [TopologicalSpace X] [PolishSpace X] [MeasurableSpace X] [BorelSpace X] {a : X → ℂ}
    {b : X → Fin n → ℂ} (ha : Continuous a) (hb : Continuous b) {G : X → Set (Fin (n + 2) → ℂ)}
    (hG : MeasurableSet {z : X × ℂ | hpoint p d (a z.1) z.2 (b z.1) ∈ G z.1})
    (hsub : ∀ x, ∀ Z ∈ G x, eval Z F = 0 ∧ eval Z (pderiv (p.succAbove d) F) ≠ 0) {k : X → (Fin (n + 2) → ℂ) → ℝ≥0∞}
    (hk : Measurable fun z : X × ℂ => k z.1 (hpoint p d (a z.1) z.2 (b z.1))) :
    Measurable fun x => ∑' y : ℂ, (G x).indicator (k x) (hpoint p d (a x) y (b x)) := by
  have h := measurable_rootSum_indicator F (A := fun x => hpoint p d (a x) 0 (b x)) (G := G) (k := k)
    (r := fun _ => (Pi.single (p.succAbove d) 1 : Fin (n + 2) → ℂ)) (by fun_prop) continuous_const
    (by simpa only [← hpoint_shift] using hG) (fun x Z hZ => by rw [dirD_single]; exact hsub x Z hZ)
    (by simpa only [← hpoint_shift] using hk)
  simpa only [← hpoint_shift] using h

/-- The points of the hypersurface at which the direction `q` is transversal and the coordinate `d` is dependent. -/
def goodSet (q : Fin (n + 2) → ℂ) : Set (Fin (n + 2) → ℂ) :=
  {Z | eval Z F = 0 ∧ dirD F q Z ≠ 0 ∧ eval Z (pderiv (p.succAbove d) F) ≠ 0}

theorem measurable_evalZ {m : ℕ} (P : MvPolynomial (Fin m) ℂ) : Measurable fun Z : Fin m → ℂ => eval Z P :=
  (continuous_evalZ P).measurable

theorem measurable_dirD {m : ℕ} (P : MvPolynomial (Fin m) ℂ) (q : Fin m → ℂ) : Measurable fun Z : Fin m → ℂ => dirD P q Z :=
  (continuous_dirD P).measurable.comp (measurable_prodMk_left (x := q))

theorem measurableSet_goodSet (q : Fin (n + 2) → ℂ) : MeasurableSet (goodSet p d F q) :=
  ((measurable_evalZ F) (measurableSet_singleton 0)).inter
    (((measurable_dirD F q) (measurableSet_singleton 0).compl).inter
      ((measurable_evalZ (pderiv (p.succAbove d) F)) (measurableSet_singleton 0).compl))

/-- The density of the multiples of a direction. -/
noncomputable def lineDensity {m : ℕ} (Z q : Fin m → ℂ) : ℝ≥0∞ := ∫⁻ t : ℂ, cdensity (Z + t • q)

theorem measurable_lineDensity₂ {m : ℕ} : Measurable fun x : (Fin m → ℂ) × (Fin m → ℂ) => lineDensity x.1 x.2 := by
  unfold lineDensity
  have : Measurable fun x : ((Fin m → ℂ) × (Fin m → ℂ)) × ℂ => cdensity (x.1.1 + x.2 • x.1.2) :=
    measurable_cdensity.comp (by fun_prop)
  exact this.lintegral_prod_right'

theorem measurable_lineDensity {m : ℕ} (q : Fin m → ℂ) : Measurable fun Z : Fin m → ℂ => lineDensity Z q :=
  measurable_lineDensity₂.comp (f := fun Z : Fin m → ℂ => (Z, q)) (by fun_prop)

@[fun_prop]
theorem Measurable.lineDensity' {X : Type*} [MeasurableSpace X] {m : ℕ} {f g : X → Fin m → ℂ} (hf : Measurable f)
    (hg : Measurable g) : Measurable fun x => lineDensity (f x) (g x) :=
  measurable_lineDensity₂.comp (f := fun x => (f x, g x)) (hf.prodMk hg)

@[fun_prop]
theorem Measurable.cdensity' {X : Type*} [MeasurableSpace X] {m : ℕ} {f : X → Fin m → ℂ} (hf : Measurable f) :
    Measurable fun x => cdensity (f x) := measurable_cdensity.comp (f := f) hf

@[fun_prop]
theorem Measurable.dirD' {X : Type*} [MeasurableSpace X] {m : ℕ} (F : MvPolynomial (Fin m) ℂ) {f g : X → Fin m → ℂ}
    (hf : Measurable f) (hg : Measurable g) : Measurable fun x => dirD F (f x) (g x) :=
  (continuous_dirD F).measurable.comp (f := fun x => (f x, g x)) (hf.prodMk hg)

@[fun_prop]
theorem Measurable.evalZ' {X : Type*} [MeasurableSpace X] {m : ℕ} (F : MvPolynomial (Fin m) ℂ) {f : X → Fin m → ℂ}
    (hf : Measurable f) : Measurable fun x => eval (f x) F := (measurable_evalZ F).comp (f := f) hf

theorem lineDensity_shift {m : ℕ} (Z q : Fin m → ℂ) (a : ℂ) : lineDensity (Z + a • q) q = lineDensity Z q := by
  unfold lineDensity
  rw [← lintegral_add_left_eq_self (fun t : ℂ => cdensity (Z + t • q)) a]
  simp only [add_smul, add_assoc]

theorem tsum_shift {A : Type*} [AddGroup A] (f : A → ℝ≥0∞) (c : A) : ∑' a, f (c + a) = ∑' a, f a :=
  (Equiv.addLeft c).tsum_eq f

theorem along_direction {q : Fin (n + 2) → ℂ} (hq : q p ≠ 0) {φ : (Fin (n + 2) → ℂ) → ℝ≥0∞} (hφ : Measurable φ) :
    ∫⁻ P, cdensity P * ∑' t : ℂ, (goodSet p d F q).indicator φ (P + t • q) =
      ∫⁻ x, ∫⁻ w, ∑' y, (goodSet p d F q).indicator
        (fun Z => φ Z * lineDensity Z q * (‖dirD F q Z‖ₑ ^ 2 / ‖eval Z (pderiv (p.succAbove d) F)‖ₑ ^ 2)) (hpoint p d x y w) := by
  set G := goodSet p d F q with hG
  have hGm : MeasurableSet G := measurableSet_goodSet p d F q
  set r : Fin (n + 2) → ℂ := Pi.single (p.succAbove d) 1 with hr
  have hΓ := measurable_lineDensity q
  have hψ : Measurable fun Z => φ Z * lineDensity Z q := hφ.mul hΓ
  have hN1 : Measurable fun Z : Fin (n + 2) → ℂ => ‖dirD F q Z‖ₑ ^ 2 := (measurable_dirD F q).enorm.pow_const 2
  have hN2 : Measurable fun Z : Fin (n + 2) → ℂ => ‖eval Z (pderiv (p.succAbove d) F)‖ₑ ^ 2 :=
    (measurable_evalZ _).enorm.pow_const 2
  -- sums along the direction
  have hsum : ∀ {k : (Fin (n + 2) → ℂ) → ℝ≥0∞}, Measurable k → Measurable fun P => ∑' t : ℂ, G.indicator k (P + t • q) := by
    intro k hk
    have hm : Measurable fun x : (Fin (n + 2) → ℂ) × ℂ => x.1 + x.2 • q := by fun_prop
    exact measurable_rootSum_indicator F (A := fun P => P) (r := fun _ => q) (G := fun _ => G) (k := fun _ => k) continuous_id
      continuous_const (hm hGm) (fun _ Z hZ => ⟨hZ.1, hZ.2.1⟩) (hk.comp hm)
  have hsumY : ∀ {k : (Fin (n + 2) → ℂ) → ℝ≥0∞}, Measurable k →
      Measurable fun x : ℂ × (Fin n → ℂ) => ∑' y, G.indicator k (hpoint p d x.1 y x.2) := by
    intro k hk
    have hm : Measurable fun x : (ℂ × (Fin n → ℂ)) × ℂ => hpoint p d x.1.1 x.2 x.1.2 := by fun_prop
    exact measurable_hpointSum p d F (X := ℂ × (Fin n → ℂ)) (a := fun x => x.1) (b := fun x => x.2) (G := fun _ => G)
      (k := fun _ => k) continuous_fst continuous_snd (hm hGm) (fun _ Z hZ => ⟨hZ.1, hZ.2.2⟩) (hk.comp hm)
  have hfm : Measurable fun P => cdensity P * ∑' t : ℂ, G.indicator φ (P + t • q) := measurable_cdensity.mul (hsum hφ)
  rw [lintegral_along p d hfm hq]
  -- the integral along the direction
  have h1 : ∀ (w : Fin n → ℂ) (b : ℂ),
      ∫⁻ s : ℂ, cdensity (hpoint p d 0 b w + s • q) * ∑' t : ℂ, G.indicator φ (hpoint p d 0 b w + s • q + t • q) =
        ∑' a : ℂ, G.indicator (fun Z => φ Z * lineDensity Z q) (hpoint p d 0 b w + a • q) := by
    intro w b
    have : ∀ s : ℂ, ∑' t : ℂ, G.indicator φ (hpoint p d 0 b w + s • q + t • q) = ∑' t : ℂ, G.indicator φ (hpoint p d 0 b w + t • q) := by
      intro s
      rw [← tsum_shift (fun t : ℂ => G.indicator φ (hpoint p d 0 b w + t • q)) s]
      simp only [add_smul, add_assoc]
    simp_rw [this]
    have hc : Measurable fun s : ℂ => cdensity (hpoint p d 0 b w + s • q) := measurable_cdensity.comp (by fun_prop)
    rw [lintegral_mul_const _ hc, ← ENNReal.tsum_mul_left]
    refine tsum_congr fun a => ?_
    by_cases ha : hpoint p d 0 b w + a • q ∈ G
    · rw [indicator_of_mem ha, indicator_of_mem ha, lineDensity_shift, mul_comm]
      rfl
    · rw [indicator_of_notMem ha, indicator_of_notMem ha, mul_zero]
  simp_rw [h1]
  -- exchange of the coordinates on each curve
  have h2 : ∀ w : Fin n → ℂ, ∫⁻ b, ∑' a : ℂ, G.indicator (fun Z => φ Z * lineDensity Z q) (hpoint p d 0 b w + a • q) =
      ∫⁻ a : ℂ, ∑' b, G.indicator (fun Z => φ Z * lineDensity Z q * (‖dirD F q Z‖ₑ ^ 2 / ‖eval Z (pderiv (p.succAbove d) F)‖ₑ ^ 2))
        (hpoint p d 0 b w + a • q) := by
    intro w
    set Φ : ℂ × ℂ → Fin (n + 2) → ℂ := fun z => hpoint p d 0 0 w + z.2 • r + z.1 • q with hΦ
    have hΦm : Measurable Φ := by fun_prop
    have hΦe : ∀ a b : ℂ, Φ (a, b) = hpoint p d 0 b w + a • q := fun a b => by rw [hΦ, hpoint_shift p d 0 b]
    have key := curve_swap (P := fun z => eval (Φ z) F) (Pa := fun z => dirD F q (Φ z)) (Pb := fun z => dirD F r (Φ z))
      (ψ := fun z => φ (Φ z) * lineDensity (Φ z) q * ‖dirD F q (Φ z)‖ₑ ^ 2)
      (fun z => hasStrictFDerivAt_plane F (hpoint p d 0 0 w) q r z) ((measurable_dirD F q).comp hΦm) ((measurable_dirD F r).comp hΦm)
      ((hψ.mul hN1).comp hΦm)
    have hcg : ∀ z, z ∈ curveGood (fun z => eval (Φ z) F) (fun z => dirD F q (Φ z)) (fun z => dirD F r (Φ z)) ↔ Φ z ∈ G := by
      intro z
      simp only [curveGood, mem_ofPred_eq, hG, goodSet, hr, dirD_single]
    refine Eq.trans ?_ (key.trans ?_)
    · refine lintegral_congr fun b => tsum_congr fun a => ?_
      rw [← hΦe]
      by_cases ha : Φ (a, b) ∈ G
      · rw [indicator_of_mem ha, indicator_of_mem ((hcg _).2 ha), ENNReal.mul_div_cancel_right]
        · have := ha.2.1
          simpa using this
        · simp
      · rw [indicator_of_notMem ha, indicator_of_notMem (mt (hcg _).1 ha)]
    · refine lintegral_congr fun a => tsum_congr fun b => ?_
      rw [← hΦe]
      by_cases ha : Φ (a, b) ∈ G
      · rw [indicator_of_mem ha, indicator_of_mem ((hcg _).2 ha), hr, dirD_single, mul_div_assoc]
      · rw [indicator_of_notMem ha, indicator_of_notMem (mt (hcg _).1 ha)]
  simp_rw [h2]
  set k : (Fin (n + 2) → ℂ) → ℝ≥0∞ :=
    fun Z => φ Z * lineDensity Z q * (‖dirD F q Z‖ₑ ^ 2 / ‖eval Z (pderiv (p.succAbove d) F)‖ₑ ^ 2) with hk
  have hkm : Measurable k := hψ.mul (hN1.div hN2)
  set qd := q (p.succAbove d) with hqd
  set qw : Fin n → ℂ := fun i => q (p.succAbove (d.succAbove i)) with hqw
  have hpt : ∀ (s b : ℂ) (w : Fin n → ℂ), hpoint p d 0 b w + s • q = hpoint p d (s * q p) (s * qd + b) (w + s • qw) := by
    intro s b w
    conv_lhs => rw [← hpoint_self p d q]
    rw [← hpoint_smul, ← hpoint_add, zero_add, add_comm (s * qd)]
  have h3 : ∀ (w : Fin n → ℂ) (a : ℂ), ∑' b, G.indicator k (hpoint p d 0 b w + a • q) =
      ∑' y, G.indicator k (hpoint p d (a * q p) y (w + a • qw)) := by
    intro w a
    rw [← tsum_shift (fun y => G.indicator k (hpoint p d (a * q p) y (w + a • qw))) (a * qd)]
    exact tsum_congr fun b => by rw [hpt]
  simp_rw [h3]
  have hm5 : Measurable fun x : (Fin n → ℂ) × ℂ => ∑' y, G.indicator k (hpoint p d (x.2 * q p) y (x.1 + x.2 • qw)) :=
    (hsumY hkm).comp (f := fun x : (Fin n → ℂ) × ℂ => (x.2 * q p, x.1 + x.2 • qw)) (by fun_prop)
  rw [lintegral_lintegral_swap hm5.aemeasurable,
    lintegral_comp_mul hq (h := fun x => ∫⁻ w, ∑' y, G.indicator k (hpoint p d x y w)) (hsumY hkm).lintegral_prod_right']
  refine congrArg (‖q p‖ₑ ^ 2 * ·) ?_
  exact lintegral_congr fun a => lintegral_add_right_eq_self (fun w => ∑' y, G.indicator k (hpoint p d (a * q p) y w)) (a • qw)

end Direction

end Cyjax
