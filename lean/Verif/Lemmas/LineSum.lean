import Verif.Lemmas.WeightAverage
import Verif.Lemmas.SampleLines
import Verif.Props.AlmostSure

/-! # Sums over the points of random lines -/

namespace Cyjax

open MeasureTheory MvPolynomial Cyjax.Spec Set Cyjax.Projective Cyjax.Differential
open scoped ENNReal

variable {n e : ℕ} {F : MvPolynomial (Fin (n + 2)) ℂ}

/-- The points at which the direction `q` is transversal to the hypersurface. -/
def simpleSet (F : MvPolynomial (Fin (n + 2)) ℂ) (q : Fin (n + 2) → ℂ) : Set (Fin (n + 2) → ℂ) :=
  {Z | eval Z F = 0 ∧ dirD F q Z ≠ 0}

/-- The sum of `φ` over the transversal intersections of a line. -/
noncomputable def simpleSum (F : MvPolynomial (Fin (n + 2)) ℂ) (φ : (Fin (n + 2) → ℂ) → ℝ≥0∞)
    (x : (Fin (n + 2) → ℂ) × (Fin (n + 2) → ℂ)) : ℝ≥0∞ :=
  ∑' t : ℂ, (simpleSet F x.2).indicator φ (x.1 + t • x.2)

theorem measurable_simpleSum {φ : (Fin (n + 2) → ℂ) → ℝ≥0∞} (hφ : Measurable φ) : Measurable (simpleSum F φ) := by
  refine measurable_rootSum_indicator F (A := fun x : (Fin (n + 2) → ℂ) × (Fin (n + 2) → ℂ) => x.1) (r := fun x => x.2)
    (G := fun x => simpleSet F x.2) (k := fun _ => φ) continuous_fst continuous_snd ?_ (fun x Z hZ => ⟨hZ.1, hZ.2⟩)
    (hφ.comp (by fun_prop))
  have m1 : Measurable fun z : ((Fin (n + 2) → ℂ) × (Fin (n + 2) → ℂ)) × ℂ => eval (z.1.1 + z.2 • z.1.2) F := by fun_prop
  have m2 : Measurable fun z : ((Fin (n + 2) → ℂ) × (Fin (n + 2) → ℂ)) × ℂ => dirD F z.1.2 (z.1.1 + z.2 • z.1.2) := by fun_prop
  exact (m1 (measurableSet_singleton 0)).inter (m2 (measurableSet_singleton 0).compl)

theorem simpleSum_eq {φ : (Fin (n + 2) → ℂ) → ℝ≥0∞} {x : (Fin (n + 2) → ℂ) × (Fin (n + 2) → ℂ)}
    (hx : ∀ t, eval (linePoint x t) F = 0 → dirD F x.2 (linePoint x t) ≠ 0) : simpleSum F φ x = lineSum F φ x := by
  refine tsum_congr fun t => ?_
  by_cases ht : eval (linePoint x t) F = 0
  · rw [indicator_of_mem (show t ∈ {t | eval (linePoint x t) F = 0} from ht),
      indicator_of_mem (show x.1 + t • x.2 ∈ simpleSet F x.2 from ⟨ht, hx t ht⟩)]
    rfl
  · rw [indicator_of_notMem (show t ∉ {t | eval (linePoint x t) F = 0} from ht),
      indicator_of_notMem (show x.1 + t • x.2 ∉ simpleSet F x.2 from fun h => ht h.1)]

theorem simpleSum_fs (p : Fin (n + 2)) (d : Fin (n + 1)) (hF : Irreducible F) (hom : F.IsHomogeneous e) (he : e ≠ 0)
    (hd : pderiv (p.succAbove d) F ≠ 0) {φ : (Fin (n + 2) → ℂ) → ℝ≥0∞} (hφ : Measurable φ)
    (hinv : ∀ c : ℂ, c ≠ 0 → ∀ Z, φ (c • Z) = φ Z) :
    ∫⁻ x, simpleSum F φ x ∂lineLaw (n + 2) = ∫⁻ Z, φ Z ∂fsMeasure p d F := by
  rw [← lineSum_fs p d hF hom he hd hφ hinv]
  refine lintegral_congr_ae ?_
  filter_upwards [ae_transversal hF hom he] with x hx
  exact simpleSum_eq hx

theorem dirD_smul (hom : F.IsHomogeneous e) (s c : ℂ) (q Z : Fin (n + 2) → ℂ) :
    dirD F (s • q) (c • Z) = s * c ^ (e - 1) * dirD F q Z := by
  unfold dirD
  rw [Finset.mul_sum]
  refine Finset.sum_congr rfl fun i _ => ?_
  rw [eval_smul_point hom.pderiv, Pi.smul_apply, smul_eq_mul]
  ring

/-- Normalising the two vectors does not matter. -/
theorem simpleSum_smul (hom : F.IsHomogeneous e) {φ : (Fin (n + 2) → ℂ) → ℝ≥0∞}
    (hinv : ∀ c : ℂ, c ≠ 0 → ∀ Z, φ (c • Z) = φ Z) {r s : ℂ} (hr : r ≠ 0) (hs : s ≠ 0) (P q : Fin (n + 2) → ℂ) :
    simpleSum F φ (r • P, s • q) = simpleSum F φ (P, q) := by
  unfold simpleSum
  rw [← (Equiv.mulRight₀ (s / r) (div_ne_zero hs hr)).tsum_eq fun t : ℂ => (simpleSet F q).indicator φ (P + t • q)]
  refine tsum_congr fun t => ?_
  have hZ : r • P + t • s • q = r • (P + (t * (s / r)) • q) := by
    rw [smul_add, smul_smul, smul_smul]
    congr 2
    field_simp
  simp only [Equiv.mulRight₀_apply, hZ]
  set Z := P + (t * (s / r)) • q
  have hmem : r • Z ∈ simpleSet F (s • q) ↔ Z ∈ simpleSet F q := by
    simp only [simpleSet, mem_ofPred_eq, eval_smul_point hom, dirD_smul hom, mul_eq_zero, ne_eq, hr, hs, pow_eq_zero_iff',
      false_and, false_or]
  by_cases h : Z ∈ simpleSet F q
  · rw [indicator_of_mem h, indicator_of_mem (hmem.2 h), hinv r hr]
  · rw [indicator_of_notMem h, indicator_of_notMem (fun h' => h (hmem.1 h'))]

/-- The sum of a real function over the transversal intersections of a line. -/
noncomputable def realSum (F : MvPolynomial (Fin (n + 2)) ℂ) (f : (Fin (n + 2) → ℂ) → ℝ)
    (x : (Fin (n + 2) → ℂ) × (Fin (n + 2) → ℂ)) : ℝ :=
  (simpleSum F (fun Z => ENNReal.ofReal (f Z)) x).toReal - (simpleSum F (fun Z => ENNReal.ofReal (-f Z)) x).toReal

theorem measurable_realSum {f : (Fin (n + 2) → ℂ) → ℝ} (hf : Measurable f) : Measurable (realSum F f) :=
  (measurable_simpleSum hf.ennreal_ofReal).ennreal_toReal.sub (measurable_simpleSum hf.neg.ennreal_ofReal).ennreal_toReal

theorem realSum_smul (hom : F.IsHomogeneous e) {f : (Fin (n + 2) → ℂ) → ℝ}
    (hinv : ∀ c : ℂ, c ≠ 0 → ∀ Z, f (c • Z) = f Z) {r s : ℂ} (hr : r ≠ 0) (hs : s ≠ 0) (P q : Fin (n + 2) → ℂ) :
    realSum F f (r • P, s • q) = realSum F f (P, q) := by
  unfold realSum
  rw [simpleSum_smul hom (fun c hc Z => by rw [hinv c hc]) hr hs, simpleSum_smul hom (fun c hc Z => by rw [hinv c hc]) hr hs]

theorem ofReal_list_sum {α : Type*} (f : α → ℝ) (l : List α) :
    (l.map fun a => ENNReal.ofReal (f a)).sum.toReal - (l.map fun a => ENNReal.ofReal (-f a)).sum.toReal = (l.map f).sum ∧
      (l.map fun a => ENNReal.ofReal (f a)).sum ≠ ∞ ∧ (l.map fun a => ENNReal.ofReal (-f a)).sum ≠ ∞ := by
  induction l with
  | nil => simp
  | cons a l ih =>
    obtain ⟨h1, h2, h3⟩ := ih
    simp only [List.map_cons, List.sum_cons]
    refine ⟨?_, ENNReal.add_ne_top.2 ⟨ENNReal.ofReal_ne_top, h2⟩, ENNReal.add_ne_top.2 ⟨ENNReal.ofReal_ne_top, h3⟩⟩
    rw [ENNReal.toReal_add ENNReal.ofReal_ne_top h2, ENNReal.toReal_add ENNReal.ofReal_ne_top h3, ← h1]
    have : (ENNReal.ofReal (f a)).toReal - (ENNReal.ofReal (-f a)).toReal = f a := by
      rw [ENNReal.toReal_ofReal', ENNReal.toReal_ofReal']
      exact max_zero_sub_max_neg_zero_eq_self (f a)
    linarith

/-- On a transversal line it is the sum over the list of roots. -/
theorem realSum_roots {x : (Fin (n + 2) → ℂ) × (Fin (n + 2) → ℂ)} {R : List ℂ} {c : ℂ} (hc : c ≠ 0)
    (hfac : ∀ t, eval (linePoint x t) F = c * (R.map (t - ·)).prod)
    (htr : ∀ t, eval (linePoint x t) F = 0 → dirD F x.2 (linePoint x t) ≠ 0) (f : (Fin (n + 2) → ℂ) → ℝ) :
    realSum F f x = (R.map fun t => f (linePoint x t)).sum := by
  obtain ⟨hR, hS⟩ := sum_roots hc hfac htr
  unfold realSum
  rw [simpleSum_eq htr, simpleSum_eq htr, lineSum, lineSum, sum_list_eq_tsum hR (S := {t | eval (linePoint x t) F = 0}) hS,
    sum_list_eq_tsum hR (S := {t | eval (linePoint x t) F = 0}) hS]
  exact (ofReal_list_sum (fun t => f (linePoint x t)) R).1

theorem realSum_integral (p : Fin (n + 2)) (d : Fin (n + 1)) (hF : Irreducible F) (hom : F.IsHomogeneous e) (he : e ≠ 0)
    (hd : pderiv (p.succAbove d) F ≠ 0) {f : (Fin (n + 2) → ℂ) → ℝ} (hf : Measurable f)
    (hinv : ∀ c : ℂ, c ≠ 0 → ∀ Z, f (c • Z) = f Z) (hint : Integrable f (fsMeasure p d F)) :
    Integrable (realSum F f) (lineLaw (n + 2)) ∧ ∫ x, realSum F f x ∂lineLaw (n + 2) = ∫ Z, f Z ∂fsMeasure p d F := by
  have h1 := simpleSum_fs p d hF hom he hd hf.ennreal_ofReal (fun c hc Z => by rw [hinv c hc])
  have h2 := simpleSum_fs p d hF hom he hd hf.neg.ennreal_ofReal (fun c hc Z => by rw [Pi.neg_apply, Pi.neg_apply, hinv c hc])
  have m1 := measurable_simpleSum (F := F) hf.ennreal_ofReal
  have m2 := measurable_simpleSum (F := F) hf.neg.ennreal_ofReal
  have t1 : ∫⁻ Z, ENNReal.ofReal (f Z) ∂fsMeasure p d F ≠ ∞ := hint.lintegral_lt_top.ne
  have t2 : ∫⁻ Z, ENNReal.ofReal ((-f) Z) ∂fsMeasure p d F ≠ ∞ := hint.neg.lintegral_lt_top.ne
  have i1 := integrable_toReal_of_lintegral_ne_top m1.aemeasurable (h1 ▸ t1)
  have i2 := integrable_toReal_of_lintegral_ne_top m2.aemeasurable (h2 ▸ t2)
  refine ⟨i1.sub i2, ?_⟩
  have := integral_sub i1 i2
  unfold realSum
  refine this.trans ?_
  rw [integral_toReal m1.aemeasurable (ae_lt_top m1 (h1 ▸ t1)), integral_toReal m2.aemeasurable (ae_lt_top m2 (h2 ▸ t2)), h1, h2,
    integral_eq_lintegral_pos_part_sub_lintegral_neg_part hint]
  rfl

end Cyjax
