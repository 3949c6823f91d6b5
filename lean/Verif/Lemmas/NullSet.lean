import Verif.Spec.RandomLaw
import Verif.Model.Random
import Mathlib.Algebra.MvPolynomial.Equiv
import Mathlib.Algebra.MvPolynomial.Funext
import Mathlib.Topology.Algebra.MvPolynomial
import Mathlib.MeasureTheory.Measure.Prod
import Mathlib.MeasureTheory.Constructions.BorelSpace.Complex

/-! # Zero sets of polynomials are null sets for normal draws -/

namespace Cyjax

open MeasureTheory MvPolynomial Cyjax.Spec

/-- `x` as a complex vector: the first half are real parts, the second half imaginary parts. -/
noncomputable def cvec {m : ℕ} (x : Fin (2 * m) → ℝ) : Fin m → ℂ :=
  fun i => (x ⟨i, by omega⟩ : ℂ) + Complex.I * (x ⟨m + i, by omega⟩ : ℂ)

theorem cvec_surjective (m : ℕ) : Function.Surjective (cvec (m := m)) := by
  intro z
  refine ⟨fun j => if h : (j : ℕ) < m then (z ⟨j, h⟩).re else (z ⟨j - m, by omega⟩).im, ?_⟩
  funext i
  unfold cvec
  have h1 : ¬ (m + (i : ℕ)) < m := by omega
  simp only [i.2, h1, dif_pos, dif_neg, not_false_eq_true, Nat.add_sub_cancel_left]
  exact (congrArg (_ + ·) (mul_comm _ _)).trans (Complex.re_add_im _)

theorem continuous_cvec (m : ℕ) : Continuous (cvec (m := m)) := by
  unfold cvec
  fun_prop

/-- A non-zero polynomial does not vanish at almost all real points, for independent continuous coordinates. -/
theorem ae_eval_ne_zero (k : ℕ) (μ : Fin k → Measure ℝ) [∀ i, SigmaFinite (μ i)] [∀ i, NullSingletonClass (μ i)]
    (P : MvPolynomial (Fin k) ℂ) (hP : P ≠ 0) : ∀ᵐ x ∂Measure.pi μ, eval (fun i => (x i : ℂ)) P ≠ 0 := by
  induction k with
  | zero =>
    refine Filter.Eventually.of_forall fun x h0 => hP ?_
    obtain ⟨c, rfl⟩ := C_surjective (Fin 0) P
    simpa using h0
  | succ k ih =>
    have hmp := measurePreserving_piFinSuccAbove μ 0
    have hmeas : MeasurableSet {y : ℝ × (Fin k → ℝ) | eval (Fin.cons (y.1 : ℂ) fun i => (y.2 i : ℂ)) P = 0} := by
      refine IsClosed.measurableSet (isClosed_singleton.preimage ((MvPolynomial.continuous_eval P).comp ?_))
      refine continuous_pi fun i => ?_
      refine Fin.cases ?_ (fun j => ?_) i
      · simp only [Fin.cons_zero]
        fun_prop
      · simp only [Fin.cons_succ]
        fun_prop
    have hnull : ((μ 0).prod (Measure.pi fun j => μ (Fin.succAbove 0 j)))
        {y : ℝ × (Fin k → ℝ) | eval (Fin.cons (y.1 : ℂ) fun i => (y.2 i : ℂ)) P = 0} = 0 := by
      rw [← Measure.prod_swap, Measure.map_apply measurable_swap hmeas, Measure.measure_prod_null (measurable_swap hmeas)]
      have hP' : finSuccEquiv ℂ k P ≠ 0 := by simpa using hP
      obtain ⟨j, hj⟩ : ∃ j, (finSuccEquiv ℂ k P).coeff j ≠ 0 := by
        by_contra hcon
        push Not at hcon
        exact hP' (Polynomial.ext hcon)
      filter_upwards [ih (fun j => μ (Fin.succAbove 0 j)) _ hj] with y hy
      have hne : Polynomial.map (eval fun i => (y i : ℂ)) (finSuccEquiv ℂ k P) ≠ 0 := by
        intro h0
        apply hy
        rw [← Polynomial.coeff_map, h0, Polynomial.coeff_zero]
      have hfin : {t : ℝ | eval (Fin.cons (t : ℂ) fun i => (y i : ℂ)) P = 0}.Finite := by
        refine Set.Finite.preimage (f := fun t : ℝ => (t : ℂ)) (s := {t : ℂ | eval (Fin.cons t fun i => (y i : ℂ)) P = 0})
          (Complex.ofReal_injective.injOn) ?_
        refine (Polynomial.map (eval fun i => (y i : ℂ)) (finSuccEquiv ℂ k P)).roots.toFinset.finite_toSet.subset ?_
        intro t ht
        rw [Set.mem_setOf_eq, eval_eq_eval_mv_eval'] at ht
        simpa [Polynomial.mem_roots hne] using ht
      exact hfin.measure_zero _
    have := hmp.measure_preimage hmeas.nullMeasurableSet
    rw [hnull] at this
    rw [ae_iff]
    convert this using 2
    ext x
    simp only [ne_eq, not_not, Set.mem_setOf_eq, Set.mem_preimage]
    have : (fun i => (x i : ℂ)) = Fin.cons (x 0 : ℂ) fun i : Fin k => (x i.succ : ℂ) := by
      funext i
      refine Fin.cases rfl (fun j => rfl) i
    rw [this]
    rfl

/-- The law of a vector of `m` independent complex normal numbers. -/
noncomputable def cnormal (m : ℕ) : Measure (Fin m → ℂ) := (normalRow (2 * m)).map cvec

instance (m : ℕ) : IsProbabilityMeasure (cnormal m) :=
  Measure.isProbabilityMeasure_map (continuous_cvec m).measurable.aemeasurable

theorem cnormal_ne_zero {m : ℕ} (P : MvPolynomial (Fin m) ℂ) (hP : P ≠ 0) : ∀ᵐ z ∂cnormal m, eval z P ≠ 0 := by
  unfold cnormal
  have hms : MeasurableSet {z : Fin m → ℂ | eval z P ≠ 0} :=
    (isClosed_singleton.preimage (MvPolynomial.continuous_eval P)).measurableSet.compl
  rw [ae_map_iff (continuous_cvec m).measurable.aemeasurable hms]
  have : NullSingletonClass (ProbabilityTheory.gaussianReal 0 1) := ProbabilityTheory.nullSingletonClass_gaussianReal one_ne_zero
  set G : MvPolynomial (Fin (2 * m)) ℂ :=
    aeval (fun i : Fin m => (X ⟨i, by omega⟩ + C Complex.I * X ⟨m + i, by omega⟩ : MvPolynomial (Fin (2 * m)) ℂ)) P with hG
  have hev : ∀ x : Fin (2 * m) → ℝ, eval (fun i => (x i : ℂ)) G = eval (cvec x) P := by
    intro x
    rw [hG, ← aeval_eq_eval, ← aeval_eq_eval, comp_aeval_apply]
    refine congrArg (fun f => aeval f P) (funext fun i => ?_)
    simp [cvec]
  have hG0 : G ≠ 0 := by
    intro h0
    apply hP
    refine MvPolynomial.funext fun z => ?_
    obtain ⟨x, rfl⟩ := cvec_surjective m z
    rw [← hev, h0, map_zero, map_zero]
  filter_upwards [ae_eval_ne_zero (2 * m) (fun _ => ProbabilityTheory.gaussianReal 0 1) G hG0] with x hx
  rwa [hev] at hx

end Cyjax
