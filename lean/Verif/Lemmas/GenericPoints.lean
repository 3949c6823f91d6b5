import Verif.Lemmas.NullSet
import Verif.Lemmas.GenericLine
import Mathlib.Topology.Compactness.SigmaCompact
import Mathlib.Topology.Algebra.Module.FiniteDimension
import Mathlib.LinearAlgebra.FiniteDimensional.Lemmas
import Mathlib.MeasureTheory.Constructions.BorelSpace.Basic

/-! # Points of intersection with random lines impose independent conditions -/

namespace Cyjax

open MeasureTheory MvPolynomial Cyjax.Spec

/-- The projection of a closed set along a σ-compact space is measurable. -/
theorem measurableSet_exists {X Y : Type*} [TopologicalSpace X] [MeasurableSpace X] [BorelSpace X] [TopologicalSpace Y]
    [SigmaCompactSpace Y] {S : Set (X × Y)} (hS : IsClosed S) : MeasurableSet {x | ∃ y, (x, y) ∈ S} := by
  have h : {x | ∃ y, (x, y) ∈ S} = ⋃ n, {x | ∃ y : compactCovering Y n, (x, (y : Y)) ∈ S} := by
    ext x
    simp only [Set.mem_setOf_eq, Set.mem_iUnion]
    constructor
    · rintro ⟨y, hy⟩
      obtain ⟨n, hn⟩ := exists_mem_compactCovering y
      exact ⟨n, ⟨y, hn⟩, hy⟩
    · rintro ⟨n, y, hy⟩
      exact ⟨y, hy⟩
  rw [h]
  refine MeasurableSet.iUnion fun n => IsClosed.measurableSet ?_
  have : CompactSpace (compactCovering Y n) := isCompact_iff_compactSpace.1 (isCompact_compactCovering Y n)
  have hc : IsClosed {z : X × compactCovering Y n | (z.1, (z.2 : Y)) ∈ S} := hS.preimage (by fun_prop)
  have := isClosedMap_fst_of_compactSpace (X := X) (Y := compactCovering Y n) _ hc
  convert this using 1
  ext x
  simp only [Set.mem_setOf_eq, Set.mem_image, Prod.exists, exists_and_right, exists_eq_right]

variable {m : ℕ}

/-- The point of the line with parameter `t`. -/
def linePoint (x : (Fin m → ℂ) × (Fin m → ℂ)) (t : ℂ) : Fin m → ℂ := fun i => x.1 i + t * x.2 i

theorem continuous_linePoint : Continuous fun y : ((Fin m → ℂ) × (Fin m → ℂ)) × ℂ => linePoint y.1 y.2 := by
  unfold linePoint
  fun_prop

/-- The law of a pair `(p, q)` before normalisation. -/
noncomputable def lineLaw (m : ℕ) : Measure ((Fin m → ℂ) × (Fin m → ℂ)) := (cnormal m).prod (cnormal m)

instance (m : ℕ) : IsProbabilityMeasure (lineLaw m) := by unfold lineLaw; infer_instance

variable {F : MvPolynomial (Fin m) ℂ} {e : ℕ} (hF : Irreducible F) (hom : F.IsHomogeneous e)

include hF hom in
/-- Almost no line meets `F = f = 0`. -/
theorem ae_avoid (f : MvPolynomial (Fin m) ℂ) (hf : ¬ F ∣ f) :
    ∀ᵐ x ∂lineLaw m, eval x.2 F ≠ 0 ∧ ∀ t, eval (linePoint x t) F = 0 → eval (linePoint x t) f ≠ 0 := by
  have hmeas : MeasurableSet ({x : (Fin m → ℂ) × (Fin m → ℂ) | eval x.2 F = 0} ∪
      {x | ∃ t, eval (linePoint x t) F = 0 ∧ eval (linePoint x t) f = 0}) := by
    refine MeasurableSet.union ?_ ?_
    · exact (isClosed_singleton.preimage ((MvPolynomial.continuous_eval F).comp continuous_snd)).measurableSet
    · refine measurableSet_exists (X := (Fin m → ℂ) × (Fin m → ℂ)) (Y := ℂ)
        (S := {y | eval (linePoint y.1 y.2) F = 0 ∧ eval (linePoint y.1 y.2) f = 0}) ?_
      exact (isClosed_singleton.preimage ((MvPolynomial.continuous_eval F).comp continuous_linePoint)).inter
        (isClosed_singleton.preimage ((MvPolynomial.continuous_eval f).comp continuous_linePoint))
  have hnull : lineLaw m ({x : (Fin m → ℂ) × (Fin m → ℂ) | eval x.2 F = 0} ∪
      {x | ∃ t, eval (linePoint x t) F = 0 ∧ eval (linePoint x t) f = 0}) = 0 := by
    unfold lineLaw
    rw [← Measure.prod_swap, Measure.map_apply measurable_swap hmeas, Measure.measure_prod_null (measurable_swap hmeas)]
    filter_upwards [cnormal_ne_zero F hF.ne_zero] with q hq
    obtain ⟨D, hD, hall⟩ := line_avoid F f hF hom hf q hq
    have := cnormal_ne_zero D hD
    rw [ae_iff] at this
    refine measure_mono_null ?_ this
    rintro p (h1 | ⟨t, h1, h2⟩)
    · exact absurd h1 hq
    · exact not_not.2 (hall p t h1 h2)
  rw [ae_iff]
  refine measure_mono_null ?_ hnull
  intro x hx
  simp only [Set.mem_setOf_eq, not_and_or, not_not, not_forall] at hx
  rcases hx with h1 | ⟨t, h1, h2⟩
  · exact Or.inl h1
  · exact Or.inr ⟨t, h1, h2⟩

include hom in
/-- A line whose direction is not on the hypersurface meets it in finitely many points. -/
theorem line_finite (x : (Fin m → ℂ) × (Fin m → ℂ)) (hx : eval x.2 F ≠ 0) : {t | eval (linePoint x t) F = 0}.Finite := by
  set P : Polynomial ℂ := aeval (fun i => Polynomial.C (x.1 i) + Polynomial.X * Polynomial.C (x.2 i)) F with hP
  set Q : Polynomial ℂ := aeval (fun i => Polynomial.X * Polynomial.C (x.1 i) + Polynomial.C (x.2 i)) F with hQ
  have hPe : ∀ t, P.eval t = eval (linePoint x t) F := by
    intro t
    have := comp_aeval_apply (R := ℂ) (fun i => Polynomial.C (x.1 i) + Polynomial.X * Polynomial.C (x.2 i))
      (Polynomial.aeval (R := ℂ) t) F
    rw [Polynomial.coe_aeval_eq_eval] at this
    rw [hP, this, ← aeval_eq_eval]
    refine congrArg (fun f => aeval f F) (funext fun i => ?_)
    simp only [linePoint, Polynomial.eval_add, Polynomial.eval_C, Polynomial.eval_mul, Polynomial.eval_X]
  have hQe : ∀ t, Q.eval t = eval (fun i => t * x.1 i + x.2 i) F := by
    intro t
    have := comp_aeval_apply (R := ℂ) (fun i => Polynomial.X * Polynomial.C (x.1 i) + Polynomial.C (x.2 i))
      (Polynomial.aeval (R := ℂ) t) F
    rw [Polynomial.coe_aeval_eq_eval] at this
    rw [hQ, this, ← aeval_eq_eval]
    refine congrArg (fun f => aeval f F) (funext fun i => ?_)
    simp only [Polynomial.eval_add, Polynomial.eval_C, Polynomial.eval_mul, Polynomial.eval_X]
  have hP0 : P ≠ 0 := by
    intro h0
    have hQ0 : Q = 0 := by
      refine Polynomial.eq_zero_of_infinite_isRoot Q ((Set.finite_singleton (0 : ℂ)).infinite_compl.mono ?_)
      intro t ht
      have ht0 : t ≠ 0 := ht
      have h1 := hPe t⁻¹
      rw [h0, Polynomial.eval_zero] at h1
      rw [Set.mem_setOf_eq, Polynomial.IsRoot.def, hQe,
        show (fun i => t * x.1 i + x.2 i) = fun i => t * linePoint x t⁻¹ i from funext fun i => by
          simp only [linePoint]; field_simp, eval_smul_homogeneous hom, ← h1, mul_zero]
    have h2 := hQe 0
    rw [hQ0, Polynomial.eval_zero] at h2
    simp only [zero_mul, zero_add] at h2
    exact hx h2.symm
  refine P.roots.toFinset.finite_toSet.subset fun t ht => ?_
  have : P.IsRoot t := by rw [Polynomial.IsRoot.def, hPe]; exact ht
  simpa [Polynomial.mem_roots hP0] using this

variable {N : ℕ} (s : Fin N → MvPolynomial (Fin m) ℂ) (hs : ∀ c : Fin N → ℂ, F ∣ ∑ a, C (c a) * s a → c = 0)

/-- The bad event: one point can be chosen on each line such that some non-zero combination with coefficients in `W`
vanishes at all of them. -/
private def bad (F : MvPolynomial (Fin m) ℂ) (s : Fin N → MvPolynomial (Fin m) ℂ) (k : ℕ) (W : Submodule ℂ (Fin N → ℂ)) :
    Set (Fin k → (Fin m → ℂ) × (Fin m → ℂ)) :=
  {x | ∃ y : (Fin k → ℂ) × (Fin N → ℂ), (∀ j, eval (linePoint (x j) (y.1 j)) F = 0) ∧ y.2 ∈ W ∧ ‖y.2‖ = 1 ∧
    ∀ j, ∑ a, y.2 a * eval (linePoint (x j) (y.1 j)) (s a) = 0}

private theorem measurable_bad (k : ℕ) (W : Submodule ℂ (Fin N → ℂ)) : MeasurableSet (bad F s k W) := by
  refine measurableSet_exists (X := Fin k → (Fin m → ℂ) × (Fin m → ℂ)) (Y := (Fin k → ℂ) × (Fin N → ℂ))
    (S := {z | (∀ j, eval (linePoint (z.1 j) (z.2.1 j)) F = 0) ∧ z.2.2 ∈ W ∧ ‖z.2.2‖ = 1 ∧
      ∀ j, ∑ a, z.2.2 a * eval (linePoint (z.1 j) (z.2.1 j)) (s a) = 0}) ?_
  have hl : ∀ j, Continuous fun z : (Fin k → (Fin m → ℂ) × (Fin m → ℂ)) × (Fin k → ℂ) × (Fin N → ℂ) =>
      linePoint (z.1 j) (z.2.1 j) := by
    intro j
    unfold linePoint
    fun_prop
  have h1 : IsClosed {z : (Fin k → (Fin m → ℂ) × (Fin m → ℂ)) × (Fin k → ℂ) × (Fin N → ℂ) |
      ∀ j, eval (linePoint (z.1 j) (z.2.1 j)) F = 0} := by
    simp only [Set.setOf_forall]
    exact isClosed_iInter fun j => isClosed_singleton.preimage ((MvPolynomial.continuous_eval F).comp (hl j))
  have h2 : IsClosed {z : (Fin k → (Fin m → ℂ) × (Fin m → ℂ)) × (Fin k → ℂ) × (Fin N → ℂ) |
      ∀ j, ∑ a, z.2.2 a * eval (linePoint (z.1 j) (z.2.1 j)) (s a) = 0} := by
    simp only [Set.setOf_forall]
    refine isClosed_iInter fun j => isClosed_singleton.preimage ?_
    refine continuous_finset_sum _ fun a _ => Continuous.mul ?_ ((MvPolynomial.continuous_eval (s a)).comp (hl j))
    exact (continuous_apply a).comp (continuous_snd.comp continuous_snd)
  refine IsClosed.inter h1 (IsClosed.inter ?_ (IsClosed.inter ?_ h2))
  · exact (Submodule.closed_of_finiteDimensional W).preimage (continuous_snd.comp continuous_snd)
  · exact isClosed_singleton.preimage (continuous_norm.comp (continuous_snd.comp continuous_snd))

/-- The combination as a linear form in the coefficients. -/
private noncomputable def form (s : Fin N → MvPolynomial (Fin m) ℂ) (Z : Fin m → ℂ) : (Fin N → ℂ) →ₗ[ℂ] ℂ where
  toFun c := ∑ a, c a * eval Z (s a)
  map_add' c d := by simp only [Pi.add_apply, add_mul, Finset.sum_add_distrib]
  map_smul' r c := by simp only [Pi.smul_apply, smul_eq_mul, mul_assoc, Finset.mul_sum, RingHom.id_apply]

include hF hom hs in
private theorem null_bad (k : ℕ) : ∀ W : Submodule ℂ (Fin N → ℂ), Module.finrank ℂ W ≤ k →
    Measure.pi (fun _ : Fin k => lineLaw m) (bad F s k W) = 0 := by
  have hbot : ∀ k, bad F s k ⊥ = ∅ := by
    intro k
    ext x
    simp only [bad, Set.mem_setOf_eq, Set.mem_empty_iff_false, iff_false]
    rintro ⟨y, -, h2, h3, -⟩
    rw [(Submodule.mem_bot ℂ).1 h2, norm_zero] at h3
    exact zero_ne_one h3
  induction k with
  | zero =>
    intro W hW
    rw [Submodule.finrank_eq_zero.1 (Nat.le_zero.1 hW), hbot, measure_empty]
  | succ k ih =>
    intro W hW
    by_cases hW0 : W = ⊥
    · rw [hW0, hbot, measure_empty]
    obtain ⟨c0, hc0, hne⟩ := Submodule.exists_mem_ne_zero_of_ne_bot hW0
    have hmp := measurePreserving_piFinSuccAbove (fun _ : Fin (k + 1) => lineLaw m) 0
    set E := MeasurableEquiv.piFinSuccAbove (fun _ : Fin (k + 1) => (Fin m → ℂ) × (Fin m → ℂ)) 0 with hE
    have h1 : bad F s (k + 1) W = E ⁻¹' (E.symm ⁻¹' bad F s (k + 1) W) := by
      ext x
      simp
    have hms : MeasurableSet (E.symm ⁻¹' bad F s (k + 1) W) := E.symm.measurable (measurable_bad s _ _)
    rw [h1, hmp.measure_preimage hms.nullMeasurableSet, Measure.measure_prod_null hms]
    have hc0' : ¬ F ∣ ∑ a, C (c0 a) * s a := fun h => hne (hs c0 h)
    filter_upwards [ae_avoid hF hom _ hc0'] with x hx
    have hfin := line_finite hom x hx.1
    refine measure_mono_null (t := ⋃ t ∈ {t | eval (linePoint x t) F = 0},
      bad F s k (W ⊓ LinearMap.ker (form s (linePoint x t)))) ?_ ?_
    · rintro r ⟨⟨t, c⟩, h2, h3, h4, h5⟩
      have e0 : E.symm (x, r) 0 = x := rfl
      have e1 : ∀ j : Fin k, E.symm (x, r) j.succ = r j := fun j => rfl
      refine Set.mem_biUnion (x := t 0) (by simpa [e0] using h2 0) ?_
      refine ⟨(fun j => t j.succ, c), fun j => by simpa [e1] using h2 j.succ, ⟨h3, ?_⟩, h4,
        fun j => by simpa [e1] using h5 j.succ⟩
      have := h5 0
      rw [e0] at this
      exact this
    · rw [measure_biUnion_null_iff hfin.countable]
      intro t ht
      refine ih _ ?_
      have hlt : Module.finrank ℂ ↥(W ⊓ LinearMap.ker (form s (linePoint x t))) < Module.finrank ℂ W := by
        refine Submodule.finrank_lt_finrank_of_lt (lt_of_le_of_ne inf_le_left fun heq => ?_)
        have : c0 ∈ W ⊓ LinearMap.ker (form s (linePoint x t)) := by rw [heq]; exact hc0
        have h2 : ∑ a, c0 a * eval (linePoint x t) (s a) = 0 := this.2
        apply hx.2 t ht
        rw [map_sum, ← h2]
        exact Finset.sum_congr rfl fun a _ => by rw [map_mul, eval_C]
      omega

include hF hom hs in
/-- Almost surely, for every choice of one point of intersection on each of `N` random lines, no non-trivial combination
of the sections vanishes at all of them. -/
theorem ae_independent (k : ℕ) (hk : N ≤ k) : ∀ᵐ x ∂Measure.pi (fun _ : Fin k => lineLaw m), ∀ t : Fin k → ℂ,
    (∀ j, eval (linePoint (x j) (t j)) F = 0) → ∀ c : Fin N → ℂ,
      (∀ j, ∑ a, c a * eval (linePoint (x j) (t j)) (s a) = 0) → c = 0 := by
  have h := null_bad hF hom s hs k ⊤ (by rw [finrank_top]; simpa using hk)
  rw [ae_iff]
  refine measure_mono_null ?_ h
  intro x hx
  simp only [Set.mem_setOf_eq, not_forall] at hx
  obtain ⟨t, h1, c, h2, h3⟩ := hx
  have hc : ‖c‖ ≠ 0 := norm_ne_zero_iff.2 h3
  refine ⟨(t, ((‖c‖⁻¹ : ℝ) : ℂ) • c), h1, Submodule.mem_top, ?_, fun j => ?_⟩
  · rw [norm_smul, Complex.norm_real, norm_inv, norm_norm, inv_mul_cancel₀ hc]
  · simp only [Pi.smul_apply, smul_eq_mul, mul_assoc]
    rw [← Finset.mul_sum, h2 j, mul_zero]

end Cyjax
