import Verif.Lemmas.Variety
import Verif.Lemmas.VarietyGrad

/-! # Properties of varieties: sampling weights and dependent coordinates (C30, C31, C35) -/

namespace Cyjax

open Cyjax.Polynomial Cyjax.Projective Cyjax.Differential Cyjax.Variety

/-! ## C30 -/

/-- C30: the weight is the same for every dependent coordinate with non-vanishing gradient. -/
theorem C30_independent {n : ℕ} (V : HomKind) (zs : Fin (n + 1) → ℂ) (params : Val) (patch : Option PatchArg)
    (g : Fin (n + 1) → ℂ) (hg : gradDefining V zs params patch = .ok g) (d d' : Fin (n + 1)) (hd : g d ≠ 0)
    (hd' : g d' ≠ 0) (vol : Option ℝ) :
    weight V zs params patch (some (d : ℕ)) vol = weight V zs params patch (some (d' : ℕ)) vol := by
  unfold weight
  simp only [hg, weightParts_eq g zs (some (d : ℕ)) d rfl vol, weightParts_eq g zs (some (d' : ℕ)) d' rfl vol]
  have h := det_induced_density g zs d d' hd hd'
  cases vol with
  | none => simp only [h]
  | some v =>
    simp only
    rw [mul_right_comm, h, mul_right_comm]

/-- C30: the automatic choice gives this value, too (if the gradient does not vanish). -/
theorem C30_automatic {n : ℕ} (V : HomKind) (zs : Fin (n + 1) → ℂ) (params : Val) (patch : Option PatchArg)
    (g : Fin (n + 1) → ℂ) (hg : gradDefining V zs params patch = .ok g) (d : Fin (n + 1)) (hd : g d ≠ 0)
    (vol : Option ℝ) :
    weight V zs params patch none vol = weight V zs params patch (some (d : ℕ)) vol := by
  obtain ⟨e, he, _, hmax⟩ := chooseDep_eq g none
  have he0 : g e ≠ 0 := by
    intro h0
    have := hmax rfl d
    rw [h0, norm_zero] at this
    exact hd (norm_le_zero_iff.1 this)
  rw [← C30_independent V zs params patch g hg e d he0 hd vol]
  unfold weight
  simp only [hg, weightParts_eq g zs (some (e : ℕ)) e rfl vol, weightParts_eq g zs none e he vol]

/-- C30: the weights are positive, for every `vol`. -/
theorem C30_positive {n : ℕ} (V : HomKind) (zs : Fin (n + 1) → ℂ) (params : Val) (patch : Option PatchArg)
    (g : Fin (n + 1) → ℂ) (hg : gradDefining V zs params patch = .ok g) (d : Fin (n + 1)) (hd : g d ≠ 0)
    (dep : Option ℤ) (hdep : dep = none ∨ dep = some ((d : ℕ) : ℤ)) (vol : Option ℝ) :
    ∃ w, weight V zs params patch dep vol = .ok w ∧ 0 < w := by
  have key : ∃ w, weight V zs params patch (some (d : ℕ)) vol = .ok w ∧ 0 < w := by
    unfold weight
    simp only [hg, weightParts_eq g zs (some (d : ℕ)) d rfl vol]
    refine ⟨_, rfl, ?_⟩
    have h1 := det_induced_pos g zs d
    have h2 : 0 < ‖g d‖ := norm_pos_iff.2 hd
    cases vol with
    | none => simp only; positivity
    | some v =>
      simp only
      have : (0 : ℝ) < n.factorial := by exact_mod_cast n.factorial_pos
      positivity
  rcases hdep with rfl | rfl
  · rw [C30_automatic V zs params patch g hg d hd vol]; exact key
  · exact key

/-- The hypotheses of C30, C31 and C35 hold e.g. for the Fermat cubic in patch 0 at `(1, 2 i)`, for every choice of the
dependent coordinate. -/
theorem fermat_example (v : Val) :
    gradDefining (.fermat 3) ![1, 2 * Complex.I] v (some (.index 0)) = .ok ![3, -12] := by
  have := grad_fermat_patch (m := 2) ![1, 2 * Complex.I] v 0
  refine Eq.trans this ?_
  congr 1
  funext i
  fin_cases i
  · simp
  · simp [mul_pow]; norm_num

example (v : Val) (vol : Option ℝ) :
    weight (.fermat 3) ![1, 2 * Complex.I] v (some (.index 0)) (some 0) vol =
      weight (.fermat 3) ![1, 2 * Complex.I] v (some (.index 0)) (some 1) vol :=
  C30_independent _ _ v _ _ (fermat_example v) 0 1 (by simp) (by simp) vol

example (v : Val) (vol : Option ℝ) :
    ∃ w, weight (.fermat 3) ![1, 2 * Complex.I] v (some (.index 0)) none vol = .ok w ∧ 0 < w :=
  C30_positive _ _ v _ _ (fermat_example v) 1 (by simp) none (Or.inl rfl) vol

/-! ## C31 -/

/-- C31 for `vol = 1` (the default) or `vol = None`: the separate pair has the ratio returned otherwise. -/
theorem C31_separate_partial {n : ℕ} (V : HomKind) (zs : Fin (n + 1) → ℂ) (params : Val) (patch : Option PatchArg)
    (g : Fin (n + 1) → ℂ) (hg : gradDefining V zs params patch = .ok g) (d : Fin (n + 1)) (hd : g d ≠ 0)
    (dep : Option ℤ) (hdep : dep = none ∨ dep = some ((d : ℕ) : ℤ)) (vol : Option ℝ)
    (hv : vol = none ∨ vol = some 1) :
    ∃ dvol da, weightSeparate V zs params patch dep vol = .ok (dvol, da) ∧ 0 < dvol ∧ 0 < da ∧
      weight V zs params patch dep vol = .ok (dvol / da) := by
  obtain ⟨e, he, he0⟩ : ∃ e : Fin (n + 1), chooseDep g dep = ((e : ℕ) : ℤ) ∧ 0 < ‖g e‖ := by
    rcases hdep with rfl | rfl
    · obtain ⟨e, he, _, hmax⟩ := chooseDep_eq g none
      exact ⟨e, he, (norm_pos_iff.2 hd).trans_le (hmax rfl d)⟩
    · exact ⟨d, rfl, norm_pos_iff.2 hd⟩
  unfold weight weightSeparate
  simp only [hg, weightParts_eq g zs dep e he vol]
  have h1 := det_induced_pos g zs e
  have : (0 : ℝ) < n.factorial := by exact_mod_cast n.factorial_pos
  rcases hv with rfl | rfl
  · exact ⟨_, _, rfl, by positivity, h1, by rw [div_div, mul_comm]⟩
  · refine ⟨_, _, rfl, by positivity, by positivity, ?_⟩
    simp only
    rw [mul_one, div_div, mul_comm (‖g e‖ ^ 2)]

/-- C31 is violated for every other `vol`: the ratio of the pair is `vol` times the returned weight. -/
theorem C31_vol_violated {n : ℕ} (V : HomKind) (zs : Fin (n + 1) → ℂ) (params : Val) (patch : Option PatchArg)
    (g : Fin (n + 1) → ℂ) (hg : gradDefining V zs params patch = .ok g) (d : Fin (n + 1)) (hd : g d ≠ 0)
    (v : ℝ) (hv : v ≠ 1) :
    ∃ dvol da w, weightSeparate V zs params patch (some (d : ℕ)) (some v) = .ok (dvol, da) ∧
      weight V zs params patch (some (d : ℕ)) (some v) = .ok w ∧ dvol / da = v * w ∧ dvol / da ≠ w := by
  obtain ⟨w, hw, hpos⟩ := C30_positive V zs params patch g hg d hd _ (Or.inr rfl) (some v)
  have key : ∃ dvol da, weightSeparate V zs params patch (some (d : ℕ)) (some v) = .ok (dvol, da) ∧
      dvol / da = v * w := by
    unfold weight at hw
    unfold weightSeparate
    simp only [hg, weightParts_eq g zs (some (d : ℕ)) d rfl (some v), Except.ok.injEq] at hw ⊢
    refine ⟨_, _, rfl, ?_⟩
    rw [← hw, mul_comm (1 / _) v, mul_div_assoc, div_div, mul_comm (‖g d‖ ^ 2)]
  obtain ⟨dvol, da, h1, h2⟩ := key
  refine ⟨dvol, da, w, h1, hw, h2, ?_⟩
  rw [h2]
  intro h
  exact hv (mul_right_cancel₀ hpos.ne' (h.trans (one_mul w).symm))

example (v : Val) : ∃ dvol da, weightSeparate (.fermat 3) ![1, 2 * Complex.I] v (some (.index 0)) none (some 1) =
    .ok (dvol, da) ∧ 0 < dvol ∧ 0 < da ∧
      weight (.fermat 3) ![1, 2 * Complex.I] v (some (.index 0)) none (some 1) = .ok (dvol / da) :=
  C31_separate_partial _ _ v _ _ (fermat_example v) 0 (by simp) none (Or.inl rfl) (some 1) (Or.inr rfl)

example (v : Val) : ∃ dvol da w,
    weightSeparate (.fermat 3) ![1, 2 * Complex.I] v (some (.index 0)) (some 1) (some 7) = .ok (dvol, da) ∧
      weight (.fermat 3) ![1, 2 * Complex.I] v (some (.index 0)) (some 1) (some 7) = .ok w ∧
      dvol / da = 7 * w ∧ dvol / da ≠ w :=
  C31_vol_violated _ _ v _ _ (fermat_example v) 1 (by simp) 7 (by norm_num)

/-! ## C35 -/

/-- C35 is violated: `best_dependent` passes patch and parameters in the wrong order, and every call raises. -/
theorem C35_violated {n : ℕ} (V : HomKind) (zs : Fin (n + 1) → ℂ) (params : List ℂ) (patch : ℕ) :
    ∃ e, bestDependent V zs params patch = .error e := by
  refine ⟨.typeError, ?_⟩
  unfold bestDependent gradDefining defining
  rfl

/-- C35 for the choices made inside `jacobian_embed`, `induced_metric` and `induced_fs` without a given
dependent coordinate: the index used maximises the modulus of the gradient. -/
theorem C35_internal_choice_partial {n : ℕ} (V : HomKind) (zs : Fin (n + 1) → ℂ) (params : Val)
    (patch : Option PatchArg) (g : Fin (n + 1) → ℂ) (hg : gradDefining V zs params patch = .ok g) :
    ∃ d : Fin (n + 1), (∀ i, ‖g i‖ ≤ ‖g d‖) ∧
      jacobianEmbedAt V zs params patch none = .ok (jacobianEmbed g (d : ℕ), ((d : ℕ) : ℤ)) ∧
      (∀ metric, inducedMetricAt V metric zs params patch none none =
        .ok (inducedMetric metric g (d : ℕ) none, ((d : ℕ) : ℤ))) ∧
      inducedFs V zs params patch none none =
        .ok (inducedMetric (fsMetricAt zs) g (d : ℕ) none, ((d : ℕ) : ℤ)) := by
  obtain ⟨d, hd, _, hmax⟩ := chooseDep_eq g none
  refine ⟨d, hmax rfl, ?_, fun metric => ?_, ?_⟩
  · unfold jacobianEmbedAt; simp only [hg]; rw [show chooseDep g none = _ from hd]
  · unfold inducedMetricAt; simp only [hg]; rw [show chooseDep g none = _ from hd]
  · unfold inducedFs inducedMetricAt; simp only [hg]; rw [show chooseDep g none = _ from hd]

/-- C35, given dependent coordinate: it is the one used, and the one reported. -/
theorem C35_given {n : ℕ} (V : HomKind) (zs : Fin (n + 1) → ℂ) (params : Val) (patch : Option PatchArg)
    (g : Fin (n + 1) → ℂ) (hg : gradDefining V zs params patch = .ok g) (d : ℤ) :
    jacobianEmbedAt V zs params patch (some d) = .ok (jacobianEmbed g d, d) ∧
      (∀ metric, inducedMetricAt V metric zs params patch none (some d) = .ok (inducedMetric metric g d none, d)) ∧
      inducedFs V zs params patch none (some d) = .ok (inducedMetric (fsMetricAt zs) g d none, d) := by
  refine ⟨?_, fun metric => ?_, ?_⟩
  · unfold jacobianEmbedAt; simp only [hg]; rfl
  · unfold inducedMetricAt; simp only [hg]; rfl
  · unfold inducedFs inducedMetricAt; simp only [hg]; rfl

/-- The smaller entry of the gradient is used if it is asked for. -/
example (v : Val) : jacobianEmbedAt (.fermat 3) ![1, 2 * Complex.I] v (some (.index 0)) (some 0) =
    .ok (jacobianEmbed ![3, -12] 0, 0) :=
  (C35_given _ _ v _ _ (fermat_example v) 0).1

/-- The larger entry of the gradient is chosen. -/
example (v : Val) : ∃ d : Fin 2, (∀ i, ‖(![3, -12] : Fin 2 → ℂ) i‖ ≤ ‖(![3, -12] : Fin 2 → ℂ) d‖) ∧
    jacobianEmbedAt (.fermat 3) ![1, 2 * Complex.I] v (some (.index 0)) none =
      .ok (jacobianEmbed ![3, -12] (d : ℕ), ((d : ℕ) : ℤ)) := by
  obtain ⟨d, h1, h2, _⟩ := C35_internal_choice_partial _ _ v _ _ (fermat_example v)
  exact ⟨d, h1, h2⟩

end Cyjax
