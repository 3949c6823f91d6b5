import Verif.Lemmas.FubiniStudy
import Verif.Props.Projective

/-! # Properties C22–C26: Fubini–Study metric and potential -/

namespace Cyjax

open Projective Differential Matrix
open scoped BigOperators ComplexOrder

/-! ## C22 -/

/-- **C22.** `fs_metric(z)` is Hermitian and positive definite. -/
theorem C22_fs_posDef {n : ℕ} (z : Fin n → ℂ) : (fsMetricAt z).PosDef := by
  have hNpos := norm2p1_pos z
  set N : ℝ := 1 + ∑ k, ‖z k‖ ^ 2 with hN
  have hentry : ∀ i j, fsMetricAt z i j =
      ((if i = j then 1 else 0) * (N : ℂ) - conjArr z i * z j) / (N : ℂ) ^ 2 := by
    intro i j; simp only [fsMetricAt, fsMetric, norm2p1_eq, hN]
  apply Matrix.PosDef.of_dotProduct_mulVec_pos
  · ext i j
    simp only [conjTranspose_apply, hentry, star_div₀, star_sub, star_mul', RCLike.star_def,
      Complex.conj_ofReal, map_pow, conjArr, Complex.conj_conj]
    rw [show (starRingEnd ℂ) (if j = i then (1 : ℂ) else 0) = if i = j then 1 else 0 by
      simp only [eq_comm]; split_ifs <;> simp]
    ring
  · intro x hx
    have e : star x ⬝ᵥ (fsMetricAt z *ᵥ x) =
        (((∑ k, ‖x k‖ ^ 2) * N - ‖∑ k, z k * x k‖ ^ 2) / N ^ 2 : ℝ) := by
      have h1 : star x ⬝ᵥ (fsMetricAt z *ᵥ x) =
          ((∑ k, star (x k) * x k) * N - star (∑ k, z k * x k) * ∑ k, z k * x k) / (N : ℂ) ^ 2 := by
        have : ∀ i j, star (x i) * (fsMetricAt z i j * x j) =
            ((if i = j then star (x i) * x j * N else 0)
              - star (z i * x i) * (z j * x j)) / (N : ℂ) ^ 2 := by
          intro i j
          rw [hentry]
          simp only [star_mul', RCLike.star_def, conjArr]
          split_ifs <;> ring
        rw [star_sum, Finset.sum_mul_sum, Finset.sum_mul]
        simp only [dotProduct, mulVec, Pi.star_apply, Finset.mul_sum, this, ← Finset.sum_div,
          Finset.sum_sub_distrib, Finset.sum_ite_eq, Finset.mem_univ, if_true]
      rw [h1]
      have h2 : ∀ w : ℂ, star w * w = ((‖w‖ ^ 2 : ℝ) : ℂ) := by
        intro w
        rw [RCLike.star_def, mul_comm, Complex.mul_conj, Complex.normSq_eq_norm_sq]
      simp only [h2]
      push_cast; ring
    rw [e]
    rw [← Complex.ofReal_zero, Complex.real_lt_real]
    apply div_pos _ (by positivity)
    -- Cauchy–Schwarz
    have hxpos : 0 < ∑ k, ‖x k‖ ^ 2 := by
      obtain ⟨i, hi⟩ := Function.ne_iff.1 hx
      apply Finset.sum_pos' (fun k _ => by positivity)
      exact ⟨i, Finset.mem_univ i, by have := norm_pos_iff.2 hi; positivity⟩
    have hcs : ‖∑ k, z k * x k‖ ^ 2 ≤ (∑ k, ‖z k‖ ^ 2) * ∑ k, ‖x k‖ ^ 2 := by
      calc ‖∑ k, z k * x k‖ ^ 2 ≤ (∑ k, ‖z k‖ * ‖x k‖) ^ 2 := by
            apply pow_le_pow_left₀ (norm_nonneg _)
            refine (norm_sum_le _ _).trans (le_of_eq ?_)
            simp
        _ ≤ _ := Finset.sum_mul_sq_le_sq_mul_sq _ _ _
    nlinarith

/-- **C22.** In particular it is Hermitian. -/
theorem C22_fs_hermitian {n : ℕ} (z : Fin n → ℂ) : (fsMetricAt z).IsHermitian :=
  (C22_fs_posDef z).isHermitian

/-- At the origin the metric is the identity. -/
example : fsMetricAt (fun _ : Fin 2 => 0) = 1 := by
  ext i j; simp [fsMetricAt, fsMetric, conjArr, Matrix.one_apply]

/-! ## C23 -/

private theorem pot_deriv {n : ℕ} (z zc : Fin n → ℂ) (i : Fin n)
    (h : 1 + ∑ k, z k * zc k ∈ Complex.slitPlane) :
    HasDerivAt (fun t => fsPotential (Function.update z i t) zc)
      (zc i / (1 + ∑ k, z k * zc k)) (z i) := by
  have e : (fun t => fsPotential (Function.update z i t) zc) =
      fun t => Complex.log (1 + (∑ k, z k * zc k + (t - z i) * zc i)) := by
    funext t; unfold fsPotential; rw [sum_update_mul]
  rw [e]
  have hl : HasDerivAt (fun t : ℂ => 1 + (∑ k, z k * zc k + (t - z i) * zc i)) (zc i) (z i) := by
    simpa using ((((hasDerivAt_id (z i)).sub_const (z i)).mul_const (zc i)).const_add
      (∑ k, z k * zc k)).const_add 1
  have := hl.clog (by simpa using h)
  simpa using this

/-- **C23, first derivative.** `d/dz_i fs_potential = zbar_i / (1 + z·zbar)`. -/
theorem C23_first_derivative {n : ℕ} (z zc : Fin n → ℂ) (i : Fin n)
    (h : 1 + ∑ k, z k * zc k ∈ Complex.slitPlane) :
    HasDerivAt (fun t => fsPotential (Function.update z i t) zc)
      (zc i / (1 + ∑ k, z k * zc k)) (z i) := pot_deriv z zc i h

/-- **C23, mixed derivative.** The `z_i`-derivative of `fs_potential`, as a function of `zbar_j`, has
derivative `fs_metric[i, j]`; `z` and `zbar` are independent. -/
theorem C23_mixed_derivative {n : ℕ} (z zc : Fin n → ℂ) (i j : Fin n)
    (h : 1 + ∑ k, z k * zc k ∈ Complex.slitPlane) :
    HasDerivAt
      (fun s => deriv (fun t => fsPotential (Function.update z i t) (Function.update zc j s)) (z i))
      (fsMetric z zc i j) (zc j) := by
  set S := ∑ k, z k * zc k with hS
  have hN0 : 1 + S ≠ 0 := Complex.slitPlane_ne_zero h
  have hlin : HasDerivAt (fun s : ℂ => 1 + (S + (s - zc j) * z j)) (z j) (zc j) := by
    simpa using ((((hasDerivAt_id (zc j)).sub_const (zc j)).mul_const (z j)).const_add S).const_add 1
  have hev : (fun s => deriv (fun t => fsPotential (Function.update z i t) (Function.update zc j s))
      (z i)) =ᶠ[nhds (zc j)]
      fun s => Function.update zc j s i / (1 + (S + (s - zc j) * z j)) := by
    have hopen : ∀ᶠ s in nhds (zc j), 1 + (S + (s - zc j) * z j) ∈ Complex.slitPlane :=
      hlin.continuousAt.eventually (Complex.isOpen_slitPlane.mem_nhds (by simpa using h))
    filter_upwards [hopen] with s hs
    have := (pot_deriv z (Function.update zc j s) i (by rw [sum_mul_update]; exact hs)).deriv
    rw [this, sum_mul_update]
  refine HasDerivAt.congr_of_eventuallyEq ?_ hev
  have hu : HasDerivAt (fun s : ℂ => Function.update zc j s i) (if i = j then 1 else 0) (zc j) := by
    by_cases hij : i = j
    · subst hij; simpa using hasDerivAt_id' (zc i)
    · simp only [Function.update_of_ne hij, if_neg hij]; exact hasDerivAt_const _ _
  have := hu.div hlin (by simpa using hN0)
  simp only [Function.update_eq_self, sub_self, zero_mul, add_zero] at this
  exact this

/-- **C23.** At every point, `fs_metric(z) = complex_hessian(fs_potential)(z, zbar)`. -/
theorem C23_fs_hessian {n : ℕ} (z : Fin n → ℂ) :
    complexHessian fsPotential z (conjArr z) = fsMetricAt z := by
  ext i j
  exact (C23_mixed_derivative z (conjArr z) i j (norm2p1_slit z)).deriv

/-! ## C24 -/

/-- **C24.** The affine potential is the real number `log(1 + |z|^2)`. -/
theorem C24_affine_real {n : ℕ} (z : Fin n → ℂ) :
    fsPotentialAt z false = ((Real.log (1 + ∑ k, ‖z k‖ ^ 2) : ℝ) : ℂ) := by
  simp only [fsPotentialAt, Bool.false_eq_true, if_false, fsPotential]
  rw [norm2p1_eq, ← Complex.ofReal_log (norm2p1_pos z).le]

/-- **C24.** The homogeneous potential is the real number `log |h|^2`. -/
theorem C24_hom_real {n : ℕ} (h : Fin n → ℂ) :
    fsPotentialAt h true = ((Real.log (∑ k, ‖h k‖ ^ 2) : ℝ) : ℂ) := by
  simp only [fsPotentialAt, if_true, fsPotentialHom]
  rw [sum_mul_conjArr, ← Complex.ofReal_log (by positivity)]

/-- **C24.** In every patch, the homogeneous potential of `affine_to_hom(z, p)` is the affine
potential of `z`. -/
theorem C24_hom_vs_affine {n : ℕ} (z : Fin n → ℂ) (p : Fin (n + 1)) :
    fsPotentialAt (affineToHom z (p : ℕ)) true = fsPotentialAt z false := by
  rw [C24_hom_real, C24_affine_real, Fin.sum_univ_succAbove _ p]
  simp

/-- **C24.** Rescaling by `c` shifts the homogeneous potential by `2 log |c|`. -/
theorem C24_scaling {n : ℕ} (h : Fin n → ℂ) (c : ℂ) (hc : c ≠ 0) (hh : h ≠ 0) :
    fsPotentialAt (fun i => c * h i) true =
      fsPotentialAt h true + ((2 * Real.log ‖c‖ : ℝ) : ℂ) := by
  have hpos : 0 < ∑ k, ‖h k‖ ^ 2 := by
    obtain ⟨i, hi⟩ := Function.ne_iff.1 hh
    apply Finset.sum_pos' (fun k _ => by positivity)
    exact ⟨i, Finset.mem_univ i, by have := norm_pos_iff.2 hi; positivity⟩
  have hcp := norm_pos_iff.2 hc
  rw [C24_hom_real, C24_hom_real]
  have : ∑ k, ‖c * h k‖ ^ 2 = ‖c‖ ^ 2 * ∑ k, ‖h k‖ ^ 2 := by
    rw [Finset.mul_sum]; apply Finset.sum_congr rfl; intro k _; rw [norm_mul]; ring
  rw [this, Real.log_mul (by positivity) hpos.ne', Real.log_pow]
  push_cast; ring

example : ∃ (h : Fin 2 → ℂ) (c : ℂ), c ≠ 0 ∧ h ≠ 0 ∧ c ≠ 1 :=
  ⟨fun _ => 1, 2, by norm_num, fun h => one_ne_zero (congrFun h 0), by norm_num⟩

/-! ## C25 -/

/-- **C25.** `det fs_metric(z) = (1 + |z|^2)^-(n+1)`. -/
theorem C25_fs_det {n : ℕ} (z : Fin n → ℂ) :
    (fsMetricAt z).det = 1 / ((1 + ∑ k, ‖z k‖ ^ 2 : ℝ) : ℂ) ^ (n + 1) := by
  have h := fsMetric_det z (conjArr z) (by
    rw [norm2p1_eq]; exact_mod_cast (norm2p1_pos z).ne')
  rw [norm2p1_eq] at h
  exact h

/-- **C25.** The metric never degenerates. -/
theorem C25_fs_nondegenerate {n : ℕ} (z : Fin n → ℂ) : (fsMetricAt z).det ≠ 0 := by
  rw [C25_fs_det]
  have : ((1 + ∑ k, ‖z k‖ ^ 2 : ℝ) : ℂ) ≠ 0 := by exact_mod_cast (norm2p1_pos z).ne'
  positivity

/-! ## C26 -/

private theorem chart_deriv {n : ℕ} (z : Fin (n + 1) → ℂ) (p q : Fin (n + 2)) (hpq : p ≠ q)
    (hq : affineToHom z (p : ℕ) q ≠ 0) (a i : Fin (n + 1)) :
    HasDerivAt (fun t => changeChart (Function.update z i t) (p : ℕ) (q : ℕ) a)
      (let E := p.insertNth (α := fun _ => ℂ) 0 (Pi.single i 1)
       let Z := affineToHom z (p : ℕ)
       (E (q.succAbove a) * Z q - Z (q.succAbove a) * E q) / Z q ^ 2) (z i) := by
  have hlin : ∀ k, HasDerivAt (fun t => affineToHom (Function.update z i t) (p : ℕ) k)
      (p.insertNth (α := fun _ => ℂ) 0 (Pi.single i 1) k) (z i) := by
    intro k
    rcases eq_or_ne k p with rfl | hk
    · simp only [affineToHom_same, Fin.insertNth_apply_same]; exact hasDerivAt_const _ _
    · obtain ⟨l, rfl⟩ := Fin.exists_succAbove_eq hk
      simp only [affineToHom_succAbove, Fin.insertNth_apply_succAbove]
      by_cases hl : l = i
      · subst hl; simpa using hasDerivAt_id' (z l)
      · simp only [Function.update_of_ne hl, Pi.single_eq_of_ne hl]; exact hasDerivAt_const _ _
  have e : (fun t => changeChart (Function.update z i t) (p : ℕ) (q : ℕ) a) = fun t =>
      affineToHom (Function.update z i t) (p : ℕ) (q.succAbove a) /
        affineToHom (Function.update z i t) (p : ℕ) q := by
    funext t; rw [C19_change_chart _ p q hpq, homToAffine_apply]
  rw [e]
  have := (hlin (q.succAbove a)).div (hlin q) (by simpa using hq)
  simp only [Function.update_eq_self] at this
  exact this

/-- **C26.** `change_chart p → q` is differentiable where the `q`-coordinate does not vanish, and the
pullback of `fs_metric` in chart `q` along its Jacobian `J[a, i] = ∂w_a/∂z_i` is `fs_metric` in chart
`p`: `g_p = Jᵀ g_q J̄`. -/
theorem C26_fs_chart {n : ℕ} (z : Fin (n + 1) → ℂ) (p q : Fin (n + 2)) (hpq : p ≠ q)
    (hq : affineToHom z (p : ℕ) q ≠ 0) :
    ∃ J : Matrix (Fin (n + 1)) (Fin (n + 1)) ℂ,
      (∀ a i, HasDerivAt (fun t => changeChart (Function.update z i t) (p : ℕ) (q : ℕ) a)
        (J a i) (z i)) ∧
      fsMetricAt z = Jᵀ * fsMetricAt (changeChart z (p : ℕ) (q : ℕ)) * J.map (starRingEnd ℂ) := by
  set Z := affineToHom z (p : ℕ) with hZ
  set E : Fin (n + 1) → Fin (n + 2) → ℂ := fun i => p.insertNth (α := fun _ => ℂ) 0 (Pi.single i 1)
    with hE
  set J : Matrix (Fin (n + 1)) (Fin (n + 1)) ℂ := fun a i =>
    (E i (q.succAbove a) * Z q - Z (q.succAbove a) * E i q) / Z q ^ 2 with hJ
  refine ⟨J, fun a i => chart_deriv z p q hpq hq a i, ?_⟩
  set w := changeChart z (p : ℕ) (q : ℕ) with hw
  have hconjE : ∀ i k, (starRingEnd ℂ) (E i k) = E i k := by
    intro i k
    rcases eq_or_ne k p with rfl | hk
    · simp [hE]
    · obtain ⟨l, rfl⟩ := Fin.exists_succAbove_eq hk
      simp only [hE, Fin.insertNth_apply_succAbove]
      by_cases hl : l = i
      · subst hl; simp
      · simp [Pi.single_eq_of_ne hl]
  have hcq : (starRingEnd ℂ) (Z q) ≠ 0 := by simpa using hq
  -- homogeneous coordinates and tangent vectors in chart `q`
  have hW : q.insertNth (α := fun _ => ℂ) 1 w = fun k => (Z q)⁻¹ * Z k := by
    rw [← affineToHom_eq, hw, C19_change_chart z p q hpq, C16_roundtrip _ _ hq]
    funext k; rw [div_eq_inv_mul]
  have hWc : q.insertNth (α := fun _ => ℂ) 1 (conjArr w) =
      fun k => ((starRingEnd ℂ) (Z q))⁻¹ * (starRingEnd ℂ) (Z k) := by
    funext k
    have := congrArg (starRingEnd ℂ) (congrFun hW k)
    simp only [map_mul, map_inv₀] at this
    rw [← this]
    rcases eq_or_ne k q with rfl | hk
    · simp
    · obtain ⟨l, rfl⟩ := Fin.exists_succAbove_eq hk
      simp [conjArr]
  have hV : ∀ i, q.insertNth (α := fun _ => ℂ) 0 (fun a => J a i) =
      fun k => (Z q)⁻¹ * E i k + (-E i q / Z q ^ 2) * Z k := by
    intro i; funext k
    rcases eq_or_ne k q with rfl | hk
    · simp only [Fin.insertNth_apply_same]; field_simp; ring
    · obtain ⟨l, rfl⟩ := Fin.exists_succAbove_eq hk
      simp only [Fin.insertNth_apply_succAbove, hJ]; field_simp; ring
  have hVc : ∀ j, q.insertNth (α := fun _ => ℂ) 0 (fun b => (starRingEnd ℂ) (J b j)) =
      fun k => ((starRingEnd ℂ) (Z q))⁻¹ * E j k +
        (-E j q / (starRingEnd ℂ) (Z q) ^ 2) * (starRingEnd ℂ) (Z k) := by
    intro j; funext k
    have := congrArg (starRingEnd ℂ) (congrFun (hV j) k)
    simp only [map_add, map_mul, map_inv₀, map_div₀, map_neg, map_pow, hconjE] at this
    rw [← this]
    rcases eq_or_ne k q with rfl | hk
    · simp
    · obtain ⟨l, rfl⟩ := Fin.exists_succAbove_eq hk
      simp
  ext i j
  have h1 : (Jᵀ * fsMetricAt w * J.map (starRingEnd ℂ)) i j =
      ∑ a, ∑ b, J a i * fsMetric w (conjArr w) a b * (starRingEnd ℂ) (J b j) := by
    simp only [mul_apply, transpose_apply, map_apply, Finset.sum_mul]
    rw [Finset.sum_comm]; rfl
  rw [h1, ← homForm_affine q w (conjArr w) (fun a => J a i) (fun b => (starRingEnd ℂ) (J b j)),
    hW, hWc, hV, hVc, homForm_invariant _ _ _ _ _ _ _ _ (inv_ne_zero hq) (inv_ne_zero hcq)]
  have hZc : (fun k => (starRingEnd ℂ) (Z k)) = p.insertNth (α := fun _ => ℂ) 1 (conjArr z) := by
    funext k
    rw [hZ, affineToHom_eq]
    rcases eq_or_ne k p with rfl | hk
    · simp
    · obtain ⟨l, rfl⟩ := Fin.exists_succAbove_eq hk
      simp [conjArr]
  rw [hZc, hZ, affineToHom_eq]
  simp only [hE]
  rw [homForm_affine p z (conjArr z) (Pi.single i 1) (Pi.single j 1)]
  simp [Pi.single_apply, fsMetricAt]

end Cyjax
