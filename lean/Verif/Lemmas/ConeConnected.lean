import Verif.Lemmas.PolynomialGrowth
import Verif.Lemmas.LineAverage
import Verif.Lemmas.LineRoots
import Verif.Lemmas.LocalCoordinates
import Mathlib.Algebra.MvPolynomial.Nilpotent

/-! # An irreducible hypersurface is connected (for C138) -/

namespace Cyjax

open MvPolynomial Cyjax.Spec Cyjax.Donaldson Set Filter Topology

variable {m : ℕ}

/-- The points of the line through `W` with direction `v`. -/
def onLine (W v : Fin m → ℂ) (t : ℂ) : Fin m → ℂ := fun i => W i + t * v i

@[fun_prop]
theorem continuous_onLine (W v : Fin m → ℂ) : Continuous (onLine W v) := by unfold onLine; fun_prop

theorem onLine_zero (W v : Fin m → ℂ) : onLine W v 0 = W := by funext i; simp [onLine]

/-- The restriction of a polynomial to a line. -/
noncomputable def linePoly (F : MvPolynomial (Fin m) ℂ) (v W : Fin m → ℂ) : Polynomial ℂ :=
  aeval (fun i => Polynomial.C (W i) + Polynomial.C (v i) * Polynomial.X) F

theorem eval_linePoly (F : MvPolynomial (Fin m) ℂ) (v W : Fin m → ℂ) (t : ℂ) :
    (linePoly F v W).eval t = eval (onLine W v t) F := by
  unfold linePoly
  have := MvPolynomial.map_aeval (fun i => Polynomial.C (W i) + Polynomial.C (v i) * Polynomial.X) (Polynomial.evalRingHom t) F
  simp only [Polynomial.coe_evalRingHom] at this
  rw [this]
  change eval₂ _ _ F = eval₂ (RingHom.id ℂ) _ F
  congr 1
  · exact RingHom.ext fun a => by simp
  · funext i
    simp only [onLine, Polynomial.eval_add, Polynomial.eval_mul, Polynomial.eval_C, Polynomial.eval_X]
    ring

theorem hasDerivAt_onLine (F : MvPolynomial (Fin m) ℂ) (v W : Fin m → ℂ) (t : ℂ) :
    HasDerivAt (fun s => eval (onLine W v s) F) (dirD F v (onLine W v t)) t := by
  induction F using MvPolynomial.induction_on with
  | C a => simpa [dirD] using hasDerivAt_const t a
  | add p q hp hq => simpa [dirD, mul_add, Finset.sum_add_distrib] using hp.fun_add hq
  | mul_X p i hp =>
    have hx : HasDerivAt (fun s => onLine W v s i) (v i) t := by
      simpa [onLine] using (((hasDerivAt_id t).mul_const (v i)).const_add (W i))
    have := hp.fun_mul hx
    simp only [map_mul, eval_X]
    refine this.congr_deriv ?_
    simp only [dirD, Derivation.leibniz, pderiv_X, smul_eq_mul, map_add, map_mul, eval_X, mul_add, Finset.sum_add_distrib,
      Finset.sum_mul]
    rw [add_comm]
    congr 1
    · rw [Finset.sum_eq_single i (fun j _ hj => by simp [hj]) (by simp)]
      simp [mul_comm]
    · refine Finset.sum_congr rfl fun j _ => ?_
      ring

theorem derivative_linePoly (F : MvPolynomial (Fin m) ℂ) (v W : Fin m → ℂ) (t : ℂ) :
    (linePoly F v W).derivative.eval t = dirD F v (onLine W v t) := by
  have h1 := (linePoly F v W).hasDerivAt t
  simp only [eval_linePoly] at h1
  exact h1.unique (hasDerivAt_onLine F v W t)

section Line

variable {F : MvPolynomial (Fin m) ℂ} {e : ℕ} (hom : F.IsHomogeneous e) {v : Fin m → ℂ} (hv : eval v F ≠ 0)

include hom hv

theorem degree_linePoly (W : Fin m → ℂ) : (linePoly F v W).natDegree = e ∧ (linePoly F v W).leadingCoeff = eval v F := by
  obtain ⟨h1, h2⟩ := Variety.reverse_bound (linePoly F v W) (linePoly F W v) e fun r hr => by
    rw [eval_linePoly, eval_linePoly, ← eval_smul_homogeneous hom]
    congr 2
    funext i
    simp only [onLine]
    field_simp
    ring
  rw [eval_linePoly, onLine_zero] at h2
  have h3 : (linePoly F v W).natDegree = e :=
    le_antisymm h1 (Polynomial.le_natDegree_of_ne_zero (by rw [h2]; exact hv))
  exact ⟨h3, by rw [Polynomial.leadingCoeff, h3, h2]⟩

theorem linePoly_ne_zero (W : Fin m → ℂ) : linePoly F v W ≠ 0 := by
  intro h
  have := (degree_linePoly hom hv W).2
  rw [h, Polynomial.leadingCoeff_zero] at this
  exact hv this.symm

theorem mem_roots_linePoly (W : Fin m → ℂ) (t : ℂ) :
    t ∈ (linePoly F v W).roots.toFinset ↔ eval (onLine W v t) F = 0 := by
  rw [Multiset.mem_toFinset, Polynomial.mem_roots (linePoly_ne_zero hom hv W), Polynomial.IsRoot, eval_linePoly]

theorem card_roots_le (W : Fin m → ℂ) : (linePoly F v W).roots.toFinset.card ≤ e := by
  refine (Multiset.toFinset_card_le _).trans ?_
  rw [← (degree_linePoly hom hv W).1]
  exact Polynomial.card_roots' _

/-- A line that is nowhere tangent meets the hypersurface in `e` different points. -/
theorem nodup_roots {W : Fin m → ℂ} (hW : ∀ t, eval (onLine W v t) F = 0 → dirD F v (onLine W v t) ≠ 0) :
    (linePoly F v W).roots.Nodup := by
  rw [Multiset.nodup_iff_count_le_one]
  intro t
  rw [Polynomial.count_roots]
  by_contra! h
  have h0 := linePoly_ne_zero hom hv W
  obtain ⟨h1, h2⟩ := (Polynomial.one_lt_rootMultiplicity_iff_isRoot h0).1 h
  refine hW t ?_ ?_
  · rw [← eval_linePoly]; exact h1
  · rw [← derivative_linePoly]; exact h2

theorem card_roots_eq {W : Fin m → ℂ} (hW : ∀ t, eval (onLine W v t) F = 0 → dirD F v (onLine W v t) ≠ 0) :
    (linePoly F v W).roots.toFinset.card = e := by
  rw [Multiset.toFinset_card_of_nodup (nodup_roots hom hv hW), ← (IsAlgClosed.splits (linePoly F v W)).natDegree_eq_card_roots,
    (degree_linePoly hom hv W).1]

/-- The value at the base point in terms of the intersections. -/
theorem eval_eq_prod {W : Fin m → ℂ} (hW : ∀ t, eval (onLine W v t) F = 0 → dirD F v (onLine W v t) ≠ 0) :
    eval W F = eval v F * (-1) ^ e * ∏ t ∈ (linePoly F v W).roots.toFinset, t := by
  have h1 := (IsAlgClosed.splits (linePoly F v W)).eq_prod_roots
  have h2 := congrArg (Polynomial.eval 0) h1
  rw [eval_linePoly, onLine_zero] at h2
  rw [h2, (degree_linePoly hom hv W).2, Polynomial.eval_mul, Polynomial.eval_C, Polynomial.eval_multiset_prod, Multiset.map_map, mul_assoc]
  congr 1
  have h3 : (Multiset.map ((Polynomial.eval 0) ∘ fun x => Polynomial.X - Polynomial.C x) (linePoly F v W).roots) =
      (linePoly F v W).roots.map fun x => -1 * x := Multiset.map_congr rfl fun x _ => by simp
  have h4 := card_roots_eq hom hv hW
  rw [Multiset.toFinset_card_of_nodup (nodup_roots hom hv hW)] at h4
  rw [h3, Multiset.prod_map_mul, Multiset.map_const', Multiset.prod_replicate, h4, Multiset.map_id']
  congr 1
  rw [Finset.prod_eq_multiset_prod, Multiset.toFinset_val, (nodup_roots hom hv hW).dedup, Multiset.map_id']

/-- The intersections are not further away than the base point, up to a constant. -/
theorem root_bound : ∃ δ > 0, ∀ W t, eval (onLine W v t) F = 0 → ‖t‖ * δ ≤ ‖W‖ := by
  have hc : ContinuousAt (fun Z : Fin m → ℂ => eval Z F) v := (MvPolynomial.continuous_eval F).continuousAt
  obtain ⟨δ, hδ, hb⟩ := Metric.eventually_nhds_iff.1 (hc.eventually_ne hv)
  refine ⟨δ, hδ, fun W t h0 => ?_⟩
  by_contra! hlt
  have ht : t ≠ 0 := by
    rintro rfl
    rw [norm_zero, zero_mul] at hlt
    exact absurd hlt (not_lt.2 (norm_nonneg W))
  have h1 : dist (v + t⁻¹ • W) v < δ := by
    rw [dist_eq_norm, add_sub_cancel_left, norm_smul, norm_inv, inv_mul_lt_iff₀ (norm_pos_iff.2 ht)]
    exact hlt
  refine hb h1 ?_
  have h2 : onLine W v t = fun i => t * (v + t⁻¹ • W) i := by
    funext i
    simp only [onLine, Pi.add_apply, Pi.smul_apply, smul_eq_mul]
    field_simp
    ring
  rw [h2, eval_smul_homogeneous hom] at h0
  exact (mul_eq_zero.1 h0).resolve_left (pow_ne_zero _ ht)

end Line

/-- A simple intersection moves holomorphically with the line. -/
theorem branch (F : MvPolynomial (Fin m) ℂ) (W w v : Fin m → ℂ) (s₀ t₀ : ℂ) (h0 : eval (onLine (onLine W w s₀) v t₀) F = 0)
    (hd : dirD F v (onLine (onLine W w s₀) v t₀) ≠ 0) :
    ∃ τ : ℂ → ℂ, DifferentiableAt ℂ τ s₀ ∧ τ s₀ = t₀ ∧ ∀ᶠ s in 𝓝 s₀, eval (onLine (onLine W w s) v (τ s)) F = 0 := by
  let P : MvPolynomial (Fin 2) ℂ := aeval (fun i => C (W i) + X 0 * C (w i) + X 1 * C (v i)) F
  have hP : ∀ z : Fin 2 → ℂ, eval z P = eval (onLine (onLine W w (z 0)) v (z 1)) F := by
    intro z
    have := MvPolynomial.map_aeval (fun i => (C (W i) + X 0 * C (w i) + X 1 * C (v i) : MvPolynomial (Fin 2) ℂ)) (eval z) F
    rw [show P = aeval (fun i => C (W i) + X 0 * C (w i) + X 1 * C (v i)) F from rfl, this]
    change eval₂ _ _ F = eval₂ (RingHom.id ℂ) _ F
    congr 1
    · exact RingHom.ext fun a => by simp
    · funext i
      simp [onLine]
  let z₀ : Fin 2 → ℂ := ![s₀, t₀]
  have hder : eval z₀ (pderiv 1 P) = dirD F v (onLine (onLine W w s₀) v t₀) := by
    have h1 := eval_hasDerivAt P 1 z₀
    simp only [hP] at h1
    have h2 : ∀ t, onLine (onLine W w (Function.update z₀ 1 t 0)) v (Function.update z₀ 1 t 1) = onLine (onLine W w s₀) v t := by
      intro t
      simp [z₀]
    simp only [h2] at h1
    exact h1.unique (hasDerivAt_onLine F v (onLine W w s₀) t₀)
  obtain ⟨φ, h1, -, h3, -⟩ := parametrises_exists P 1 z₀ (by rw [hP]; exact h0) (by rw [hder]; exact hd)
  have hx : (fun r : Fin 1 => z₀ (Fin.succAbove 1 r)) = fun _ => s₀ := by
    funext r
    fin_cases r
    rfl
  rw [hx] at h1 h3
  have hcont : Tendsto (fun s : ℂ => fun _ : Fin 1 => s) (𝓝 s₀) (𝓝 fun _ => s₀) :=
    (continuous_pi fun _ => continuous_id).continuousAt
  refine ⟨fun s => φ (fun _ => s) 1, ?_, by simp [h3, z₀], ?_⟩
  · have h4 : DifferentiableAt ℂ (fun s : ℂ => fun _ : Fin 1 => s) s₀ := differentiableAt_pi.2 fun _ => differentiableAt_id
    exact differentiableAt_pi.1 (DifferentiableAt.comp (g := φ) s₀ h1.self_of_nhds.1 h4) 1
  · filter_upwards [hcont.eventually h1] with s hs
    have h5 := hs.2.2
    rw [hP] at h5
    have h6 : φ (fun _ => s) 0 = s := hs.2.1 0
    rw [h6] at h5
    exact h5

/-- A set that is open and closed among the points of the hypersurface. -/
def RelClopen (F : MvPolynomial (Fin m) ℂ) (S : Set (Fin m → ℂ)) : Prop :=
  ∀ Z, Z ≠ 0 → eval Z F = 0 → ∀ᶠ Z' in 𝓝 Z, eval Z' F = 0 → (Z' ∈ S ↔ Z ∈ S)

theorem RelClopen.compl {F : MvPolynomial (Fin m) ℂ} {S : Set (Fin m → ℂ)} (h : RelClopen F S) : RelClopen F Sᶜ :=
  fun Z hZ h0 => (h Z hZ h0).mono fun _ hZ' h0' => not_congr (hZ' h0')

open Classical in
/-- The intersections of a line that lie in `S`. -/
noncomputable def rootsIn (F : MvPolynomial (Fin m) ℂ) (v : Fin m → ℂ) (S : Set (Fin m → ℂ)) (W : Fin m → ℂ) : Finset ℂ :=
  (linePoly F v W).roots.toFinset.filter fun t => onLine W v t ∈ S

section Connected

variable {F : MvPolynomial (Fin m) ℂ} {e : ℕ} (hom : F.IsHomogeneous e) {v : Fin m → ℂ} (hv : eval v F ≠ 0)
  {D : MvPolynomial (Fin m) ℂ} (hD : D ≠ 0)
  (hDt : ∀ W t, eval (onLine W v t) F = 0 → dirD F v (onLine W v t) = 0 → eval W D = 0)
  {S : Set (Fin m → ℂ)} (hS : RelClopen F S)

include hom hv hDt hS in
theorem rootsIn_differentiable (he : 2 ≤ e) (W w : Fin m → ℂ) (s₀ : ℂ) (h0 : eval (onLine W w s₀) D ≠ 0) :
    DifferentiableAt ℂ (fun s => ∏ t ∈ rootsIn F v S (onLine W w s), t) s₀ := by
  classical
  set R := (linePoly F v (onLine W w s₀)).roots.toFinset with hR
  have hsimple : ∀ t, eval (onLine (onLine W w s₀) v t) F = 0 → dirD F v (onLine (onLine W w s₀) v t) ≠ 0 :=
    fun t h1 h2 => h0 (hDt _ t h1 h2)
  have hcard : R.card = e := card_roots_eq hom hv hsimple
  have hex : ∀ t ∈ R, ∃ τ : ℂ → ℂ, DifferentiableAt ℂ τ s₀ ∧ τ s₀ = t ∧
      ∀ᶠ s in 𝓝 s₀, eval (onLine (onLine W w s) v (τ s)) F = 0 := fun t ht => by
    have h1 := (mem_roots_linePoly hom hv _ t).1 ht
    exact branch F W w v s₀ t h1 (hsimple t h1)
  choose! τ hτd hτ0 hτ using hex
  have hpt : ∀ t ∈ R, Tendsto (fun s => onLine (onLine W w s) v (τ t s)) (𝓝 s₀) (𝓝 (onLine (onLine W w s₀) v t)) := by
    intro t ht
    have hc : ContinuousAt (fun s => onLine (onLine W w s) v (τ t s)) s₀ := by
      have := (hτd t ht).continuousAt
      unfold onLine
      fun_prop
    have h1 := hc.tendsto
    rwa [hτ0 t ht] at h1
  have hne : ∀ t ∈ R, onLine (onLine W w s₀) v t ≠ 0 := by
    intro t ht h1
    refine hsimple t ((mem_roots_linePoly hom hv _ t).1 ht) ?_
    rw [h1, dirD]
    refine Finset.sum_eq_zero fun i _ => ?_
    have h2 := eval_smul_homogeneous (hom.pderiv (i := i)) 0 0
    rw [zero_pow (by omega), zero_mul] at h2
    simp only [Pi.zero_apply, mul_zero] at h2
    rw [show (0 : Fin m → ℂ) = fun _ => 0 from rfl, h2, mul_zero]
  have hroot : ∀ᶠ s in 𝓝 s₀, ∀ t ∈ R, eval (onLine (onLine W w s) v (τ t s)) F = 0 :=
    (Finset.eventually_all R).2 hτ
  have hinj : ∀ᶠ s in 𝓝 s₀, ∀ t ∈ R, ∀ t' ∈ R, t ≠ t' → τ t s ≠ τ t' s := by
    refine (Finset.eventually_all R).2 fun t ht => (Finset.eventually_all R).2 fun t' ht' => ?_
    by_cases h : t = t'
    · exact Eventually.of_forall fun s hs => absurd h hs
    · have hc := (hτd t ht).continuousAt.sub (hτd t' ht').continuousAt
      have h1 : τ t s₀ - τ t' s₀ ≠ 0 := by rw [hτ0 t ht, hτ0 t' ht']; exact sub_ne_zero.2 h
      filter_upwards [hc.eventually_ne h1] with s hs _
      exact sub_ne_zero.1 hs
  have hside : ∀ᶠ s in 𝓝 s₀, ∀ t ∈ R, (onLine (onLine W w s) v (τ t s) ∈ S ↔ onLine (onLine W w s₀) v t ∈ S) := by
    refine (Finset.eventually_all R).2 fun t ht => ?_
    filter_upwards [(hpt t ht).eventually (hS _ (hne t ht) ((mem_roots_linePoly hom hv _ t).1 ht)), hτ t ht] with s h1 h2
    exact h1 h2
  have heq : (fun s => ∏ t ∈ rootsIn F v S (onLine W w s), t) =ᶠ[𝓝 s₀]
      fun s => ∏ t ∈ R.filter (fun t => onLine (onLine W w s₀) v t ∈ S), τ t s := by
    filter_upwards [hroot, hinj, hside] with s h1 h2 h3
    have hi : Set.InjOn (fun t => τ t s) R := fun t ht t' ht' h => by
      by_contra hne'
      exact h2 t ht t' ht' hne' h
    have himg : R.image (fun t => τ t s) = (linePoly F v (onLine W w s)).roots.toFinset := by
      refine Finset.eq_of_subset_of_card_le (fun x hx => ?_) ?_
      · obtain ⟨t, ht, rfl⟩ := Finset.mem_image.1 hx
        exact (mem_roots_linePoly hom hv _ _).2 (h1 t ht)
      · rw [Finset.card_image_of_injOn hi, hcard]
        exact card_roots_le hom hv _
    rw [rootsIn, ← himg, Finset.filter_image, Finset.prod_image (hi.mono fun t ht => (Finset.mem_filter.1 ht).1)]
    refine Finset.prod_congr ?_ fun _ _ => rfl
    exact Finset.filter_congr fun t ht => h3 t ht
  refine DifferentiableAt.congr_of_eventuallyEq ?_ heq
  exact DifferentiableAt.fun_finsetProd fun t ht => hτd t (Finset.mem_filter.1 ht).1

include hom hv in
theorem rootsIn_bound : ∃ δ > 0, ∀ W : Fin m → ℂ, ‖∏ t ∈ rootsIn F v S W, t‖ ≤ (1 + ‖W‖ / δ) ^ e := by
  classical
  obtain ⟨δ, hδ, hb⟩ := root_bound hom hv
  refine ⟨δ, hδ, fun W => ?_⟩
  have h1 : 1 ≤ 1 + ‖W‖ / δ := by have : 0 ≤ ‖W‖ / δ := by positivity
                                  linarith
  rw [norm_prod]
  calc ∏ t ∈ rootsIn F v S W, ‖t‖ ≤ ∏ _t ∈ rootsIn F v S W, (1 + ‖W‖ / δ) := by
        refine Finset.prod_le_prod (fun _ _ => norm_nonneg _) fun t ht => ?_
        have h2 := hb W t ((mem_roots_linePoly hom hv W t).1 (Finset.mem_filter.1 ht).1)
        have h3 : ‖t‖ ≤ ‖W‖ / δ := (le_div_iff₀ hδ).2 h2
        linarith
    _ = (1 + ‖W‖ / δ) ^ (rootsIn F v S W).card := by rw [Finset.prod_const]
    _ ≤ _ := pow_le_pow_right₀ h1 ((Finset.card_le_card (Finset.filter_subset _ _)).trans (card_roots_le hom hv W))

theorem finite_exceptional (W w : Fin m → ℂ) {s₀ : ℂ} (h0 : eval (onLine W w s₀) D ≠ 0) : {s | eval (onLine W w s) D = 0}.Finite := by
  have hne : linePoly D w W ≠ 0 := fun h => h0 (by rw [← eval_linePoly, h, Polynomial.eval_zero])
  refine (linePoly D w W).roots.toFinset.finite_toSet.subset fun s hs => ?_
  rw [Finset.mem_coe, Multiset.mem_toFinset, Polynomial.mem_roots hne, Polynomial.IsRoot, eval_linePoly]
  exact hs

include hom hv hDt hS in
/-- On a line the product of the intersections in `S` is a polynomial. -/
theorem rootsIn_line (he : 2 ≤ e) (W w : Fin m → ℂ) {s₀ : ℂ} (h0 : eval (onLine W w s₀) D ≠ 0) :
    ∃ q : Polynomial ℂ, q.natDegree ≤ e ∧
      ∀ s, eval (onLine W w s) D ≠ 0 → ∏ t ∈ rootsIn F v S (onLine W w s), t = q.eval s := by
  obtain ⟨δ, hδ, hb⟩ := rootsIn_bound (S := S) hom hv
  refine poly_of_growth_off (K := (1 + (‖W‖ + ‖w‖) / δ) ^ e) (finite_exceptional W w h0)
    (fun s hs => rootsIn_differentiable hom hv hDt hS he W w s hs) fun s => ?_
  refine (hb _).trans ?_
  rw [← mul_pow]
  refine pow_le_pow_left₀ (by positivity) ?_ _
  have h1 : ‖onLine W w s‖ ≤ (‖W‖ + ‖w‖) * (1 + ‖s‖) := by
    have h2 : onLine W w s = W + s • w := rfl
    rw [h2]
    refine (norm_add_le _ _).trans ?_
    rw [norm_smul]
    nlinarith [norm_nonneg W, norm_nonneg w, norm_nonneg s, mul_nonneg (norm_nonneg W) (norm_nonneg s)]
  have h3 : ‖onLine W w s‖ / δ ≤ (‖W‖ + ‖w‖) / δ * (1 + ‖s‖) := by
    rw [div_mul_eq_mul_div]
    gcongr
  nlinarith [norm_nonneg s]

include hom hv hD hDt hS in
/-- The product of the intersections in `S` is a polynomial of the base point. -/
theorem rootsIn_poly (he : 2 ≤ e) : ∃ P : MvPolynomial (Fin m) ℂ, ∀ W, eval W D ≠ 0 → ∏ t ∈ rootsIn F v S W, t = eval W P := by
  obtain ⟨W₀, hW₀⟩ : ∃ W, eval W D ≠ 0 := by
    by_contra! h
    exact hD (MvPolynomial.funext fun W => by rw [h, map_zero])
  have hopen : {W | eval W D ≠ 0} ∈ 𝓝 W₀ := (MvPolynomial.continuous_eval D).continuousAt.eventually_ne hW₀
  obtain ⟨r, hr, hball⟩ := Metric.mem_nhds_iff.1 hopen
  have hbox : ∀ x : Fin m → ℂ, (∀ i, x i ∈ Metric.ball (W₀ i) r) → eval x D ≠ 0 := fun x hx =>
    hball (by rw [Metric.mem_ball, dist_pi_lt_iff hr]; exact hx)
  obtain ⟨P, hP⟩ := poly_of_separate e m (fun i => Metric.ball (W₀ i) r)
    (fun i => infinite_of_mem_nhds (W₀ i) (Metric.ball_mem_nhds _ hr)) (fun W => ∏ t ∈ rootsIn F v S W, t) (by
      intro x hx i
      have hl : ∀ t, Function.update x i t = onLine (Function.update x i 0) (Pi.single i 1) t := by
        intro t
        funext j
        rcases eq_or_ne j i with rfl | hj
        · simp [onLine]
        · simp [onLine, hj]
      have hx0 : eval (onLine (Function.update x i 0) (Pi.single i 1) (x i)) D ≠ 0 := by
        rw [← hl, Function.update_eq_self]
        exact hbox x hx
      obtain ⟨q, hq, hqe⟩ := rootsIn_line hom hv hDt hS he _ _ hx0
      refine ⟨q, hq, fun t ht => ?_⟩
      rw [hl]
      refine hqe t ?_
      rw [← hl]
      refine hbox _ fun j => ?_
      rcases eq_or_ne j i with rfl | hj
      · simpa using ht
      · simpa [hj] using hx j)
  refine ⟨P, fun W hW => ?_⟩
  have h1 : onLine W₀ (W - W₀) 1 = W := by
    funext i
    simp [onLine]
  obtain ⟨q, -, hq⟩ := rootsIn_line hom hv hDt hS he W₀ (W - W₀) (s₀ := 0) (by rw [onLine_zero]; exact hW₀)
  have hev : ∀ᶠ s in 𝓝 (0 : ℂ), onLine W₀ (W - W₀) s ∈ Metric.ball W₀ r := by
    have hc := (continuous_onLine W₀ (W - W₀)).continuousAt (x := 0)
    have h2 := hc.tendsto
    rw [onLine_zero] at h2
    exact h2.eventually (Metric.ball_mem_nhds W₀ hr)
  have hpq : q = linePoly P (W - W₀) W₀ := by
    refine Polynomial.eq_of_infinite_eval_eq _ _ ((infinite_of_mem_nhds 0 hev).mono fun s hs => ?_)
    have hs' : ∀ i, onLine W₀ (W - W₀) s i ∈ Metric.ball (W₀ i) r := by
      have := hs
      rw [mem_ofPred_eq, Metric.mem_ball, dist_pi_lt_iff hr] at this
      exact this
    rw [mem_ofPred_eq, eval_linePoly, ← hP _ hs', hq s (hbox _ hs')]
  have h3 := hq 1 (by rw [h1]; exact hW)
  rw [h1, hpq, eval_linePoly, h1] at h3
  exact h3

include hom hv in
/-- If that polynomial is constant and not zero, then there are no intersections in `S`. -/
theorem rootsIn_empty {c : ℂ} (hc : c ≠ 0) (hP : ∀ W, eval W D ≠ 0 → ∏ t ∈ rootsIn F v S W, t = c) (W : Fin m → ℂ)
    (hW : eval W D ≠ 0) : rootsIn F v S W = ∅ := by
  classical
  have hshift : ∀ s, rootsIn F v S (onLine W v s) = (rootsIn F v S W).image fun t => t - s := by
    intro s
    ext t
    have hl : onLine (onLine W v s) v t = onLine W v (t + s) := by
      funext i
      simp only [onLine]
      ring
    simp only [rootsIn, Finset.mem_filter, Finset.mem_image, mem_roots_linePoly hom hv, hl]
    constructor
    · exact fun h => ⟨t + s, h, by ring⟩
    · rintro ⟨t', h, rfl⟩
      rwa [sub_add_cancel]
  have hprod : ∀ s, eval (onLine W v s) D ≠ 0 →
      (∏ t ∈ rootsIn F v S W, (Polynomial.C t - Polynomial.X)).eval s = c := by
    intro s hs
    rw [Polynomial.eval_prod, ← hP _ hs, hshift, Finset.prod_image fun a _ b _ h => by simpa using h]
    simp
  have hfin := finite_exceptional W v (s₀ := 0) (D := D) (by rw [onLine_zero]; exact hW)
  have hconst : ∏ t ∈ rootsIn F v S W, (Polynomial.C t - Polynomial.X) = Polynomial.C c :=
    Polynomial.eq_of_infinite_eval_eq _ _ (hfin.infinite_compl.mono fun s hs => by
      rw [mem_ofPred_eq, hprod s hs, Polynomial.eval_C])
  by_contra hne
  obtain ⟨t, ht⟩ := Finset.nonempty_iff_ne_empty.2 hne
  have h1 := congrArg (Polynomial.eval t) hconst
  rw [Polynomial.eval_prod, Finset.prod_eq_zero ht (by simp), Polynomial.eval_C] at h1
  exact hc h1.symm

include hom hv hD hDt hS in
/-- If there are no intersections in `S` for general lines, then the hypersurface has no points in `S`. -/
theorem no_points (hE : ∀ W, eval W D ≠ 0 → rootsIn F v S W = ∅) (Z : Fin m → ℂ) (hZ : Z ≠ 0) (h0 : eval Z F = 0) : Z ∉ S := by
  classical
  intro hZS
  obtain ⟨W₀, hW₀⟩ : ∃ W, eval W D ≠ 0 := by
    by_contra! h
    exact hD (MvPolynomial.funext fun W => by rw [h, map_zero])
  have he : e ≠ 0 := by
    rintro rfl
    have h2 := eval_smul_homogeneous hom 0 v
    rw [pow_zero, one_mul] at h2
    have h3 := eval_smul_homogeneous hom 0 Z
    rw [pow_zero, one_mul, h0] at h3
    simp only [zero_mul] at h2 h3
    exact hv (by rw [← h2, h3])
  obtain ⟨r, hr, hball⟩ := Metric.eventually_nhds_iff.1 (hS Z hZ h0)
  set ρ := r / (2 * (1 + ‖v‖)) with hρ
  have hρ0 : 0 < ρ := by positivity
  have hcl : ContinuousAt (fun s : ℂ => onLine Z (W₀ - Z) s) 0 := (continuous_onLine _ _).continuousAt
  have h1 : ∀ᶠ s in 𝓝 (0 : ℂ), dist (onLine Z (W₀ - Z) s) Z < r / 2 := by
    have := hcl.tendsto
    rw [onLine_zero] at this
    exact this.eventually (Metric.ball_mem_nhds Z (by positivity))
  have h2 : ∀ᶠ s in 𝓝 (0 : ℂ), ‖eval (onLine Z (W₀ - Z) s) F‖ < ‖eval v F‖ * ρ ^ e := by
    have hc : ContinuousAt (fun s : ℂ => ‖eval (onLine Z (W₀ - Z) s) F‖) 0 :=
      (((MvPolynomial.continuous_eval F).comp (continuous_onLine _ _)).norm).continuousAt
    refine hc.eventually_lt_const ?_
    change ‖eval (onLine Z (W₀ - Z) 0) F‖ < _
    rw [onLine_zero, h0, norm_zero]
    have := norm_pos_iff.2 hv
    positivity
  have hfin := finite_exceptional Z (W₀ - Z) (s₀ := 1) (D := D) (by
    rw [show onLine Z (W₀ - Z) 1 = W₀ from by funext i; simp [onLine]]
    exact hW₀)
  obtain ⟨s, ⟨hs1, hs2⟩, hs3⟩ := ((infinite_of_mem_nhds (0 : ℂ) (h1.and h2)).diff hfin).nonempty
  set W := onLine Z (W₀ - Z) s with hW
  have hsimple : ∀ t, eval (onLine W v t) F = 0 → dirD F v (onLine W v t) ≠ 0 := fun t h3 h4 => hs3 (hDt _ t h3 h4)
  have hsmall : ∃ t ∈ (linePoly F v W).roots.toFinset, ‖t‖ < ρ := by
    by_contra! hbig
    have h3 := eval_eq_prod hom hv hsimple
    have h4 : ρ ^ e ≤ ‖∏ t ∈ (linePoly F v W).roots.toFinset, t‖ := by
      rw [norm_prod, ← card_roots_eq hom hv hsimple, ← Finset.prod_const]
      exact Finset.prod_le_prod (fun _ _ => hρ0.le) hbig
    rw [h3, norm_mul, norm_mul, norm_pow, norm_neg, norm_one, one_pow, mul_one] at hs2
    have := norm_pos_iff.2 hv
    nlinarith
  obtain ⟨t, ht, htρ⟩ := hsmall
  have hroot := (mem_roots_linePoly hom hv W t).1 ht
  have hd : dist (onLine W v t) Z < r := by
    have h5 : dist (onLine W v t) W ≤ r / 2 := by
      have h6 : onLine W v t = W + t • v := rfl
      rw [h6, dist_eq_norm, add_sub_cancel_left, norm_smul]
      calc ‖t‖ * ‖v‖ ≤ ρ * (1 + ‖v‖) := by
            refine mul_le_mul htρ.le (by linarith) (norm_nonneg _) hρ0.le
        _ = r / 2 := by
          have : 1 + ‖v‖ ≠ 0 := by positivity
          rw [hρ]
          field_simp
    linarith [dist_triangle (onLine W v t) W Z]
  have hmem : t ∈ rootsIn F v S W := Finset.mem_filter.2 ⟨ht, ((hball hd) hroot).2 hZS⟩
  rw [hE W hs3] at hmem
  simp at hmem

end Connected

/-- The points of an irreducible hypersurface form a connected set. -/
theorem cone_connected {F : MvPolynomial (Fin m) ℂ} {e : ℕ} (hF : Irreducible F) (hom : F.IsHomogeneous e) (he : 2 ≤ e) :
    IsPreconnected {Z : Fin m → ℂ | Z ≠ 0 ∧ eval Z F = 0} := by
  classical
  rw [isPreconnected_iff_subset_of_disjoint]
  intro u u' hu hu' hcov hdis
  have hS : RelClopen F u := by
    intro Z hZ h0
    by_cases hZu : Z ∈ u
    · filter_upwards [hu.mem_nhds hZu] with Z' hZ' _
      exact iff_of_true hZ' hZu
    · have hZu' : Z ∈ u' := (hcov ⟨hZ, h0⟩).resolve_left hZu
      filter_upwards [hu'.mem_nhds hZu', isOpen_ne.mem_nhds hZ] with Z' hZ' hne h0'
      refine iff_of_false (fun h => ?_) hZu
      have : Z' ∈ ({Z | Z ≠ 0 ∧ eval Z F = 0} ∩ (u ∩ u') : Set (Fin m → ℂ)) := ⟨⟨hne, h0'⟩, h, hZ'⟩
      rw [hdis] at this
      exact this
  obtain ⟨v, hv⟩ : ∃ v, eval v F ≠ 0 := by
    by_contra! h
    exact hF.ne_zero (MvPolynomial.funext fun W => by rw [h, map_zero])
  obtain ⟨D, hD, hDt⟩ := line_avoid F (dirPoly F v) hF hom
    (not_dvd_of_lower hom (by omega) hF.ne_zero (dirPoly_homogeneous hom v) (dirPoly_ne_zero hom (by omega) hv)) v hv
  have hDt' : ∀ W t, eval (onLine W v t) F = 0 → dirD F v (onLine W v t) = 0 → eval W D = 0 := fun W t h1 h2 =>
    hDt W t h1 (by rw [eval_dirPoly]; exact h2)
  obtain ⟨P, hP⟩ := rootsIn_poly hom hv hD hDt' hS he
  obtain ⟨Q, hQ⟩ := rootsIn_poly hom hv hD hDt' hS.compl he
  have hfac : F = C (eval v F * (-1) ^ e) * P * Q := by
    have h1 : D * (F - C (eval v F * (-1) ^ e) * P * Q) = 0 := MvPolynomial.funext fun W => by
      rw [map_mul, map_zero, mul_eq_zero, or_iff_not_imp_left]
      intro hW
      have h2 := eval_eq_prod hom hv (W := W) fun t h3 h4 => hW (hDt' W t h3 h4)
      rw [map_sub, h2, map_mul, map_mul, eval_C, ← hP W hW, ← hQ W hW, mul_assoc (eval v F * (-1) ^ e), sub_eq_zero]
      congr 1
      rw [rootsIn, rootsIn]
      convert (Finset.prod_filter_mul_prod_filter_not _ (fun t => onLine W v t ∈ u) _).symm using 3
      ext t
      simp
    rcases mul_eq_zero.1 h1 with h2 | h2
    · exact absurd h2 hD
    · exact sub_eq_zero.1 h2
  have hpart : ∀ {S : Set (Fin m → ℂ)} {P : MvPolynomial (Fin m) ℂ}, RelClopen F S →
      (∀ W, eval W D ≠ 0 → ∏ t ∈ rootsIn F v S W, t = eval W P) → IsUnit P → ∀ Z, Z ≠ 0 → eval Z F = 0 → Z ∉ S := by
    intro S P hS hP hu
    obtain ⟨c, hc, rfl⟩ := isUnit_iff_eq_C_of_isReduced.1 hu
    refine no_points hom hv hD hDt' hS fun W hW => ?_
    exact rootsIn_empty hom hv hc.ne_zero (fun W hW => by rw [hP W hW, eval_C]) W hW
  rcases hF.isUnit_or_isUnit hfac with h1 | h1
  · right
    intro Z hZ
    exact (hcov hZ).resolve_left (hpart hS hP (isUnit_of_mul_isUnit_right h1) Z hZ.1 hZ.2)
  · left
    intro Z hZ
    exact not_not.1 (hpart hS.compl hQ h1 Z hZ.1 hZ.2)

end Cyjax
