import Verif.Spec.HolomorphicVolume
import Verif.Lemmas.CurveSwap
import Verif.Lemmas.NormalDensity
import Mathlib.RingTheory.Norm.Transitivity
import Mathlib.MeasureTheory.Group.LIntegral

/-! # Coordinates on the space of homogeneous coordinates -/

namespace Cyjax

open MeasureTheory MvPolynomial Cyjax.Spec
open scoped ENNReal

variable {n : ℕ}

section Scale

theorem lintegral_comp_smul {k : ℕ} {c : ℂ} (hc : c ≠ 0) {h : (Fin k → ℂ) → ℝ≥0∞} (hh : Measurable h) :
    ∫⁻ w, h w = ‖c‖ₑ ^ (2 * k) * ∫⁻ w, h (c • w) := by
  set f : (Fin k → ℂ) →ₗ[ℝ] (Fin k → ℂ) := (c • (LinearMap.id : (Fin k → ℂ) →ₗ[ℂ] (Fin k → ℂ))).restrictScalars ℝ with hf
  have hdet : LinearMap.det f = ‖c‖ ^ (2 * k) := by
    rw [hf, LinearMap.det_restrictScalars, LinearMap.det_smul, LinearMap.det_id, Module.finrank_fintype_fun_eq_card,
      Fintype.card_fin, mul_one, map_pow, Algebra.norm_complex_apply, Complex.normSq_eq_norm_sq, ← pow_mul]
  have hn : 0 < ‖c‖ := norm_pos_iff.2 hc
  have hne : LinearMap.det f ≠ 0 := by
    rw [hdet]
    positivity
  have hmap := Measure.map_linearMap_addHaar_eq_smul_addHaar (volume : Measure (Fin k → ℂ)) hne
  have h1 : ∫⁻ w, h (c • w) = ∫⁻ w, h w ∂(volume.map f) :=
    (lintegral_map hh f.continuous_of_finiteDimensional.measurable).symm
  rw [h1, hmap, lintegral_smul_measure, hdet, abs_of_pos (by positivity), smul_eq_mul, ← mul_assoc,
    ENNReal.ofReal_inv_of_pos (by positivity), ENNReal.ofReal_pow (norm_nonneg _), ofReal_norm, ENNReal.mul_inv_cancel, one_mul]
  · simpa using fun h => absurd h hc
  · simp

theorem lintegral_comp_mul {c : ℂ} (hc : c ≠ 0) {h : ℂ → ℝ≥0∞} (hh : Measurable h) :
    ∫⁻ a, h a = ‖c‖ₑ ^ 2 * ∫⁻ a, h (a * c) := by
  have hp := (volume_preserving_funUnique (Fin 1) ℂ)
  rw [← hp.lintegral_comp hh, ← hp.lintegral_comp (f := fun a => h (a * c)) (by fun_prop)]
  refine (lintegral_comp_smul hc (hh.comp hp.measurable)).trans ?_
  simp only [Function.comp_apply, MeasurableEquiv.funUnique_apply, Pi.smul_apply, smul_eq_mul, mul_comm]
  rfl

end Scale

section Coordinates

variable (p : Fin (n + 2)) (d : Fin (n + 1))

theorem hpoint_p (x y : ℂ) (w : Fin n → ℂ) : hpoint p d x y w p = x := by simp [hpoint]

theorem hpoint_d (x y : ℂ) (w : Fin n → ℂ) : hpoint p d x y w (p.succAbove d) = y := by simp [hpoint]

theorem hpoint_w (x y : ℂ) (w : Fin n → ℂ) (k : Fin n) : hpoint p d x y w (p.succAbove (d.succAbove k)) = w k := by
  simp [hpoint]

theorem ext_hpoint {Z Z' : Fin (n + 2) → ℂ} (h1 : Z p = Z' p) (h2 : Z (p.succAbove d) = Z' (p.succAbove d))
    (h3 : ∀ k, Z (p.succAbove (d.succAbove k)) = Z' (p.succAbove (d.succAbove k))) : Z = Z' := by
  funext i
  rcases Fin.eq_self_or_eq_succAbove p i with rfl | ⟨j, rfl⟩
  · exact h1
  · rcases Fin.eq_self_or_eq_succAbove d j with rfl | ⟨k, rfl⟩
    · exact h2
    · exact h3 k

theorem continuous_hpoint : Continuous fun x : ℂ × ℂ × (Fin n → ℂ) => hpoint p d x.1 x.2.1 x.2.2 := by
  refine continuous_pi fun i => ?_
  rcases Fin.eq_self_or_eq_succAbove p i with rfl | ⟨j, rfl⟩
  · simp only [hpoint_p]
    fun_prop
  · rcases Fin.eq_self_or_eq_succAbove d j with rfl | ⟨k, rfl⟩
    · simp only [hpoint_d]
      fun_prop
    · simp only [hpoint_w]
      fun_prop

@[fun_prop]
theorem Continuous.hpoint' {X : Type*} [TopologicalSpace X] {f g : X → ℂ} {h : X → Fin n → ℂ} (hf : Continuous f)
    (hg : Continuous g) (hh : Continuous h) : Continuous fun x => hpoint p d (f x) (g x) (h x) :=
  (continuous_hpoint p d).comp (hf.prodMk (hg.prodMk hh))

@[fun_prop]
theorem Measurable.hpoint' {X : Type*} [MeasurableSpace X] {f g : X → ℂ} {h : X → Fin n → ℂ} (hf : Measurable f)
    (hg : Measurable g) (hh : Measurable h) : Measurable fun x => hpoint p d (f x) (g x) (h x) :=
  (continuous_hpoint p d).measurable.comp (hf.prodMk (hg.prodMk hh))

theorem hpoint_add (x y x' y' : ℂ) (w w' : Fin n → ℂ) :
    hpoint p d (x + x') (y + y') (w + w') = hpoint p d x y w + hpoint p d x' y' w' :=
  ext_hpoint p d (by simp [hpoint_p]) (by simp [hpoint_d]) (by simp [hpoint_w])

theorem hpoint_smul (c x y : ℂ) (w : Fin n → ℂ) : hpoint p d (c * x) (c * y) (c • w) = c • hpoint p d x y w :=
  ext_hpoint p d (by simp [hpoint_p]) (by simp [hpoint_d]) (by simp [hpoint_w])

theorem hpoint_self (q : Fin (n + 2) → ℂ) :
    hpoint p d (q p) (q (p.succAbove d)) (fun k => q (p.succAbove (d.succAbove k))) = q :=
  ext_hpoint p d (by simp [hpoint_p]) (by simp [hpoint_d]) (by simp [hpoint_w])

theorem lintegral_insert {k : ℕ} (i : Fin (k + 1)) {f : (Fin (k + 1) → ℂ) → ℝ≥0∞} (hf : Measurable f) :
    ∫⁻ Z, f Z = ∫⁻ x, ∫⁻ w, f (i.insertNth (α := fun _ => ℂ) x w) := by
  have h := (volume_preserving_piFinSuccAbove (fun _ : Fin (k + 1) => ℂ) i).symm
  rw [← h.lintegral_comp hf]
  exact lintegral_prod (fun x => f ((MeasurableEquiv.piFinSuccAbove (fun _ => ℂ) i).symm x))
    (hf.comp (MeasurableEquiv.measurable _)).aemeasurable

theorem lintegral_hpoint {f : (Fin (n + 2) → ℂ) → ℝ≥0∞} (hf : Measurable f) :
    ∫⁻ Z, f Z = ∫⁻ x, ∫⁻ y, ∫⁻ w, f (hpoint p d x y w) := by
  rw [lintegral_insert p hf]
  refine lintegral_congr fun x => ?_
  rw [lintegral_insert d]
  · rfl
  · have : Measurable fun v : Fin (n + 1) → ℂ => (p.insertNth (α := fun _ => ℂ) x v : Fin (n + 2) → ℂ) :=
      (MeasurableEquiv.piFinSuccAbove (fun _ : Fin (n + 2) => ℂ) p).symm.measurable.comp
        (measurable_prodMk_left (x := x))
    exact hf.comp this

/-- Integration along a direction `q` and over the hyperplane of vectors whose coordinate `p` vanishes. -/
theorem lintegral_along {f : (Fin (n + 2) → ℂ) → ℝ≥0∞} (hf : Measurable f) {q : Fin (n + 2) → ℂ} (hq : q p ≠ 0) :
    ∫⁻ Z, f Z = ‖q p‖ₑ ^ 2 * ∫⁻ w, ∫⁻ b, ∫⁻ s : ℂ, f (hpoint p d 0 b w + s • q) := by
  set qd := q (p.succAbove d) with hqd
  set qw : Fin n → ℂ := fun k => q (p.succAbove (d.succAbove k)) with hqw
  have hpt : ∀ (s b : ℂ) (w : Fin n → ℂ), hpoint p d (s * q p) (b + s * qd) (w + s • qw) = hpoint p d 0 b w + s • q := by
    intro s b w
    conv_rhs => rw [← hpoint_self p d q]
    rw [← hpoint_smul, ← hpoint_add, zero_add]
  have h1 : ∀ s : ℂ, ∫⁻ y, ∫⁻ w, f (hpoint p d (s * q p) y w) = ∫⁻ b, ∫⁻ w, f (hpoint p d 0 b w + s • q) := by
    intro s
    rw [← lintegral_add_right_eq_self _ (s * qd)]
    refine lintegral_congr fun b => ?_
    rw [← lintegral_add_right_eq_self _ (s • qw)]
    exact lintegral_congr fun w => by rw [hpt]
  rw [lintegral_hpoint p d hf, lintegral_comp_mul hq (h := fun x => ∫⁻ y, ∫⁻ w, f (hpoint p d x y w))]
  · simp_rw [h1]
    congr 1
    have m3 : Measurable fun x : (ℂ × ℂ) × (Fin n → ℂ) => f (hpoint p d 0 x.1.2 x.2 + x.1.1 • q) :=
      hf.comp (by fun_prop)
    rw [lintegral_lintegral_swap m3.lintegral_prod_right'.aemeasurable]
    have h2 : ∀ b : ℂ, ∫⁻ s : ℂ, ∫⁻ w, f (hpoint p d 0 b w + s • q) = ∫⁻ w, ∫⁻ s : ℂ, f (hpoint p d 0 b w + s • q) :=
      fun b => lintegral_lintegral_swap (hf.comp (by fun_prop)).aemeasurable
    simp_rw [h2]
    have m4 : Measurable fun x : (ℂ × (Fin n → ℂ)) × ℂ => f (hpoint p d 0 x.1.1 x.1.2 + x.2 • q) :=
      hf.comp (by fun_prop)
    exact lintegral_lintegral_swap m4.lintegral_prod_right'.aemeasurable
  · have m1 : Measurable fun x : (ℂ × ℂ) × (Fin n → ℂ) => f (hpoint p d x.1.1 x.1.2 x.2) := hf.comp (by fun_prop)
    exact m1.lintegral_prod_right'.lintegral_prod_right'

end Coordinates

end Cyjax
