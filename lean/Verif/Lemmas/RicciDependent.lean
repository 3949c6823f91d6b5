import Verif.Lemmas.Ricci
import Verif.Props.Differential
import Verif.Props.Curvature

/-! # Dependence of the curvature on the dependent coordinate (for C100) -/

namespace Cyjax.Differential

open Matrix
open scoped BigOperators

variable {K : Type*} [Field K] {n : ℕ}

/-- The tangent frame of one dependent coordinate in terms of that of another. -/
def frameChange (G : Fin (n + 1) → K) (d d' : Fin (n + 1)) : Matrix (Fin n) (Fin n) K :=
  Matrix.of fun r s => jacobianEmbed G (d : ℕ) r (d'.succAbove s)

theorem jacobianEmbed_change (G : Fin (n + 1) → K) (d d' : Fin (n + 1)) (hd : G d ≠ 0) (hd' : G d' ≠ 0) :
    jacobianEmbed G (d : ℕ) = frameChange G d d' * jacobianEmbed G (d' : ℕ) := by
  ext r c
  rw [mul_apply]
  rcases eq_or_ne c d' with rfl | hc
  · have h := C27_tangent G d hd r
    rw [Fin.sum_univ_succAbove _ c] at h
    simp only [frameChange, of_apply, jacobianEmbed_dep (d := c)]
    have h2 : ∑ s, jacobianEmbed G (d : ℕ) r (c.succAbove s) * (-G (c.succAbove s) / G c) =
        -(∑ s, jacobianEmbed G (d : ℕ) r (c.succAbove s) * G (c.succAbove s)) / G c := by
      rw [← Finset.sum_neg_distrib, Finset.sum_div]
      exact Finset.sum_congr rfl fun s _ => by ring
    rw [h2, eq_neg_of_add_eq_zero_right h]
    field_simp
  · obtain ⟨l, rfl⟩ := Fin.exists_succAbove_eq hc
    simp [frameChange]

end Cyjax.Differential

namespace Cyjax.Donaldson

open Cyjax.Spec Cyjax.Differential MvPolynomial
open scoped ComplexConjugate

variable {n N : ℕ}

/-- `log |f|²` of a holomorphic function. -/
theorem logNorm_wirt {f : ℂ → ℂ} {f' w : ℂ} (h : HasDerivAt f f' w) (h0 : f w ≠ 0) :
    ∃ b, HasWirtAt (fun t => ((Real.log (‖f t‖ ^ 2) : ℝ) : ℂ)) (f' / f w) b w := by
  have h1 := (hasWirtAt_of_hasDerivAt h).mul (hasWirtAt_of_hasDerivAt h).conj
  have e : ∀ t, f t * conj (f t) = ((‖f t‖ ^ 2 : ℝ) : ℂ) := fun t => by rw [Complex.mul_conj', Complex.ofReal_pow]
  have h2 := h1.log (by
    rw [e]
    left
    rw [Complex.ofReal_re]
    positivity)
  refine ⟨_, (h2.congr_fun (Filter.Eventually.of_forall fun t => ?_)).congr_coeff ?_ rfl⟩
  · change _ = Complex.log (f t * conj (f t))
    rw [e, Complex.ofReal_log (by positivity)]
  · have : conj (f w) ≠ 0 := (map_ne_zero _).2 h0
    simp
    field_simp

/-- `log |det g_loc|` for two dependent coordinates. -/
theorem logDet_change (H : Matrix (Fin N) (Fin N) ℂ) (degree : ℕ) (J : Jet N (n + 1)) (P : MvPolynomial (Fin (n + 1)) ℂ)
    (d d' : Fin (n + 1)) (z : Fin (n + 1) → ℂ) (hd : eval z (pderiv d P) ≠ 0) (hd' : eval z (pderiv d' P) ≠ 0)
    (hdet : (Graph.gLoc (.full H) degree J (polyEmb P d z)).det ≠ 0) :
    logDet H degree J (polyEmb P d z) + ((Real.log (‖eval z (pderiv d P)‖ ^ 2) : ℝ) : ℂ) =
      logDet H degree J (polyEmb P d' z) + ((Real.log (‖eval z (pderiv d' P)‖ ^ 2) : ℝ) : ℂ) := by
  have h := C29_volume_density (Graph.gProj (.full H) J degree) (fun i => eval z (pderiv i P)) d d' hd hd'
  have e1 : (Graph.gLoc (.full H) degree J (polyEmb P d z)) =
      inducedMetric (Graph.gProj (.full H) J degree) (fun i => eval z (pderiv i P)) (d : ℕ) none := C67_pullback _ _ _ _
  have e2 : (Graph.gLoc (.full H) degree J (polyEmb P d' z)) =
      inducedMetric (Graph.gProj (.full H) J degree) (fun i => eval z (pderiv i P)) (d' : ℕ) none := C67_pullback _ _ _ _
  rw [← e1, ← e2] at h
  have hnd : (‖eval z (pderiv d P)‖ ^ 2 : ℝ) ≠ 0 := pow_ne_zero 2 (norm_ne_zero_iff.2 hd)
  have hnd' : (‖eval z (pderiv d' P)‖ ^ 2 : ℝ) ≠ 0 := pow_ne_zero 2 (norm_ne_zero_iff.2 hd')
  have h2 := congrArg (fun x : ℂ => ‖x‖) h
  simp only [norm_mul, norm_pow, Complex.norm_real, Real.norm_eq_abs, abs_norm] at h2
  have hdet' : ‖(Graph.gLoc (.full H) degree J (polyEmb P d' z)).det‖ ≠ 0 := by
    intro h0
    rw [h0, zero_mul] at h2
    exact (mul_ne_zero (norm_ne_zero_iff.2 hdet) hnd) h2
  unfold logDet
  rw [← Complex.ofReal_add, ← Complex.ofReal_add, ← Real.log_mul (norm_ne_zero_iff.2 hdet) hnd,
    ← Real.log_mul hdet' hnd', h2]

variable {H : Matrix (Fin N) (Fin N) ℂ} {S : (Fin (n + 1) → ℂ) → Jet N (n + 1)}

/-- The values of `ricci_proj` for a matrix. -/
noncomputable def ricciProjV (H : Matrix (Fin N) (Fin N) ℂ) (degree : ℕ) (J : Jet N (n + 1)) (e : Graph.Emb n) :
    Matrix (Fin (n + 1)) (Fin (n + 1)) ℂ :=
  ricciProj (gLocHv H degree J e) (gLocA (gLocHv H degree J e)) (gLocHAv H degree J e)
    (Graph.gLocInv (.full H) degree J e)

/-- Regularity persists near `z`. -/
theorem regular_near' (hS : IsJet S) (hH : H.IsHermitian) (degree : ℕ) (P : MvPolynomial (Fin (n + 1)) ℂ)
    (z : Fin (n + 1) → ℂ) (hz : Graph.psi (.full H) (S z) ≠ 0) (c b : Fin (n + 1)) (hc : eval z (pderiv c P) ≠ 0)
    (hdc : (Graph.gLoc (.full H) degree (S z) (polyEmb P c z)).det ≠ 0) :
    ∀ᶠ t in nhds (z b), Graph.psi (.full H) (S (Function.update z b t)) ≠ 0 ∧
      eval (Function.update z b t) (pderiv c P) ≠ 0 ∧
      (Graph.gLoc (.full H) degree (S (Function.update z b t)) (polyEmb P c (Function.update z b t))).det ≠ 0 := by
  have h1 := update_mem_of_continuousAt (P := fun w => Graph.psi (.full H) (S w)) (U := {x | x ≠ 0}) isOpen_ne
    (psi_wirt hS hH z b).continuousAt hz
  have h2 := update_mem_of_continuousAt (P := fun w => eval w (pderiv c P)) (U := {x | x ≠ 0}) isOpen_ne
    (eval_hasDerivAt (pderiv c P) b z).continuousAt hc
  have hcont : ContinuousAt (fun t => (Graph.gLoc (.full H) degree (S (Function.update z b t))
      (polyEmb P c (Function.update z b t))).det) (z b) :=
    (HasWirtAt.det (M := fun r s t =>
      Graph.gLoc (.full H) degree (S (Function.update z b t)) (polyEmb P c (Function.update z b t)) r s)
      (fun r s => gLoc_wirt hS (polyEmb_isEmb P c) hH degree z hz hc b r s)).continuousAt
  have h3 := update_mem_of_continuousAt (P := fun w => (Graph.gLoc (.full H) degree (S w) (polyEmb P c w)).det)
    (U := {x | x ≠ 0}) isOpen_ne hcont hdc
  filter_upwards [h1, h2, h3] with t ht1 ht2 ht3
  exact ⟨ht1, ht2, ht3⟩

theorem ricciProj_change (hS : IsJet S) (hH : H.IsHermitian) (degree : ℕ) (P : MvPolynomial (Fin (n + 1)) ℂ)
    (d d' : Fin (n + 1)) (z : Fin (n + 1) → ℂ) (hz : Graph.psi (.full H) (S z) ≠ 0)
    (hd : eval z (pderiv d P) ≠ 0) (hd' : eval z (pderiv d' P) ≠ 0)
    (hdet : (Graph.gLoc (.full H) degree (S z) (polyEmb P d z)).det ≠ 0)
    (hdet' : (Graph.gLoc (.full H) degree (S z) (polyEmb P d' z)).det ≠ 0) :
    ricciProjV H degree (S z) (polyEmb P d z) = ricciProjV H degree (S z) (polyEmb P d' z) := by
  -- logarithmic derivative of `log |det g_loc|`
  set A : Fin (n + 1) → Fin (n + 1) → (Fin (n + 1) → ℂ) → ℂ := fun c a v =>
    ∑ i, ∑ j, (Graph.gLocInv (.full H) degree (S v) (polyEmb P c v)) j i * gLocHv H degree (S v) (polyEmb P c v) a i j with hA
  have first : ∀ (v : Fin (n + 1) → ℂ), Graph.psi (.full H) (S v) ≠ 0 → eval v (pderiv d P) ≠ 0 →
      eval v (pderiv d' P) ≠ 0 → (Graph.gLoc (.full H) degree (S v) (polyEmb P d v)).det ≠ 0 →
      (Graph.gLoc (.full H) degree (S v) (polyEmb P d' v)).det ≠ 0 →
      ∀ a, A d a v + eval v (pderiv a (pderiv d P)) / eval v (pderiv d P) =
        A d' a v + eval v (pderiv a (pderiv d' P)) / eval v (pderiv d' P) := by
    intro v hv hvd hvd' hvdet hvdet' a
    obtain ⟨b1, h1⟩ := logDet_wirt hS (polyEmb_isEmb P d) hH degree v hv hvd hvdet a
    obtain ⟨b2, h2⟩ := logDet_wirt hS (polyEmb_isEmb P d') hH degree v hv hvd' hvdet' a
    obtain ⟨b3, h3⟩ := logNorm_wirt (f := fun t => eval (Function.update v a t) (pderiv d P))
      (eval_hasDerivAt (pderiv d P) a v) (by simpa only [Function.update_eq_self] using hvd)
    obtain ⟨b4, h4⟩ := logNorm_wirt (f := fun t => eval (Function.update v a t) (pderiv d' P))
      (eval_hasDerivAt (pderiv d' P) a v) (by simpa only [Function.update_eq_self] using hvd')
    simp only [Function.update_eq_self] at h3 h4
    refine ((h1.add h3).unique ((h2.add h4).congr_fun ?_)).1
    filter_upwards [regular_near' hS hH degree P v hv d a hvd hvdet,
      regular_near' hS hH degree P v hv d' a hvd' hvdet'] with t ht ht'
    exact logDet_change H degree _ P d d' _ ht.2.1 ht'.2.1 ht.2.2
  ext a b
  obtain ⟨e, he⟩ := ricci_wirt hS (polyEmb_isEmb P d) hH degree z hz hd hdet a b
  obtain ⟨e', he'⟩ := ricci_wirt hS (polyEmb_isEmb P d') hH degree z hz hd' hdet' a b
  have hq : ∀ c, eval z (pderiv c P) ≠ 0 → ∃ q, HasWirtAt (fun t => eval (Function.update z b t) (pderiv a (pderiv c P)) /
      eval (Function.update z b t) (pderiv c P)) q 0 (z b) := fun c hc =>
    ⟨_, hasWirtAt_of_hasDerivAt ((eval_hasDerivAt (pderiv a (pderiv c P)) b z).div
      (eval_hasDerivAt (pderiv c P) b z) (by rwa [Function.update_eq_self]))⟩
  obtain ⟨q, hq1⟩ := hq d hd
  obtain ⟨q', hq1'⟩ := hq d' hd'
  have hu := ((he.add hq1).unique ((he'.add hq1').congr_fun (by
    filter_upwards [regular_near' hS hH degree P z hz d b hd hdet,
      regular_near' hS hH degree P z hz d' b hd' hdet'] with t ht ht'
    exact first (Function.update z b t) ht.1 ht.2.1 ht'.2.1 ht.2.2 ht'.2.2 a))).2
  rw [add_zero, add_zero] at hu
  exact neg_injective hu

end Cyjax.Donaldson
