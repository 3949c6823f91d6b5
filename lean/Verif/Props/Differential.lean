import Verif.Lemmas.Differential
import Mathlib.Analysis.Calculus.FDeriv.Comp
import Mathlib.Analysis.Calculus.Deriv.Comp
import Mathlib.Analysis.Calculus.Deriv.Pi
import Mathlib.Analysis.Calculus.Deriv.Add
import Mathlib.Analysis.Calculus.Deriv.Mul
import Mathlib.Analysis.Calculus.Deriv.Prod
import Mathlib.Analysis.Complex.Order
import Mathlib.Data.Fin.VecNotation

/-! # Properties C27–C29: embedding Jacobian and induced metric -/

namespace Cyjax

open Differential Matrix
open scoped BigOperators ComplexOrder

/-! ## C27 -/

/-- **C27.** The columns other than `d` form the identity. -/
theorem C27_identity_columns {K : Type*} [Field K] {n : ℕ} (G : Fin (n + 1) → K) (d : Fin (n + 1)) :
    (jacobianEmbed G (d : ℕ)).submatrix id d.succAbove = 1 := by
  ext k l; simp [one_apply]

/-- **C27.** Column `d` is `-G_j / G_d`. -/
theorem C27_dependent_column {K : Type*} [Field K] {n : ℕ} (G : Fin (n + 1) → K) (d : Fin (n + 1))
    (k : Fin n) : jacobianEmbed G (d : ℕ) k d = -G (d.succAbove k) / G d := by simp

/-- **C27.** Every row is tangent: it is annihilated by the gradient. -/
theorem C27_tangent {K : Type*} [Field K] {n : ℕ} (G : Fin (n + 1) → K) (d : Fin (n + 1))
    (hd : G d ≠ 0) (k : Fin n) : ∑ j, jacobianEmbed G (d : ℕ) k j * G j = 0 := by
  rw [Fin.sum_univ_succAbove _ d]
  simp only [jacobianEmbed_dep, jacobianEmbed_indep, ite_mul, one_mul, zero_mul,
    Finset.sum_ite_eq, Finset.mem_univ, if_true]
  field_simp; ring

/-- **C27, meaning.** Let `P` be differentiable at `z` with partial derivatives `G` and `G_d ≠ 0`. Any
differentiable curve inside `P = 0` through `z` along which the coordinates other than `d` follow the
coordinate direction `k` has velocity `jacobian_embed(G, d)[k]`. -/
theorem C27_implicit_derivative {n : ℕ} (P : (Fin (n + 1) → ℂ) → ℂ) (z : Fin (n + 1) → ℂ)
    (L : (Fin (n + 1) → ℂ) →L[ℂ] ℂ) (hP : HasFDerivAt P L z) (d : Fin (n + 1))
    (hd : L (Pi.single d 1) ≠ 0) (k : Fin n) (c : ℂ → Fin (n + 1) → ℂ) (c' : Fin (n + 1) → ℂ) (t₀ : ℂ)
    (hc0 : c t₀ = z) (hc : HasDerivAt c c' t₀)
    (hindep : ∀ᶠ t in nhds t₀, ∀ l, c t (d.succAbove l) = z (d.succAbove l) + if k = l then t - t₀ else 0)
    (hzero : ∀ᶠ t in nhds t₀, P (c t) = 0) :
    c' = jacobianEmbed (fun j => L (Pi.single j 1)) (d : ℕ) k := by
  set G : Fin (n + 1) → ℂ := fun j => L (Pi.single j 1) with hG
  have hLc : L c' = ∑ j, c' j * G j := by
    conv_lhs => rw [← Finset.univ_sum_single c']
    rw [map_sum]
    apply Finset.sum_congr rfl; intro j _
    rw [hG]
    have : (Pi.single j (c' j) : Fin (n + 1) → ℂ) = c' j • Pi.single j 1 := by
      rw [← Pi.single_smul]; simp
    rw [this, map_smul]; rfl
  have h1 : ∀ l, c' (d.succAbove l) = if k = l then 1 else 0 := by
    intro l
    have ha := (hasDerivAt_pi.1 hc) (d.succAbove l)
    have hb : HasDerivAt (fun t => c t (d.succAbove l)) (if k = l then 1 else 0) t₀ := by
      have : HasDerivAt (fun t : ℂ => z (d.succAbove l) + if k = l then t - t₀ else 0)
          (if k = l then 1 else 0) t₀ := by
        split_ifs
        · simpa using ((hasDerivAt_id' t₀).sub_const t₀).const_add (z (d.succAbove l))
        · exact hasDerivAt_const _ _
      refine this.congr_of_eventuallyEq ?_
      filter_upwards [hindep] with t ht using ht l
    exact ha.unique hb
  have h2 : L c' = 0 := by
    have ha : HasDerivAt (fun t => P (c t)) (L c') t₀ := by
      subst hc0; exact hP.comp_hasDerivAt t₀ hc
    have hb : HasDerivAt (fun t => P (c t)) 0 t₀ :=
      (hasDerivAt_const t₀ (0 : ℂ)).congr_of_eventuallyEq hzero
    exact ha.unique hb
  rw [hLc, Fin.sum_univ_succAbove _ d] at h2
  simp only [h1, ite_mul, one_mul, zero_mul, Finset.sum_ite_eq, Finset.mem_univ, if_true] at h2
  have hGd : G d ≠ 0 := hd
  funext j
  rcases eq_or_ne j d with rfl | hj
  · rw [jacobianEmbed_dep, eq_div_iff hGd]; linear_combination h2
  · obtain ⟨l, rfl⟩ := Fin.exists_succAbove_eq hj
    rw [jacobianEmbed_indep, h1]

/-- The hypotheses of the implicit derivative hold for `P(z) = z₀ + 2 z₁` and the line
`t ↦ (-2t, t)`. -/
example : ∃ (P : (Fin 2 → ℂ) → ℂ) (L : (Fin 2 → ℂ) →L[ℂ] ℂ) (c : ℂ → Fin 2 → ℂ),
    HasFDerivAt P L 0 ∧ L (Pi.single 0 1) ≠ 0 ∧ c 0 = 0 ∧
    HasDerivAt c (fun j => if j = 0 then -2 else 1) 0 ∧ (∀ t, P (c t) = 0) ∧
    ∀ t l, c t ((0 : Fin 2).succAbove l) =
      (0 : Fin 2 → ℂ) ((0 : Fin 2).succAbove l) + if (0 : Fin 1) = l then t - 0 else 0 := by
  let L : (Fin 2 → ℂ) →L[ℂ] ℂ := ContinuousLinearMap.proj 0 + (2 : ℂ) • ContinuousLinearMap.proj 1
  refine ⟨L, L, fun t j => t * if j = 0 then -2 else 1, L.hasFDerivAt, ?_, ?_, ?_, ?_, ?_⟩
  · simp [L]
  · funext j; simp
  · rw [hasDerivAt_pi]; intro j
    simpa using (hasDerivAt_id' (0 : ℂ)).mul_const (if j = 0 then (-2 : ℂ) else 1)
  · intro t; simp [L]; ring
  · intro t l
    have : l = 0 := Subsingleton.elim _ _
    subst this; simp

/-! ## C28 -/

/-- **C28.** `induced_metric(g, G, d) = J g J†` with `J = jacobian_embed(G, d)`. -/
theorem C28_pullback {n : ℕ} (g : Matrix (Fin (n + 1)) (Fin (n + 1)) ℂ) (G : Fin (n + 1) → ℂ)
    (d : ℤ) :
    inducedMetric g G d none = jacobianEmbed G d * g * (jacobianEmbed G d)ᴴ := by
  unfold inducedMetric
  exact pullback_eq _ _ _

/-- **C28, entries**: the documented contraction
`Σ_{jl} (∂z_j/∂x_i) conj(∂z_l/∂x_k) g_{jl}`. -/
theorem C28_entries {n : ℕ} (g : Matrix (Fin (n + 1)) (Fin (n + 1)) ℂ) (G : Fin (n + 1) → ℂ)
    (d : ℤ) (i k : Fin n) :
    inducedMetric g G d none i k =
      ∑ j, ∑ l, jacobianEmbed G d i j * star (jacobianEmbed G d k l) * g j l := rfl

/-- **C28.** Passing the conjugate gradient explicitly gives the same metric. -/
theorem C28_conjugate_gradient {n : ℕ} (g : Matrix (Fin (n + 1)) (Fin (n + 1)) ℂ)
    (G : Fin (n + 1) → ℂ) (d : Fin (n + 1)) :
    inducedMetric g G (d : ℕ) (some fun i => star (G i)) = inducedMetric g G (d : ℕ) none := by
  unfold inducedMetric
  simp only
  congr 1
  ext k j
  rcases eq_or_ne j d with rfl | hj
  · simp
  · obtain ⟨l, rfl⟩ := Fin.exists_succAbove_eq hj
    simp only [jacobianEmbed_indep]; split_ifs <;> simp

/-- **C28.** The pullback of a Hermitian metric is Hermitian. -/
theorem C28_hermitian {n : ℕ} (g : Matrix (Fin (n + 1)) (Fin (n + 1)) ℂ) (hg : g.IsHermitian)
    (G : Fin (n + 1) → ℂ) (d : ℤ) : (inducedMetric g G d none).IsHermitian := by
  rw [C28_pullback]
  exact isHermitian_mul_mul_conjTranspose _ hg

/-- **C28.** The pullback of a positive definite metric is positive definite. -/
theorem C28_posDef {n : ℕ} (g : Matrix (Fin (n + 1)) (Fin (n + 1)) ℂ) (hg : g.PosDef)
    (G : Fin (n + 1) → ℂ) (d : Fin (n + 1)) : (inducedMetric g G (d : ℕ) none).PosDef := by
  rw [C28_pullback]
  refine hg.mul_mul_conjTranspose_same ?_
  intro x y hxy
  funext l
  have := congrFun hxy (d.succAbove l)
  simpa [vecMul, dotProduct] using this

example : ∃ (g : Matrix (Fin 2) (Fin 2) ℂ) (G : Fin 2 → ℂ), g.PosDef ∧ G 1 ≠ 0 ∧ G 0 ≠ 0 :=
  ⟨1, fun _ => 1, Matrix.PosDef.one, one_ne_zero, one_ne_zero⟩

/-! ## C29 -/

/-- **C29.** `det(induced_metric(g, G, d)) |G_d|^2` is the same for every dependent coordinate `d`
with non-vanishing gradient entry; `g` is an arbitrary matrix. -/
theorem C29_volume_density {n : ℕ} (g : Matrix (Fin (n + 1)) (Fin (n + 1)) ℂ) (G : Fin (n + 1) → ℂ)
    (d d' : Fin (n + 1)) (hd : G d ≠ 0) (hd' : G d' ≠ 0) :
    (inducedMetric g G (d : ℕ) none).det * (‖G d‖ : ℂ) ^ 2 =
      (inducedMetric g G (d' : ℕ) none).det * (‖G d'‖ : ℂ) ^ 2 := by
  rcases eq_or_ne d d' with rfl | hne
  · rfl
  obtain ⟨A, hA, hJ⟩ := frame_change G d d' hne hd hd'
  have e : inducedMetric g G (d' : ℕ) none =
      A * (inducedMetric g G (d : ℕ) none).submatrix (frameEquiv d d') (frameEquiv d d') * Aᴴ := by
    rw [C28_pullback, C28_pullback, hJ, conjTranspose_mul, conjTranspose_submatrix]
    simp only [Matrix.mul_assoc]
    congr 1
    simp only [← Matrix.mul_assoc]
    congr 1
  rw [e, det_mul, det_mul, det_submatrix_equiv_self, det_conjTranspose, hA]
  have h1 : ∀ w : ℂ, ((‖w‖ : ℂ)) ^ 2 = w * star w := by
    intro w
    rw [RCLike.star_def, Complex.mul_conj, Complex.normSq_eq_norm_sq]; push_cast; rfl
  rw [h1, h1]
  have hs : star (G d') ≠ 0 := by simpa using hd'
  simp only [star_neg, star_div₀]
  field_simp

end Cyjax
