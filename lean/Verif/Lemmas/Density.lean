import Verif.Lemmas.Variety
import Verif.Lemmas.FubiniStudy
import Mathlib.Data.Matrix.ColumnRowPartitioned
import Mathlib.LinearAlgebra.Matrix.NonsingularInverse
import Mathlib.LinearAlgebra.Matrix.SchurComplement

/-! Volume density of a hypersurface in terms of the ambient metric -/

namespace Cyjax.Variety

open Cyjax.Polynomial Cyjax.Util Cyjax.Projective Cyjax.Differential Matrix

/-- The volume density of the pullback to the kernel of `g`, with the dependent coordinate last. -/
theorem density_sum {ι : Type*} [Fintype ι] [DecidableEq ι] (G : Matrix (ι ⊕ Unit) (ι ⊕ Unit) ℂ) (hG : G.IsHermitian)
    (hdet : G.det ≠ 0) (g : ι ⊕ Unit → ℂ) (hg : g (.inr ()) ≠ 0)
    (hq : star g ⬝ᵥ (G⁻¹ *ᵥ g) ≠ 0) :
    (fromCols (1 : Matrix ι ι ℂ) (of fun k _ => -g (.inl k) / g (.inr ())) * G *
      (fromCols (1 : Matrix ι ι ℂ) (of fun k _ => -g (.inl k) / g (.inr ())))ᴴ).det * (star (g (.inr ())) * g (.inr ())) =
      G.det * (star g ⬝ᵥ (G⁻¹ *ᵥ g)) := by
  set J := fromCols (1 : Matrix ι ι ℂ) (of fun k (_ : Unit) => -g (.inl k) / g (.inr ())) with hJ
  set q := star g ⬝ᵥ (G⁻¹ *ᵥ g) with hqdef
  set c : Matrix (ι ⊕ Unit) Unit ℂ := of fun i _ => g i with hc
  set w : Matrix Unit (ι ⊕ Unit) ℂ := cᴴ * G⁻¹ with hw
  have hu : IsUnit G.det := isUnit_iff_ne_zero.2 hdet
  have hGi : (G⁻¹)ᴴ = G⁻¹ := by rw [conjTranspose_nonsing_inv, hG.eq]
  have hJc : J * c = 0 := by
    ext k u
    simp only [hJ, hc, mul_apply, Fintype.sum_sum_type, fromCols_apply_inl, fromCols_apply_inr, of_apply, one_apply,
      ite_mul, one_mul, zero_mul, Finset.sum_ite_eq, Finset.mem_univ, if_true, Finset.univ_unique,
      Finset.sum_singleton, Matrix.zero_apply]
    rw [show (default : Unit) = () from rfl]
    field_simp
    ring
  have hwc : w * c = of fun _ _ => q := by
    ext a b
    simp only [hw, hc, Matrix.mul_assoc, of_apply, hqdef]
    simp [mul_apply, dotProduct, mulVec]
  have hwG : w * G = cᴴ := by rw [hw, Matrix.mul_assoc, nonsing_inv_mul _ hu, Matrix.mul_one]
  have hwH : wᴴ = G⁻¹ * c := by rw [hw, conjTranspose_mul, hGi, conjTranspose_conjTranspose]
  have h1 : (J * G) * wᴴ = 0 := by
    rw [hwH, Matrix.mul_assoc, ← Matrix.mul_assoc G, mul_nonsing_inv _ hu, Matrix.one_mul, hJc]
  have h2 : (w * G) * wᴴ = of fun _ _ => q := by
    rw [hwG, hwH, ← Matrix.mul_assoc, ← hw, hwc]
  have hblock : fromRows J w * G * (fromRows J w)ᴴ = fromBlocks (J * G * Jᴴ) 0 (w * G * Jᴴ) (of fun _ _ => q) := by
    rw [conjTranspose_fromRows_eq_fromCols_conjTranspose, fromRows_mul, fromRows_mul_fromCols, h1, h2]
  have hd1 : (fromRows J w).det * G.det * star (fromRows J w).det = (J * G * Jᴴ).det * q := by
    have := congrArg det hblock
    rw [det_mul, det_mul, det_conjTranspose, det_fromBlocks_zero₁₂] at this
    rw [this, det_unique (of fun (_ : Unit) (_ : Unit) => q)]
    rfl
  have hd2 : (fromRows J w).det * g (.inr ()) = q := by
    have e : fromRows J w * fromBlocks 1 (of fun i _ => g (.inl i)) 0 (of fun _ _ => g (.inr ())) =
        fromBlocks 1 0 (of fun (a : Unit) k => w a (.inl k)) (of fun (_ : Unit) (_ : Unit) => q) := by
      have hcols : fromBlocks (1 : Matrix ι ι ℂ) (of fun i (_ : Unit) => g (.inl i)) 0 (of fun _ _ => g (.inr ())) =
          fromCols (fromRows 1 0) c := by
        ext i j
        rcases i with i | i <;> rcases j with j | j <;> simp [hc]
      rw [hcols, fromRows_mul_fromCols, hJc, hwc]
      congr 1
      · ext k l; simp [hJ, mul_apply, one_apply]
      · ext k l; simp [mul_apply, one_apply]
    have := congrArg det e
    rw [det_mul, det_fromBlocks_zero₂₁, det_fromBlocks_zero₁₂, det_one, one_mul, one_mul,
      det_unique (of fun (_ : Unit) (_ : Unit) => q), det_unique (of fun (_ : Unit) (_ : Unit) => g (.inr ()))] at this
    exact this
  have hs : star q = star (fromRows J w).det * star (g (.inr ())) := by rw [← hd2, star_mul, mul_comm]
  have hqr : star q = q := by
    have : (of fun (_ : Unit) (_ : Unit) => q)ᴴ = of fun (_ : Unit) (_ : Unit) => q := by
      have h3 : (w * G * wᴴ)ᴴ = w * G * wᴴ := by
        rw [conjTranspose_mul (w * G), conjTranspose_mul w G, hG.eq, conjTranspose_conjTranspose]
        exact (Matrix.mul_assoc w G wᴴ).symm
      rwa [h2] at h3
    simpa using congrFun (congrFun this ()) ()
  have : (J * G * Jᴴ).det * (star (g (.inr ())) * g (.inr ())) * q = G.det * q * q := by
    calc (J * G * Jᴴ).det * (star (g (.inr ())) * g (.inr ())) * q
        = ((J * G * Jᴴ).det * q) * (star (g (.inr ())) * g (.inr ())) := by ring
      _ = ((fromRows J w).det * g (.inr ())) * G.det * (star (fromRows J w).det * star (g (.inr ()))) := by
          rw [← hd1]; ring
      _ = G.det * q * q := by rw [hd2, ← hs, hqr]; ring
  exact mul_right_cancel₀ hq this

/-- Coordinate `d` last. -/
def lastEquiv {n : ℕ} (d : Fin (n + 1)) : Fin n ⊕ Unit ≃ Fin (n + 1) :=
  (Equiv.optionEquivSumPUnit (Fin n)).symm.trans (finSuccEquiv' d).symm

theorem lastEquiv_inl {n : ℕ} (d : Fin (n + 1)) (k : Fin n) : lastEquiv d (.inl k) = d.succAbove k := by
  simp [lastEquiv]

theorem lastEquiv_inr {n : ℕ} (d : Fin (n + 1)) (u : Unit) : lastEquiv d (.inr u) = d := by
  simp [lastEquiv]

/-- The volume density of the pullback to the kernel of the gradient. -/
theorem density {n : ℕ} (G : Matrix (Fin (n + 1)) (Fin (n + 1)) ℂ) (hG : G.IsHermitian) (hdet : G.det ≠ 0)
    (g : Fin (n + 1) → ℂ) (d : Fin (n + 1)) (hg : g d ≠ 0) (hq : star g ⬝ᵥ (G⁻¹ *ᵥ g) ≠ 0) :
    (inducedMetric G g (d : ℕ) none).det * (star (g d) * g d) = G.det * (star g ⬝ᵥ (G⁻¹ *ᵥ g)) := by
  set e := lastEquiv d with he
  have hinv : (G.submatrix e e)⁻¹ = G⁻¹.submatrix e e := by rw [inv_submatrix_equiv]
  have hquad : star (g ∘ e) ⬝ᵥ ((G.submatrix e e)⁻¹ *ᵥ (g ∘ e)) = star g ⬝ᵥ (G⁻¹ *ᵥ g) := by
    rw [hinv, submatrix_mulVec_equiv, Function.comp_assoc, Equiv.self_comp_symm, Function.comp_id]
    simp only [dotProduct, Pi.star_apply, Function.comp_apply]
    exact Equiv.sum_comp e (fun i => star (g i) * (G⁻¹ *ᵥ g) i)
  have h := density_sum (G.submatrix e e) (hG.submatrix e) (by rw [det_submatrix_equiv_self]; exact hdet) (g ∘ e)
    (by rw [Function.comp_apply, he, lastEquiv_inr]; exact hg) (by rw [hquad]; exact hq)
  rw [hquad, det_submatrix_equiv_self] at h
  simp only [Function.comp_apply, he, lastEquiv_inr, lastEquiv_inl] at h
  rw [← h, C28_pullback]
  congr 2
  have hJ : fromCols (1 : Matrix (Fin n) (Fin n) ℂ) (of fun k (_ : Unit) => -g (d.succAbove k) / g d) =
      (jacobianEmbed g (d : ℕ)).submatrix id e := by
    ext k j
    rcases j with j | j
    · simp only [fromCols_apply_inl, submatrix_apply, he, lastEquiv_inl, id, jacobianEmbed_indep, one_apply]
    · simp only [fromCols_apply_inr, submatrix_apply, he, lastEquiv_inr, id, jacobianEmbed_dep, of_apply]
  rw [hJ, conjTranspose_submatrix, submatrix_mul_equiv, submatrix_mul_equiv]
  rfl

theorem fsMetric_inv {n : ℕ} (z : Fin n → ℂ) :
    (fsMetricAt z)⁻¹ = of fun i j => ((1 + ∑ k, ‖z k‖ ^ 2 : ℝ) : ℂ) * ((if i = j then 1 else 0) + star (z i) * z j) := by
  apply inv_eq_right_inv
  have hN := norm2p1_pos z
  have hs : ∑ k, z k * star (z k) = ((1 + ∑ k, ‖z k‖ ^ 2 : ℝ) : ℂ) - 1 := by
    rw [← norm2p1_eq z]; simp [conjArr]
  set N : ℝ := 1 + ∑ k, ‖z k‖ ^ 2 with hNd
  have hN0 : (N : ℂ) ≠ 0 := by exact_mod_cast hN.ne'
  ext i j
  have hent : ∀ k, fsMetricAt z i k = ((if i = k then (1 : ℂ) else 0) * N - star (z i) * z k) / (N : ℂ) ^ 2 := by
    intro k
    simp only [fsMetricAt, fsMetric, norm2p1_eq, ← hNd]
    rfl
  simp only [mul_apply, of_apply, hent, one_apply]
  have e : ∀ k, ((if i = k then (1 : ℂ) else 0) * N - star (z i) * z k) / (N : ℂ) ^ 2 *
      (N * ((if k = j then 1 else 0) + star (z k) * z j)) =
      (if i = k then (if k = j then 1 else 0) + star (z k) * z j else 0) -
      star (z i) / N * (if k = j then z k else 0) - star (z i) * z j / N * (z k * star (z k)) := by
    intro k
    split_ifs <;> field_simp <;> ring
  simp only [e, Finset.sum_sub_distrib, Finset.sum_ite_eq, Finset.sum_ite_eq', Finset.mem_univ, if_true, ← Finset.mul_sum, hs]
  field_simp
  ring

/-- The volume density of a hypersurface with the metric of projective space. -/
theorem fs_density {n : ℕ} (z g : Fin (n + 1) → ℂ) (d : Fin (n + 1)) (hg : g d ≠ 0) :
    (inducedMetric (fsMetricAt z) g (d : ℕ) none).det.re * ‖g d‖ ^ 2 =
      (∑ k, ‖g k‖ ^ 2 + ‖∑ k, z k * g k‖ ^ 2) / (1 + ∑ k, ‖z k‖ ^ 2) ^ (n + 1) := by
  have hN := norm2p1_pos z
  have hq : star g ⬝ᵥ ((fsMetricAt z)⁻¹ *ᵥ g) =
      (((1 + ∑ k, ‖z k‖ ^ 2) * (∑ k, ‖g k‖ ^ 2 + ‖∑ k, z k * g k‖ ^ 2) : ℝ) : ℂ) := by
    rw [fsMetric_inv]
    simp only [dotProduct, mulVec, of_apply, Pi.star_apply]
    have e : ∀ i, star (g i) * ∑ j, ((1 + ∑ k, ‖z k‖ ^ 2 : ℝ) : ℂ) * ((if i = j then 1 else 0) + star (z i) * z j) * g j =
        ((1 + ∑ k, ‖z k‖ ^ 2 : ℝ) : ℂ) * (star (g i) * g i + star (z i * g i) * ∑ j, z j * g j) := by
      intro i
      have : ∀ j, ((1 + ∑ k, ‖z k‖ ^ 2 : ℝ) : ℂ) * ((if i = j then 1 else 0) + star (z i) * z j) * g j =
          ((1 + ∑ k, ‖z k‖ ^ 2 : ℝ) : ℂ) * ((if i = j then g j else 0) + star (z i) * (z j * g j)) := by
        intro j; split_ifs <;> ring
      simp only [this, ← Finset.mul_sum, Finset.sum_add_distrib, Finset.sum_ite_eq, Finset.mem_univ, if_true, star_mul]
      ring
    simp only [e, ← Finset.mul_sum, Finset.sum_add_distrib, ← Finset.sum_mul, ← star_sum]
    have n1 : ∀ x : ℂ, star x * x = ((‖x‖ ^ 2 : ℝ) : ℂ) := by
      intro x
      have := Complex.conj_mul' x
      push_cast
      exact this
    simp only [n1]
    push_cast
    rfl
  have hpos : 0 < ∑ k, ‖g k‖ ^ 2 + ‖∑ k, z k * g k‖ ^ 2 := by
    have : 0 < ∑ k, ‖g k‖ ^ 2 :=
      Finset.sum_pos' (fun k _ => by positivity) ⟨d, Finset.mem_univ d, by have := norm_pos_iff.2 hg; positivity⟩
    positivity
  have h := density (fsMetricAt z) (C22_fs_hermitian z) (C25_fs_nondegenerate z) g d hg (by
    rw [hq]
    exact_mod_cast (mul_pos hN hpos).ne')
  rw [hq, C25_fs_det] at h
  have n2 : star (g d) * g d = ((‖g d‖ ^ 2 : ℝ) : ℂ) := by
    have := Complex.conj_mul' (g d)
    push_cast
    exact this
  rw [n2] at h
  have h2 := congrArg Complex.re h
  rw [Complex.mul_re, Complex.ofReal_re, Complex.ofReal_im, mul_zero, sub_zero] at h2
  rw [h2, ← Complex.ofReal_pow, ← Complex.ofReal_one, ← Complex.ofReal_div, ← Complex.ofReal_mul, Complex.ofReal_re]
  have hN' := hN.ne'
  rw [pow_succ _ (n + 1)]
  field_simp

end Cyjax.Variety
