import Verif.Model.RoundingWeights
import Verif.Spec.RoundingWeights
import Verif.Lemmas.RoundingProjective
import Verif.Lemmas.HermitianForms
import Verif.Lemmas.Variety
import Mathlib.Algebra.BigOperators.Ring.Finset
import Mathlib.LinearAlgebra.Matrix.NonsingularInverse

/-! # Errors of determinants and of the induced metric (for C166) -/

namespace Cyjax.Spec

open Matrix
open scoped ComplexOrder

variable {n : ℕ}

theorem prod_add_sub_le {ι : Type*} (s : Finset ι) (d f : ι → ℂ) :
    ‖∏ i ∈ s, (d i + f i) - ∏ i ∈ s, d i‖ ≤ ∏ i ∈ s, (‖d i‖ + ‖f i‖) - ∏ i ∈ s, ‖d i‖ := by
  classical
  induction s using Finset.induction_on with
  | empty => simp
  | insert i s hi ih =>
    rw [Finset.prod_insert hi, Finset.prod_insert hi, Finset.prod_insert hi, Finset.prod_insert hi]
    set P := ∏ i ∈ s, (d i + f i)
    set Q := ∏ i ∈ s, d i
    set R := ∏ i ∈ s, (‖d i‖ + ‖f i‖)
    have hQ : ‖Q‖ = ∏ i ∈ s, ‖d i‖ := by rw [← norm_prod]
    rw [← hQ] at ih ⊢
    have hP : ‖P‖ ≤ R := by
      have := norm_sub_norm_le P Q
      linarith
    calc ‖(d i + f i) * P - d i * Q‖ = ‖d i * (P - Q) + f i * P‖ := by ring_nf
      _ ≤ ‖d i‖ * (R - ‖Q‖) + ‖f i‖ * R := by
          refine (norm_add_le _ _).trans (add_le_add ?_ ?_)
          · rw [norm_mul]
            exact mul_le_mul_of_nonneg_left ih (norm_nonneg _)
          · rw [norm_mul]
            exact mul_le_mul_of_nonneg_left hP (norm_nonneg _)
      _ = _ := by ring

/-- Determinants near the unit matrix. -/
theorem det_one_add {F : Matrix (Fin n) (Fin n) ℂ} {r : ℝ} (hF : ∀ i, ∑ j, ‖F i j‖ ≤ r) : ‖(1 + F).det - 1‖ ≤ (1 + r) ^ n - 1 := by
  classical
  set d : Fin n → Fin n → ℂ := fun i j => (1 : Matrix (Fin n) (Fin n) ℂ) i j with hd
  have h1 : (1 + F).det - 1 = ∑ σ : Equiv.Perm (Fin n), Equiv.Perm.sign σ • (∏ i, (d (σ i) i + F (σ i) i) - ∏ i, d (σ i) i) := by
    conv_lhs => rw [← det_one (n := Fin n) (R := ℂ)]
    rw [det_apply, det_apply, ← Finset.sum_sub_distrib]
    refine Finset.sum_congr rfl fun σ _ => ?_
    rw [← smul_sub]
    rfl
  have h2 : ‖(1 + F).det - 1‖ ≤ ∑ σ : Equiv.Perm (Fin n), (∏ i, (‖d (σ i) i‖ + ‖F (σ i) i‖) - ∏ i, ‖d (σ i) i‖) := by
    rw [h1]
    refine (norm_sum_le _ _).trans (Finset.sum_le_sum fun σ _ => ?_)
    have : ‖Equiv.Perm.sign σ • (∏ i, (d (σ i) i + F (σ i) i) - ∏ i, d (σ i) i)‖ = ‖∏ i, (d (σ i) i + F (σ i) i) - ∏ i, d (σ i) i‖ := by
      rcases Int.units_eq_one_or (Equiv.Perm.sign σ) with h | h
      · simp [h]
      · rw [h, Units.neg_smul, one_smul, norm_neg]
    rw [this]
    exact prod_add_sub_le _ _ _
  have hnn : ∀ f : Fin n → Fin n, 0 ≤ ∏ i, (‖d i (f i)‖ + ‖F i (f i)‖) - ∏ i, ‖d i (f i)‖ := fun f =>
    sub_nonneg.2 (Finset.prod_le_prod (fun _ _ => norm_nonneg _) fun _ _ => le_add_of_nonneg_right (norm_nonneg _))
  have h3 : ∑ σ : Equiv.Perm (Fin n), (∏ i, (‖d (σ i) i‖ + ‖F (σ i) i‖) - ∏ i, ‖d (σ i) i‖) ≤
      ∑ f : Fin n → Fin n, (∏ i, (‖d i (f i)‖ + ‖F i (f i)‖) - ∏ i, ‖d i (f i)‖) := by
    have e : ∑ σ : Equiv.Perm (Fin n), (∏ i, (‖d (σ i) i‖ + ‖F (σ i) i‖) - ∏ i, ‖d (σ i) i‖) =
        ∑ σ : Equiv.Perm (Fin n), (∏ i, (‖d i (σ i)‖ + ‖F i (σ i)‖) - ∏ i, ‖d i (σ i)‖) := by
      rw [← Equiv.sum_comp (Equiv.inv (Equiv.Perm (Fin n)))]
      refine Finset.sum_congr rfl fun σ _ => ?_
      simp only [Equiv.inv_apply]
      rw [← Equiv.prod_comp σ (fun i => ‖d (σ⁻¹ i) i‖ + ‖F (σ⁻¹ i) i‖), ← Equiv.prod_comp σ (fun i => ‖d (σ⁻¹ i) i‖)]
      simp
    rw [e]
    have himg := Finset.sum_le_sum_of_subset_of_nonneg (Finset.subset_univ
      (Finset.univ.image fun σ : Equiv.Perm (Fin n) => (σ : Fin n → Fin n))) (fun f _ _ => hnn f)
    rwa [Finset.sum_image fun σ _ τ _ h => DFunLike.coe_injective h] at himg
  have h4 : ∑ f : Fin n → Fin n, (∏ i, (‖d i (f i)‖ + ‖F i (f i)‖) - ∏ i, ‖d i (f i)‖) ≤ (1 + r) ^ n - 1 := by
    rw [Finset.sum_sub_distrib]
    have e1 : ∑ f : Fin n → Fin n, ∏ i, (‖d i (f i)‖ + ‖F i (f i)‖) = ∏ i, ∑ j, (‖d i j‖ + ‖F i j‖) := by
      rw [Finset.prod_univ_sum, Fintype.piFinset_univ]
    have e2 : ∑ f : Fin n → Fin n, ∏ i, ‖d i (f i)‖ = ∏ i, ∑ j, ‖d i j‖ := by
      rw [Finset.prod_univ_sum, Fintype.piFinset_univ]
    have e3 : ∀ i, ∑ j, ‖d i j‖ = 1 := by
      intro i
      rw [Finset.sum_eq_single i (fun j _ hj => by simp [hd, one_apply_ne hj.symm]) (by simp)]
      simp [hd]
    rw [e1, e2]
    simp only [Finset.sum_add_distrib, e3, Finset.prod_const_one]
    refine sub_le_sub_right ?_ 1
    calc ∏ i, (1 + ∑ j, ‖F i j‖) ≤ ∏ _i : Fin n, (1 + r) :=
          Finset.prod_le_prod (fun i _ => by positivity) fun i _ => by linarith [hF i]
      _ = _ := by simp
  exact h2.trans (h3.trans h4)

theorem entry_le_of_qf {A : Matrix (Fin n) (Fin n) ℂ} (hA : A.PosSemidef) {c : ℝ} (h : ∀ u, qf A u ≤ c * qf 1 u) (a b : Fin n) :
    ‖A a b‖ ≤ c := by
  have hdiag : ∀ a, qf A (Pi.single a 1) = (A a a).re := by
    intro a
    rw [qf]
    simp
  have hc : ∀ a, (A a a).re ≤ c := by
    intro a
    have := h (Pi.single a 1)
    rwa [hdiag, qf_one_single, mul_one] at this
  obtain ⟨C, rfl⟩ := exists_factor hA
  have hd : ∀ a, ((Cᴴ * C) a a).re = ∑ k, ‖C k a‖ ^ 2 := by
    intro a
    rw [mul_apply, Complex.re_sum]
    refine Finset.sum_congr rfl fun k _ => ?_
    rw [conjTranspose_apply, Complex.star_def, ← Complex.normSq_eq_conj_mul_self, Complex.ofReal_re, Complex.normSq_eq_norm_sq]
  have h3 : ‖(Cᴴ * C) a b‖ ≤ ∑ k, (‖C k a‖ ^ 2 / 2 + ‖C k b‖ ^ 2 / 2) := by
    rw [mul_apply]
    refine (norm_sum_le _ _).trans (Finset.sum_le_sum fun k _ => ?_)
    rw [norm_mul, conjTranspose_apply, norm_star]
    nlinarith [sq_nonneg (‖C k a‖ - ‖C k b‖)]
  rw [Finset.sum_add_distrib, ← Finset.sum_div, ← Finset.sum_div, ← hd, ← hd] at h3
  linarith [hc a, hc b]

/-- Determinants of matrices with errors. -/
theorem det_entries {K E : Matrix (Fin n) (Fin n) ℂ} (hK : K.IsHermitian) {m e : ℝ} (hm : 0 < m) (hlo : ∀ u, m * qf 1 u ≤ qf K u)
    (hE : ∀ i j, ‖E i j‖ ≤ e) : ‖(K + E).det - K.det‖ ≤ ((1 + n ^ 2 * e / m) ^ n - 1) * K.det.re := by
  have hKp := posDef_of_le hK hm hlo
  have hu : K * K⁻¹ = 1 := mul_nonsing_inv _ (isUnit_iff_ne_zero.2 hKp.det_pos.ne')
  have hinv : ∀ u, qf K⁻¹ u ≤ 1 / m * qf 1 u := by
    intro u
    have h1 := inv_anti (posDef_smul_one hm) hKp (fun u => by rw [qf_smul]; exact hlo u) u
    have h2 : ((m : ℂ) • (1 : Matrix (Fin n) (Fin n) ℂ))⁻¹ = ((1 / m : ℝ) : ℂ) • 1 := by
      refine inv_eq_right_inv ?_
      rw [smul_mul_smul_comm, ← Complex.ofReal_mul, mul_one_div_cancel hm.ne', Complex.ofReal_one, one_smul, one_mul]
    rwa [h2, qf_smul] at h1
  have hent := entry_le_of_qf hKp.inv.posSemidef hinv
  have hrow : ∀ i, ∑ j, ‖(K⁻¹ * E) i j‖ ≤ n ^ 2 * e / m := by
    intro i
    have h1 : ∀ j, ‖(K⁻¹ * E) i j‖ ≤ n * (1 / m * e) := by
      intro j
      rw [mul_apply]
      refine (norm_sum_le _ _).trans ?_
      calc _ ≤ ∑ _k : Fin n, 1 / m * e := Finset.sum_le_sum fun k _ => by
              rw [norm_mul]
              exact mul_le_mul (hent i k) (hE k j) (norm_nonneg _) (by positivity)
        _ = _ := by simp
    calc _ ≤ ∑ _j : Fin n, n * (1 / m * e) := Finset.sum_le_sum fun j _ => h1 j
      _ = _ := by
        simp
        ring
  have hd := det_one_add hrow
  have e1 : K + E = K * (1 + K⁻¹ * E) := by rw [mul_add, mul_one, ← Matrix.mul_assoc, hu, Matrix.one_mul]
  rw [e1, det_mul]
  have e2 : K.det * (1 + K⁻¹ * E).det - K.det = K.det * ((1 + K⁻¹ * E).det - 1) := by ring
  have e3 : ‖K.det‖ = K.det.re := by
    rw [← det_re hKp, Complex.norm_real, Complex.ofReal_re, Real.norm_of_nonneg (det_re_pos hKp).le]
  rw [e2, norm_mul, e3, mul_comm]
  exact mul_le_mul_of_nonneg_right hd (det_re_pos hKp).le

end Cyjax.Spec

namespace Cyjax.Variety

open Cyjax.Polynomial Cyjax.Util Cyjax.Projective Cyjax.Differential Cyjax.Fl Cyjax.Spec Matrix
open scoped ComplexOrder ComplexConjugate

variable {n : ℕ} {A : Arith} {D : DivAbs} {ε : ℝ}

theorem qf_fs (z : Fin n → ℂ) (u : Fin n → ℂ) :
    qf (fsMetricAt z) u = ((1 + ∑ k, ‖z k‖ ^ 2) * ∑ k, ‖u k‖ ^ 2 - ‖∑ k, z k * u k‖ ^ 2) / (1 + ∑ k, ‖z k‖ ^ 2) ^ 2 := by
  set s : ℝ := 1 + ∑ k, ‖z k‖ ^ 2 with hs
  have hent : ∀ i j, star (u i) * fsMetricAt z i j * u j =
      ((if i = j then (s : ℂ) * (star (u i) * u j) else 0) - star (z i * u i) * (z j * u j)) / (s : ℂ) ^ 2 := by
    intro i j
    have : fsMetricAt z i j = ((if i = j then 1 else 0) * (s : ℂ) - conj (z i) * z j) / (s : ℂ) ^ 2 := by
      simp only [fsMetricAt, fsMetric, norm2p1_exact, ← hs]
      rfl
    rw [this]
    simp only [star_mul', RCLike.star_def]
    split_ifs <;> ring
  have hc : ∑ i, ∑ j, star (u i) * fsMetricAt z i j * u j = ((((s * ∑ k, ‖u k‖ ^ 2) - ‖∑ k, z k * u k‖ ^ 2) / s ^ 2 : ℝ) : ℂ) := by
    simp only [hent]
    simp_rw [← Finset.sum_div, Finset.sum_sub_distrib]
    have e1 : ∑ i, ∑ j, (if i = j then (s : ℂ) * (star (u i) * u j) else 0) = ((s * ∑ k, ‖u k‖ ^ 2 : ℝ) : ℂ) := by
      simp only [Finset.sum_ite_eq, Finset.mem_univ, if_true]
      rw [← Finset.mul_sum]
      push_cast
      congr 1
      refine Finset.sum_congr rfl fun k _ => ?_
      rw [RCLike.star_def, ← Complex.normSq_eq_conj_mul_self, Complex.normSq_eq_norm_sq]
      push_cast
      rfl
    have e2 : ∑ i, ∑ j, star (z i * u i) * (z j * u j) = ((‖∑ k, z k * u k‖ ^ 2 : ℝ) : ℂ) := by
      simp_rw [← Finset.mul_sum]
      rw [← Finset.sum_mul, ← star_sum, RCLike.star_def, ← Complex.normSq_eq_conj_mul_self, Complex.normSq_eq_norm_sq]
    rw [e1, e2]
    push_cast
    rfl
  rw [qf_eq_sum, hc, Complex.ofReal_re]

/-- The smallest eigenvalue of the Fubini-Study metric. -/
theorem fs_lower (z : Fin n → ℂ) (u : Fin n → ℂ) : 1 / (1 + ∑ k, ‖z k‖ ^ 2) ^ 2 * qf 1 u ≤ qf (fsMetricAt z) u := by
  rw [qf_fs, qf_one, div_mul_eq_mul_div, one_mul]
  refine div_le_div_of_nonneg_right ?_ (by positivity)
  have h1 : ‖∑ k, z k * u k‖ ^ 2 ≤ (∑ k, ‖z k‖ ^ 2) * ∑ k, ‖u k‖ ^ 2 := by
    have h2 : ‖∑ k, z k * u k‖ ≤ ∑ k, ‖z k‖ * ‖u k‖ := (norm_sum_le _ _).trans (le_of_eq (by simp only [norm_mul]))
    calc _ ≤ (∑ k, ‖z k‖ * ‖u k‖) ^ 2 := by gcongr
      _ ≤ _ := Finset.sum_mul_sq_le_sq_mul_sq _ _ _
  linarith

/-- The induced metric is not smaller. -/
theorem induced_lower (z g : Fin (n + 1) → ℂ) (d : Fin (n + 1)) (u : Fin n → ℂ) :
    1 / (1 + ∑ k, ‖z k‖ ^ 2) ^ 2 * qf 1 u ≤ qf (inducedMetric (fsMetricAt z) g (d : ℕ) none) u := by
  rw [C28_pullback]
  set J := jacobianEmbed g ((d : ℕ) : ℤ) with hJ
  have e1 : qf (J * fsMetricAt z * Jᴴ) u = qf (fsMetricAt z) (Jᴴ *ᵥ u) := by
    rw [qf, qf, ← mulVec_mulVec, ← mulVec_mulVec, dotProduct_mulVec, star_mulVec, conjTranspose_conjTranspose]
  have e2 : qf (1 : Matrix (Fin n) (Fin n) ℂ) u ≤ qf 1 (Jᴴ *ᵥ u) := by
    rw [qf_one, qf_one, Fin.sum_univ_succAbove _ d]
    have : ∀ k, (Jᴴ *ᵥ u) (d.succAbove k) = u k := by
      intro k
      simp only [mulVec, dotProduct, conjTranspose_apply, hJ, jacobianEmbed_indep]
      rw [Finset.sum_eq_single k (fun b _ hb => by simp [hb]) (by simp)]
      simp
    simp only [this]
    exact le_add_of_nonneg_left (by positivity)
  rw [e1]
  exact (mul_le_mul_of_nonneg_left e2 (by positivity)).trans (fs_lower z _)

/-- Bound of the terms of the entries of the metric. -/
theorem fs_terms (z : Fin n → ℂ) (i j : Fin n) :
    ((if i = j then 1 else 0) * (1 + ∑ k, ‖z k‖ ^ 2) + ‖z i‖ * ‖z j‖) / (1 + ∑ k, ‖z k‖ ^ 2) ^ 2 ≤ 2 / (1 + ∑ k, ‖z k‖ ^ 2) := by
  set r : ℝ := ∑ k, ‖z k‖ ^ 2 with hr
  have hr0 : 0 ≤ r := by positivity
  have h1 : ∀ k, ‖z k‖ ^ 2 ≤ r := fun k => Finset.single_le_sum (f := fun k => ‖z k‖ ^ 2) (fun _ _ => by positivity) (Finset.mem_univ k)
  have h2 : ‖z i‖ * ‖z j‖ ≤ r := by nlinarith [h1 i, h1 j, sq_nonneg (‖z i‖ - ‖z j‖)]
  have h3 : (if i = j then (1 : ℝ) else 0) * (1 + r) ≤ 1 + r := by split_ifs <;> linarith
  rw [div_le_div_iff₀ (by positivity) (by positivity)]
  nlinarith

theorem norm_fs_le (z : Fin n → ℂ) (i j : Fin n) : ‖fsMetricAt z i j‖ ≤
    ((if i = j then 1 else 0) * (1 + ∑ k, ‖z k‖ ^ 2) + ‖z i‖ * ‖z j‖) / (1 + ∑ k, ‖z k‖ ^ 2) ^ 2 := by
  set s : ℝ := 1 + ∑ k, ‖z k‖ ^ 2 with hs
  have hs0 : 0 < s := by positivity
  have : fsMetricAt z i j = ((if i = j then 1 else 0) * (s : ℂ) - conj (z i) * z j) / (s : ℂ) ^ 2 := by
    simp only [fsMetricAt, fsMetric, norm2p1_exact, ← hs]
    rfl
  rw [this, norm_div, norm_pow, Complex.norm_real, Real.norm_of_nonneg hs0.le]
  refine div_le_div_of_nonneg_right ((norm_sub_le _ _).trans (add_le_add ?_ ?_)) (by positivity)
  · rw [norm_mul, Complex.norm_real, Real.norm_of_nonneg hs0.le]
    split_ifs <;> simp
  · rw [norm_mul, RCLike.norm_conj]

/-- Growth of the errors of the entries of the Jacobian. -/
noncomputable def jacGrowth (ε δ : ℝ) : ℝ := (1 + ε) * ((1 + δ) / (1 - δ))

/-- The Jacobian in the given arithmetic. -/
noncomputable def jacF (D : DivAbs) (g : Fin (n + 1) → ℂ) (dep : ℤ) : Matrix (Fin n) (Fin (n + 1)) ℂ :=
  insertCol1 (fun i j : Fin n => if i = j then 1 else 0) (fun i => D.div (-(pop g dep).2 i) (pop g dep).1) dep

theorem jacF_near (h0 : 0 ≤ ε) (hD : D.Accurate ε) {g g' : Fin (n + 1) → ℂ} (d : Fin (n + 1)) (hd : g d ≠ 0) {δ : ℝ} (hδ : 0 ≤ δ)
    (hδ1 : δ < 1) (hg : ∀ i, RelErr δ (g' i) (g i)) (k : Fin n) (j : Fin (n + 1)) :
    NearG (jacGrowth ε δ) (jacF D g' (d : ℕ) k j) (jacobianEmbed g (d : ℕ) k j) ‖jacobianEmbed g (d : ℕ) k j‖ := by
  have hrel : ∀ i, NearG (1 + δ) (g' i) (g i) ‖g i‖ := fun i => ⟨by rw [add_sub_cancel_left]; exact hg i, le_rfl, by linarith⟩
  have hq := (hrel (d.succAbove k)).neg.div h0 hD (hrel d) hd (by linarith)
  have hJ1 : 1 ≤ jacGrowth ε δ := by
    have := hq.one_le
    rwa [show 2 - (1 + δ) = 1 - δ by ring] at this
  unfold jacF
  simp only [pop_fst, pop_snd]
  rw [insertCol1_insertNth]
  rcases eq_or_ne j d with rfl | hj
  · rw [Fin.insertNth_apply_same, jacobianEmbed_dep, norm_div, norm_neg]
    rwa [show 2 - (1 + δ) = 1 - δ by ring] at hq
  · obtain ⟨l, rfl⟩ := Fin.exists_succAbove_eq hj
    rw [Fin.insertNth_apply_succAbove, jacobianEmbed_indep]
    exact (NearG.refl _).mono hJ1

theorem jac_row {g : Fin (n + 1) → ℂ} (d : Fin (n + 1)) {q : ℝ} (hq : ∀ i, ‖g i‖ ≤ q * ‖g d‖) (hd : g d ≠ 0) (k : Fin n) :
    ∑ j, ‖jacobianEmbed g (d : ℕ) k j‖ ≤ 1 + q := by
  rw [Fin.sum_univ_succAbove _ d]
  simp only [jacobianEmbed_dep, jacobianEmbed_indep]
  rw [Finset.sum_eq_single k (fun b _ hb => by simp [hb.symm]) (by simp), if_pos rfl, norm_one, norm_div, norm_neg, add_comm]
  gcongr
  rw [div_le_iff₀ (norm_pos_iff.2 hd)]
  exact hq _

/-- Growth of the errors of the entries of the induced metric. -/
noncomputable def indGrowth (ε δ : ℝ) (t ta tb : RTree (Fin (n + 1))) : ℝ :=
  (1 + ε) ^ (ta.depth + tb.depth + 2) * (jacGrowth ε δ ^ 2 * ((1 + ε) ^ (t.depth + 5) / (2 - (1 + ε) ^ (2 * t.depth + 5))))

theorem inducedF_near (hA : A.Accurate ε) (hD : D.Accurate ε) {t ta tb : RTree (Fin (n + 1))} (hta : ta.Covers)
    (htb : tb.Covers) {z : Fin (n + 1) → ℂ} (hfs : ∀ i j, NearG ((1 + ε) ^ (t.depth + 5) / (2 - (1 + ε) ^ (2 * t.depth + 5)))
      (fsMetricAtF A D t z i j) (fsMetricAt z i j) (2 / (1 + ∑ k, ‖z k‖ ^ 2)))
    {g g' : Fin (n + 1) → ℂ} (d : Fin (n + 1)) (hd : g d ≠ 0) {δ q : ℝ} (hδ : 0 ≤ δ) (hδ1 : δ < 1)
    (hg : ∀ i, RelErr δ (g' i) (g i)) (hq : ∀ i, ‖g i‖ ≤ q * ‖g d‖) (i j : Fin n) :
    NearG (indGrowth ε δ t ta tb) (inducedF A D t ta tb g' z (d : ℕ) i j) (inducedMetric (fsMetricAt z) g (d : ℕ) none i j)
      (2 * (1 + q) ^ 2 / (1 + ∑ k, ‖z k‖ ^ 2)) := by
  set s : ℝ := 1 + ∑ k, ‖z k‖ ^ 2 with hs
  have hs0 : 0 < s := by positivity
  set Gf := (1 + ε) ^ (t.depth + 5) / (2 - (1 + ε) ^ (2 * t.depth + 5)) with hGf
  set J := jacobianEmbed g ((d : ℕ) : ℤ) with hJ
  have hjac := jacF_near hA.nonneg hD d hd hδ hδ1 hg
  have h1 : ∀ l, NearG ((1 + ε) ^ ta.depth * ((1 + ε) * (jacGrowth ε δ * Gf)))
      (matMulF A ta (jacF D g' (d : ℕ)) (fsMetricAtF A D t z) i l) (∑ k, J i k * fsMetricAt z k l) (∑ k, ‖J i k‖ * (2 / s)) := by
    intro l
    have := ta.nearG_add hA (fun k => (hjac i k).mul hA (hfs k l))
    rwa [hta.sum, hta.sum] at this
  have hconj : ∀ l, NearG (jacGrowth ε δ) ((jacF D g' (d : ℕ))ᴴ l j) (conj (J j l)) ‖J j l‖ := by
    intro l
    have := hjac j l
    exact ⟨by rw [conjTranspose_apply, RCLike.star_def, ← map_sub, RCLike.norm_conj]; exact this.err,
      by rw [RCLike.norm_conj], this.one_le⟩
  have h2 := tb.nearG_add hA (fun l => (h1 l).mul hA (hconj l))
  rw [htb.sum, htb.sum] at h2
  have eF : inducedF A D t ta tb g' z (d : ℕ) i j = tb.eval A.add fun l =>
      A.mul (matMulF A ta (jacF D g' (d : ℕ)) (fsMetricAtF A D t z) i l) ((jacF D g' (d : ℕ))ᴴ l j) := rfl
  have eK : inducedMetric (fsMetricAt z) g (d : ℕ) none i j = ∑ l, (∑ k, J i k * fsMetricAt z k l) * conj (J j l) := by
    rw [C28_pullback]
    rfl
  have eG : (1 + ε) ^ tb.depth * ((1 + ε) * ((1 + ε) ^ ta.depth * ((1 + ε) * (jacGrowth ε δ * Gf)) * jacGrowth ε δ)) =
      indGrowth ε δ t ta tb := by
    rw [indGrowth, ← hGf]
    ring
  rw [eG] at h2
  rw [eF, eK]
  have hsz : ∑ l, (∑ k, ‖J i k‖ * (2 / s)) * ‖J j l‖ ≤ 2 * (1 + q) ^ 2 / s := by
    rw [← Finset.mul_sum, ← Finset.sum_mul]
    have r1 := jac_row d hq hd i
    have r2 := jac_row d hq hd j
    rw [← hJ] at r1 r2
    have r0 : 0 ≤ ∑ k, ‖J i k‖ := by positivity
    have r0' : 0 ≤ ∑ k, ‖J j k‖ := by positivity
    calc (∑ k, ‖J i k‖) * (2 / s) * ∑ l, ‖J j l‖ = 2 / s * ((∑ k, ‖J i k‖) * ∑ l, ‖J j l‖) := by ring
      _ ≤ 2 / s * ((1 + q) * (1 + q)) := by
          refine mul_le_mul_of_nonneg_left (mul_le_mul r1 r2 r0' (r0.trans r1)) (by positivity)
      _ = _ := by ring
  exact ⟨h2.err.trans (mul_le_mul_of_nonneg_left hsz (by linarith [h2.one_le])), h2.size.trans hsz, h2.one_le⟩

end Cyjax.Variety
