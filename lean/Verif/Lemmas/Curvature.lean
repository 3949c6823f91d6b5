import Verif.Lemmas.Metric
import Mathlib.LinearAlgebra.Matrix.Trace
import Mathlib.LinearAlgebra.Matrix.Adjugate
import Mathlib.LinearAlgebra.Matrix.Hermitian

/-! # Wirtinger derivatives of the induced metric, its inverse and its determinant (for C67–C69) -/

namespace Cyjax.Spec

open scoped ComplexConjugate

theorem HasWirtAt.unique {f : ℂ → ℂ} {a b c d w : ℂ} (h : HasWirtAt f a b w) (h' : HasWirtAt f c d w) :
    a = c ∧ b = d := by
  have e := HasFDerivAt.unique h h'
  have e1 := congrArg (fun L : ℂ →L[ℝ] ℂ => L 1) e
  have e2 := congrArg (fun L : ℂ →L[ℝ] ℂ => L Complex.I) e
  simp at e1 e2
  have e3 : Complex.I * (a - b) = Complex.I * (c - d) := by linear_combination e2
  have e4 := mul_left_cancel₀ Complex.I_ne_zero e3
  constructor
  · linear_combination (e1 + e4) / 2
  · linear_combination (e1 - e4) / 2

private theorem adjugate_wirt {m : ℕ} {M : Fin m → Fin m → ℂ → ℂ} {A B : Fin m → Fin m → ℂ} {w : ℂ}
    (h : ∀ i j, HasWirtAt (M i j) (A i j) (B i j) w) (p q : Fin m) :
    ∃ a b, HasWirtAt (fun t => (Matrix.of fun i j => M i j t).adjugate p q) a b w := by
  have h1 : ∀ i j, HasWirtAt (fun t => (Matrix.of fun i j => M i j t).updateRow q (Pi.single p 1) i j)
      (if i = q then 0 else A i j) (if i = q then 0 else B i j) w := by
    intro i j
    by_cases hi : i = q
    · subst hi
      simp only [Matrix.updateRow_self, if_true]
      exact hasWirtAt_const _ _
    · simp only [Matrix.updateRow_ne hi, if_neg hi]
      exact h i j
  have h2 := HasWirtAt.det h1
  simp only [Matrix.adjugate_apply]
  exact ⟨_, _, h2⟩

theorem HasWirtAt.matrix_inv {m : ℕ} {M : Fin m → Fin m → ℂ → ℂ} {A B : Matrix (Fin m) (Fin m) ℂ} {w : ℂ}
    (h : ∀ i j, HasWirtAt (M i j) (A i j) (B i j) w) (h0 : (Matrix.of fun i j => M i j w).det ≠ 0) (p q : Fin m) :
    HasWirtAt (fun t => (Matrix.of fun i j => M i j t)⁻¹ p q)
      (-((Matrix.of fun i j => M i j w)⁻¹ * A * (Matrix.of fun i j => M i j w)⁻¹) p q)
      (-((Matrix.of fun i j => M i j w)⁻¹ * B * (Matrix.of fun i j => M i j w)⁻¹) p q) w := by
  set W := Matrix.of fun i j => M i j w with hW
  have hd := HasWirtAt.det h
  have hex : ∀ p q, ∃ a b, HasWirtAt (fun t => (Matrix.of fun i j => M i j t)⁻¹ p q) a b w := by
    intro p q
    obtain ⟨a, b, hab⟩ := adjugate_wirt h p q
    have h1 := (hd.inv h0).mul hab
    refine ⟨_, _, h1.congr_fun (Filter.Eventually.of_forall fun t => ?_)⟩
    simp only [Matrix.inv_def, Matrix.smul_apply, smul_eq_mul, Ring.inverse_eq_inv']
  choose C D hCD using hex
  have hev : ∀ᶠ t in nhds w, (Matrix.of fun i j => M i j t).det ≠ 0 := hd.continuousAt.eventually_ne h0
  have hprod : ∀ i k, ∑ j, (A i j * W⁻¹ j k + W i j * C j k) = 0 ∧ ∑ j, (B i j * W⁻¹ j k + W i j * D j k) = 0 := by
    intro i k
    have h1 : HasWirtAt (fun t => ∑ j, M i j t * (Matrix.of fun i j => M i j t)⁻¹ j k) _ _ w :=
      HasWirtAt.sum Finset.univ fun j _ => (h i j).mul (hCD j k)
    have h2 : HasWirtAt (fun t => ∑ j, M i j t * (Matrix.of fun i j => M i j t)⁻¹ j k) 0 0 w := by
      refine (hasWirtAt_const ((1 : Matrix (Fin m) (Fin m) ℂ) i k) w).congr_fun ?_
      filter_upwards [hev] with t ht
      rw [← Matrix.mul_nonsing_inv (Matrix.of fun i j => M i j t) (Ne.isUnit ht), Matrix.mul_apply]
      rfl
    exact h1.unique h2
  have hC : Matrix.of C = -(W⁻¹ * A * W⁻¹) := by
    have e : A * W⁻¹ + W * Matrix.of C = 0 := by
      ext i k
      rw [Matrix.add_apply, Matrix.mul_apply, Matrix.mul_apply, ← Finset.sum_add_distrib]
      exact (hprod i k).1
    have e2 : W⁻¹ * (W * Matrix.of C) = Matrix.of C := Matrix.nonsing_inv_mul_cancel_left _ _ (Ne.isUnit h0)
    rw [← e2, eq_neg_of_add_eq_zero_right e, Matrix.mul_neg, Matrix.mul_assoc]
  have hD : Matrix.of D = -(W⁻¹ * B * W⁻¹) := by
    have e : B * W⁻¹ + W * Matrix.of D = 0 := by
      ext i k
      rw [Matrix.add_apply, Matrix.mul_apply, Matrix.mul_apply, ← Finset.sum_add_distrib]
      exact (hprod i k).2
    have e2 : W⁻¹ * (W * Matrix.of D) = Matrix.of D := Matrix.nonsing_inv_mul_cancel_left _ _ (Ne.isUnit h0)
    rw [← e2, eq_neg_of_add_eq_zero_right e, Matrix.mul_neg, Matrix.mul_assoc]
  refine (hCD p q).congr_coeff ?_ ?_
  · exact congrFun (congrFun hC p) q
  · exact congrFun (congrFun hD p) q

end Cyjax.Spec

namespace Cyjax.Donaldson

open Cyjax.Spec
open scoped ComplexConjugate

variable {n m : ℕ}

/-- Product rule for `J g J†`. -/
theorem pull_wirt {g : Fin n → Fin n → ℂ → ℂ} {J : Fin m → Fin n → ℂ → ℂ} {gh ga : Fin n → Fin n → ℂ}
    {Jh : Fin m → Fin n → ℂ} {K : Fin m → Fin n → ℂ → ℂ} {Kh : Fin m → Fin n → ℂ} {w : ℂ}
    (hg : ∀ i j, HasWirtAt (g i j) (gh i j) (ga i j) w) (hJ : ∀ r i, HasDerivAt (J r i) (Jh r i) w)
    (hK : ∀ r i, HasDerivAt (K r i) (Kh r i) w) (r s : Fin m) :
    HasWirtAt (fun t => ∑ i, ∑ j, J r i t * g i j t * conj (K s j t))
      ((∑ i, ∑ j, Jh r i * g i j w * conj (K s j w)) + ∑ i, ∑ j, J r i w * gh i j * conj (K s j w))
      ((∑ i, ∑ j, J r i w * ga i j * conj (K s j w)) + ∑ i, ∑ j, J r i w * g i j w * conj (Kh s j)) w := by
  have h := HasWirtAt.sum Finset.univ fun i _ => HasWirtAt.sum Finset.univ fun j _ =>
    ((hasWirtAt_of_hasDerivAt (hJ r i)).mul (hg i j)).mul (hasWirtAt_of_hasDerivAt (hK s j)).conj
  refine h.congr_coeff ?_ ?_
  · rw [← Finset.sum_add_distrib]
    refine Finset.sum_congr rfl fun i _ => ?_
    rw [← Finset.sum_add_distrib]
    refine Finset.sum_congr rfl fun j _ => ?_
    simp
    ring
  · rw [← Finset.sum_add_distrib]
    refine Finset.sum_congr rfl fun i _ => ?_
    rw [← Finset.sum_add_distrib]
    refine Finset.sum_congr rfl fun j _ => ?_
    simp

variable {N : ℕ} {H : Matrix (Fin N) (Fin N) ℂ} {S : (Fin (n + 1) → ℂ) → Jet N (n + 1)}
  {E : (Fin (n + 1) → ℂ) → Graph.Emb n} {d : Fin (n + 1)}

/-- The value of `g_loc_h` for a matrix. -/
noncomputable def gLocHv (H : Matrix (Fin N) (Fin N) ℂ) (degree : ℕ) (J : Jet N (n + 1)) (e : Graph.Emb n) :
    Fin (n + 1) → Fin n → Fin n → ℂ :=
  gLocH (Graph.gProj (.full H) J degree) (gProjHv H J degree) (Graph.jac e) e.jacH (Graph.jacC e)

theorem gLocH_full (degree : ℕ) (J : Jet N (n + 1)) (e : Graph.Emb n) :
    Graph.gLocH (.full H) degree J e = .ok (gLocHv H degree J e) := rfl

/-- The value of `g_loc_ha` for a matrix. -/
noncomputable def gLocHAv (H : Matrix (Fin N) (Fin N) ℂ) (degree : ℕ) (J : Jet N (n + 1)) (e : Graph.Emb n) :
    Fin (n + 1) → Fin (n + 1) → Fin n → Fin n → ℂ :=
  gLocHA (Graph.gProj (.full H) J degree) (gProjA (gProjHv H J degree)) (gProjHv H J degree) (gProjHAv H J degree)
    (Graph.jac e) (Graph.jacC e) e.jacH

theorem gLocHA_full (degree : ℕ) (J : Jet N (n + 1)) (e : Graph.Emb n) :
    Graph.gLocHA (.full H) degree J e = .ok (gLocHAv H degree J e) := rfl

theorem gLoc_conj (hH : H.IsHermitian) (degree : ℕ) (J : Jet N (n + 1)) (e : Graph.Emb n) (r s : Fin n) :
    conj (Graph.gLoc (.full H) degree J e s r) = Graph.gLoc (.full H) degree J e r s := by
  simp only [Graph.gLoc, gLoc, Matrix.of_apply, map_sum, map_mul, gProj_conj hH, Graph.jacC, Complex.conj_conj]
  rw [Finset.sum_comm]
  refine Finset.sum_congr rfl fun i _ => Finset.sum_congr rfl fun j _ => ?_
  ring

theorem gLoc_wirt (hS : IsJet S) (hE : IsEmb d E) (hH : H.IsHermitian) (degree : ℕ) (z : Fin (n + 1) → ℂ)
    (h0 : Graph.psi (.full H) (S z) ≠ 0) (hG : (E z).gradDef d ≠ 0) (a : Fin (n + 1)) (r s : Fin n) :
    HasWirtAt (fun t => Graph.gLoc (.full H) degree (S (Function.update z a t)) (E (Function.update z a t)) r s)
      (gLocHv H degree (S z) (E z) a r s) (gLocA (gLocHv H degree (S z) (E z)) a r s) (z a) := by
  have key : ∀ r s, ∃ b, HasWirtAt
      (fun t => Graph.gLoc (.full H) degree (S (Function.update z a t)) (E (Function.update z a t)) r s)
      (gLocHv H degree (S z) (E z) a r s) b (z a) := by
    intro r s
    have h := pull_wirt (fun i j => gProj_wirt hS hH degree z a i j h0) (fun r i => hE.first z hG r i a)
      (fun r i => hE.first z hG r i a) r s
    simp only [Function.update_eq_self] at h
    exact ⟨_, h⟩
  obtain ⟨b, hb⟩ := key r s
  obtain ⟨c, hc⟩ := key s r
  have hc' := hc.conj
  simp only [gLoc_conj hH] at hc'
  exact hb.congr_coeff rfl (hb.unique hc').2

theorem gLocH_wirt (hS : IsJet S) (hE : IsEmb d E) (hH : H.IsHermitian) (degree : ℕ) (z : Fin (n + 1) → ℂ)
    (h0 : Graph.psi (.full H) (S z) ≠ 0) (hG : (E z).gradDef d ≠ 0) (a b : Fin (n + 1)) (r s : Fin n) :
    ∃ e, HasWirtAt (fun t => gLocHv H degree (S (Function.update z b t)) (E (Function.update z b t)) a r s) e
      (gLocHAv H degree (S z) (E z) a b r s) (z b) := by
  choose e he using fun i j => gProjH_wirt hS hH degree z a b i j h0
  have h1 := pull_wirt (fun i j => gProj_wirt hS hH degree z b i j h0)
    (fun r i => (hE.second z hG r i a b).hasDerivAt) (fun r i => hE.first z hG r i b) r s
  have h2 := pull_wirt he (fun r i => hE.first z hG r i b) (fun r i => hE.first z hG r i b) r s
  have h := h1.add h2
  simp only [Function.update_eq_self] at h
  refine ⟨_, h.congr_coeff rfl ?_⟩
  simp only [gLocHAv, gLocHA, Graph.jacC, Matrix.of_apply]
  ring

/-- `log |det g_loc|` as a complex valued function. -/
noncomputable def logDet (H : Matrix (Fin N) (Fin N) ℂ) (degree : ℕ) (J : Jet N (n + 1)) (e : Graph.Emb n) : ℂ :=
  (Real.log ‖(Graph.gLoc (.full H) degree J e).det‖ : ℂ)

theorem logDet_eq (hH : H.IsHermitian) (degree : ℕ) (J : Jet N (n + 1)) (e : Graph.Emb n) :
    logDet H degree J e = Complex.log ((Graph.gLoc (.full H) degree J e).det ^ 2) / 2 := by
  have hh : (Graph.gLoc (.full H) degree J e).IsHermitian := by
    ext r s
    exact gLoc_conj hH degree J e r s
  have hd : conj (Graph.gLoc (.full H) degree J e).det = (Graph.gLoc (.full H) degree J e).det := by
    have h1 := congrArg Matrix.det hh
    rwa [Matrix.det_conjTranspose] at h1
  unfold logDet
  set D := (Graph.gLoc (.full H) degree J e).det
  have hD : D ^ 2 = ((‖D‖ ^ 2 : ℝ) : ℂ) := by
    rw [Complex.ofReal_pow, ← Complex.mul_conj', hd, sq]
  rw [hD, ← Complex.ofReal_log (by positivity), Real.log_pow]
  push_cast
  ring

theorem sq_mem_slit {w : ℂ} (h : conj w = w) (h0 : w ≠ 0) : w ^ 2 ∈ Complex.slitPlane := by
  have hD : w ^ 2 = ((‖w‖ ^ 2 : ℝ) : ℂ) := by
    rw [Complex.ofReal_pow, ← Complex.mul_conj', h, sq]
  rw [hD]
  left
  rw [Complex.ofReal_re]
  positivity

theorem logDet_wirt (hS : IsJet S) (hE : IsEmb d E) (hH : H.IsHermitian) (degree : ℕ) (z : Fin (n + 1) → ℂ)
    (h0 : Graph.psi (.full H) (S z) ≠ 0) (hG : (E z).gradDef d ≠ 0)
    (hdet : (Graph.gLoc (.full H) degree (S z) (E z)).det ≠ 0) (a : Fin (n + 1)) :
    ∃ b, HasWirtAt (fun t => logDet H degree (S (Function.update z a t)) (E (Function.update z a t)))
      (∑ i, ∑ j, (Graph.gLocInv (.full H) degree (S z) (E z)) j i * gLocHv H degree (S z) (E z) a i j) b (z a) := by
  have h1 : HasWirtAt
      (fun t => (Graph.gLoc (.full H) degree (S (Function.update z a t)) (E (Function.update z a t))).det)
      (∑ i, ∑ j, (Graph.gLoc (.full H) degree (S z) (E z)).adjugate j i * gLocHv H degree (S z) (E z) a i j)
      (∑ i, ∑ j, (Graph.gLoc (.full H) degree (S z) (E z)).adjugate j i * gLocA (gLocHv H degree (S z) (E z)) a i j)
      (z a) := by
    have h := HasWirtAt.det (M := fun r s t =>
      Graph.gLoc (.full H) degree (S (Function.update z a t)) (E (Function.update z a t)) r s)
      (fun r s => gLoc_wirt hS hE hH degree z h0 hG a r s)
    simp only [Function.update_eq_self] at h
    exact h
  have hh : (Graph.gLoc (.full H) degree (S z) (E z)).IsHermitian := by
    ext r s
    exact gLoc_conj hH degree (S z) (E z) r s
  have hd : conj (Graph.gLoc (.full H) degree (S z) (E z)).det = (Graph.gLoc (.full H) degree (S z) (E z)).det := by
    have h1 := congrArg Matrix.det hh
    rwa [Matrix.det_conjTranspose] at h1
  have h2 := ((h1.pow 2).log (by rw [Function.update_eq_self]; exact sq_mem_slit hd hdet)).div_const 2
  rw [Function.update_eq_self] at h2
  refine ⟨_, (h2.congr_fun (Filter.Eventually.of_forall fun t => logDet_eq hH degree
    (S (Function.update z a t)) (E (Function.update z a t)))).congr_coeff ?_ rfl⟩
  simp only [Graph.gLocInv, gLocInv, Matrix.inv_def, Matrix.smul_apply, smul_eq_mul, Ring.inverse_eq_inv', mul_assoc,
    ← Finset.mul_sum]
  push_cast
  field_simp

theorem ricci_wirt (hS : IsJet S) (hE : IsEmb d E) (hH : H.IsHermitian) (degree : ℕ) (z : Fin (n + 1) → ℂ)
    (h0 : Graph.psi (.full H) (S z) ≠ 0) (hG : (E z).gradDef d ≠ 0)
    (hdet : (Graph.gLoc (.full H) degree (S z) (E z)).det ≠ 0) (a b : Fin (n + 1)) :
    ∃ e, HasWirtAt (fun t => ∑ i, ∑ j, (Graph.gLocInv (.full H) degree (S (Function.update z b t))
        (E (Function.update z b t))) j i * gLocHv H degree (S (Function.update z b t)) (E (Function.update z b t)) a i j)
      e (-ricciProj (gLocHv H degree (S z) (E z)) (gLocA (gLocHv H degree (S z) (E z)))
        (gLocHAv H degree (S z) (E z)) (Graph.gLocInv (.full H) degree (S z) (E z)) a b) (z b) := by
  choose e he using fun r s => gLocH_wirt hS hE hH degree z h0 hG a b r s
  have hinv := fun p q => HasWirtAt.matrix_inv (A := Matrix.of fun r s => gLocHv H degree (S z) (E z) b r s)
    (B := Matrix.of fun r s => gLocA (gLocHv H degree (S z) (E z)) b r s)
    (fun r s => gLoc_wirt hS hE hH degree z h0 hG b r s) (by rw [Function.update_eq_self]; exact hdet) p q
  have h := HasWirtAt.sum Finset.univ fun i _ => HasWirtAt.sum Finset.univ fun j _ => (hinv j i).mul (he i j)
  rw [Function.update_eq_self] at h
  refine ⟨_, h.congr_coeff rfl ?_⟩
  set W := Graph.gLocInv (.full H) degree (S z) (E z) with hW
  change ∑ i, ∑ j, (-(W * (Matrix.of fun r s => gLocA (gLocHv H degree (S z) (E z)) b r s) * W) j i *
    gLocHv H degree (S z) (E z) a i j + W j i * gLocHAv H degree (S z) (E z) a b i j) = _
  simp only [ricciProj, Matrix.of_apply, neg_sub]
  simp only [Finset.sum_add_distrib, neg_mul, Finset.sum_neg_distrib]
  rw [sub_eq_add_neg, add_comm]
  congr 2
  set A := Matrix.of fun r s => gLocA (gLocHv H degree (S z) (E z)) b r s with hA
  set G := Matrix.of fun r s => gLocHv H degree (S z) (E z) a r s with hG
  have e1 : ∑ i, ∑ j, (W * A * W) j i * gLocHv H degree (S z) (E z) a i j = (W * A * W * G).trace := by
    simp only [Matrix.trace, Matrix.diag, Matrix.mul_apply (M := W * A * W)]
    rw [Finset.sum_comm]
    rfl
  have e2 : ∑ i, ∑ j, ∑ k, ∑ l, W j i * gLocHv H degree (S z) (E z) a i k * W k l *
      gLocA (gLocHv H degree (S z) (E z)) b l j = (W * G * W * A).trace := by
    simp only [Matrix.trace, Matrix.diag, Matrix.mul_apply, Finset.sum_mul]
    rw [Finset.sum_comm]
    refine Finset.sum_congr rfl fun j _ => ?_
    refine Finset.sum_comm.trans ((Finset.sum_congr rfl fun k _ => Finset.sum_comm).trans ?_)
    exact Finset.sum_comm
  rw [e1, e2]
  rw [Matrix.mul_assoc (W * A), Matrix.trace_mul_comm, ← Matrix.mul_assoc]

end Cyjax.Donaldson
