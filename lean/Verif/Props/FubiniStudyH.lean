import Verif.Spec.FubiniStudyH
import Verif.Props.AlgebraicMetric
import Verif.Props.Accuracy

/-! # Property C115: the algebraic metric reproduces the Fubini–Study metric -/

namespace Cyjax

open Cyjax.Donaldson Cyjax.Spec Cyjax.Projective Cyjax.Variety Cyjax.Differential
open Cyjax.Polynomial (PyErr Val PolyObj DworkFactor)
open MvPolynomial (eval pderiv)
open scoped ComplexConjugate ComplexOrder

variable {n : ℕ}

/-- **C115.** The matrix is positive definite. -/
theorem C115_posDef (n k : ℕ) : (fubiniStudyH n k).PosDef := by
  unfold fubiniStudyH
  rw [Matrix.posDef_diagonal_iff]
  intro a
  exact_mod_cast Nat.multinomial_pos _ _

/-- **C115.** In degree one it is the identity. -/
theorem C115_one (n : ℕ) : fubiniStudyH n 1 = 1 := by
  unfold fubiniStudyH
  rw [← Matrix.diagonal_one]
  congr 1
  funext a
  have hs : ∑ i, (monomialBasisFull n 1).powers a i = 1 := (mem_monomialBasis n 1 _).1 (List.get_mem _ a)
  have hle : ∀ i, (monomialBasisFull n 1).powers a i ≤ 1 := fun i => by
    refine le_trans ?_ hs.le
    exact Finset.single_le_sum (f := fun i => (monomialBasisFull n 1).powers a i) (fun _ _ => Nat.zero_le _) (Finset.mem_univ i)
  rw [Nat.multinomial, hs, Finset.prod_eq_one]
  · simp
  · intro i _
    have := hle i
    interval_cases (monomialBasisFull n 1).powers a i <;> rfl

theorem full_le (k : ℕ) (a : Fin (monomialBasisFull n k).size) (i : Fin (n + 1)) :
    (monomialBasisFull n k).powers a i ≤ (monomialBasisFull n k).degree := C60_bounded n k a i

theorem psi_fubini (k : ℕ) (p : Fin (n + 1)) (z : Fin n → ℂ) :
    Graph.psi (.full (fubiniStudyH n k)) (sectionsJet (monomialBasisFull n k) (p : ℕ) z) =
      ((1 + ∑ i, ‖z i‖ ^ 2 : ℝ) : ℂ) ^ k := by
  set B := monomialBasisFull n k with hB
  set Z := affineToHom z (p : ℕ) with hZ
  have hs : ∀ a, (sectionsJet B (p : ℕ) z).s a = ∏ i, Z i ^ B.powers a i := by
    intro a
    exact C60_affine z p _ _ (full_le k) a
  have h1 : Graph.psi (.full (fubiniStudyH n k)) (sectionsJet B (p : ℕ) z) =
      ∑ a, (Nat.multinomial Finset.univ (B.powers a) : ℂ) * ∏ i, ((‖Z i‖ ^ 2 : ℝ) : ℂ) ^ B.powers a i := by
    unfold Graph.psi psi
    simp only
    refine Finset.sum_congr rfl fun a _ => ?_
    rw [Finset.sum_eq_single a]
    · rw [fubiniStudyH, Matrix.diagonal_apply_eq, conjS, hs, map_prod, mul_comm, ← mul_assoc, mul_comm, ← Finset.prod_mul_distrib]
      congr 1
      refine Finset.prod_congr rfl fun i _ => ?_
      rw [map_pow, ← mul_pow, mul_comm, Complex.mul_conj']
      push_cast
      rfl
    · intro b _ hb
      rw [fubiniStudyH, Matrix.diagonal_apply_ne _ hb.symm]
      ring
    · simp
  rw [h1]
  have h2 : ((1 + ∑ i, ‖z i‖ ^ 2 : ℝ) : ℂ) = ∑ i, ((‖Z i‖ ^ 2 : ℝ) : ℂ) := by
    rw [Fin.sum_univ_succAbove _ p, hZ]
    simp only [affineToHom_same, affineToHom_succAbove]
    push_cast
    simp
  rw [h2, Finset.sum_pow_eq_sum_piAntidiag]
  have h3 : ∀ f : (Fin (n + 1) → ℕ) → ℂ, ∑ a, f (B.powers a) = ∑ m ∈ Finset.piAntidiag Finset.univ k, f m := by
    intro f
    have e1 : ∑ a, f (B.powers a) = (B.rows.map f).sum := by
      rw [← List.sum_ofFn]
      congr 1
      exact (List.ofFn_getElem_eq_map B.rows f).symm ▸ rfl
    have e2 : (B.rows.toFinset) = Finset.piAntidiag Finset.univ k := by
      ext m
      rw [List.mem_toFinset, Finset.mem_piAntidiag, hB]
      exact (mem_monomialBasis n k m).trans (by simp)
    rw [e1, ← e2]
    exact (List.sum_toFinset f (monomialBasis_nodup n k)).symm
  exact h3 fun m => (Nat.multinomial Finset.univ m : ℂ) * ∏ i, ((‖Z i‖ ^ 2 : ℝ) : ℂ) ^ m i

theorem norm2_pos (z : Fin n → ℂ) : (0 : ℝ) < 1 + ∑ i, ‖z i‖ ^ 2 := by positivity

/-- The Kahler potential of `AlgebraicMetric` as a function of the point. -/
theorem kahler_fubini (k : ℕ) (hk : k ≠ 0) (p : Fin (n + 1)) (z : Fin n → ℂ) :
    Graph.kahler (.full (fubiniStudyH n k)) (sectionsJet (monomialBasisFull n k) (p : ℕ) z) k =
      fsPotentialAt z false / Real.pi := by
  unfold Graph.kahler Donaldson.kahler
  rw [psi_fubini, C24_affine_real, ← Complex.ofReal_pow, ← Complex.ofReal_log (pow_nonneg (norm2_pos z).le k), Real.log_pow]
  have hk' : (k : ℂ) ≠ 0 := Nat.cast_ne_zero.2 hk
  have hpi : (Real.pi : ℂ) ≠ 0 := Complex.ofReal_ne_zero.2 Real.pi_ne_zero
  push_cast
  field_simp

/-- A degree-one comparison: the sections `1, z_1, ..., z_n`. -/
private noncomputable def lin (n : ℕ) : (Fin n → ℂ) → Jet (n + 1) n := polyJet (Fin.cons 1 MvPolynomial.X)

private theorem lin_values (z : Fin n → ℂ) :
    Graph.psi (.full 1) (lin n z) = 1 + ∑ k, z k * conj (z k) ∧
    (∀ i, Graph.psiH (.full 1) (lin n z) i = conj (z i)) ∧
    (∀ i j, Graph.psiHA (.full 1) (lin n z) i j = if i = j then 1 else 0) := by
  have s0 : (lin n z).s 0 = 1 := by simp [lin, polyJet]
  have s1 : ∀ a : Fin n, (lin n z).s a.succ = z a := fun a => by simp [lin, polyJet]
  have d0 : ∀ i, (lin n z).s1 0 i = 0 := fun i => by simp [lin, polyJet]
  have d1 : ∀ (a : Fin n) i, (lin n z).s1 a.succ i = if i = a then 1 else 0 := fun a i => by
    simp only [lin, polyJet, Fin.cons_succ]
    by_cases h : i = a
    · subst h; simp
    · rw [MvPolynomial.pderiv_X_of_ne (Ne.symm h), if_neg h, map_zero]
  have key : ∀ u v : Fin (n + 1) → ℂ, (∑ a, ∑ b, u a * (1 : Matrix (Fin (n + 1)) (Fin (n + 1)) ℂ) a b * v b) =
      u 0 * v 0 + ∑ a : Fin n, u a.succ * v a.succ := by
    intro u v
    rw [← Fin.sum_univ_succ fun a => u a * v a]
    refine Finset.sum_congr rfl fun a _ => ?_
    simp [Matrix.one_apply]
  refine ⟨?_, fun i => ?_, fun i j => ?_⟩
  · refine (key _ _).trans ?_
    simp [conjS, s0, s1]
  · refine (key (fun a => (lin n z).s1 a i) _).trans ?_
    simp [conjS, s1, d0, d1]
  · refine (key (fun a => (lin n z).s1 a i) fun a => conjS1 (lin n z).s1 a j).trans ?_
    simp [conjS1, d0, d1]

private theorem lin_gProj (z : Fin n → ℂ) : Graph.gProj (.full 1) (lin n z) 1 = (Real.pi : ℂ)⁻¹ • fsMetricAt z := by
  obtain ⟨h1, h2, h3⟩ := lin_values z
  have hne : (1 : ℂ) + ∑ k, z k * conj (z k) ≠ 0 := by
    have := norm2_pos z
    have e : (1 : ℂ) + ∑ k, z k * conj (z k) = ((1 + ∑ k, ‖z k‖ ^ 2 : ℝ) : ℂ) := by
      push_cast
      simp only [Complex.mul_conj']
    rw [e]
    exact_mod_cast this.ne'
  ext i j
  simp only [Graph.gProj, gProj, Matrix.of_apply, h1, h2, h3, Graph.psiA, psiA, Complex.conj_conj]
  rw [Matrix.smul_apply, smul_eq_mul]
  simp only [fsMetricAt, fsMetric, conjArr]
  have hpi : (Real.pi : ℂ) ≠ 0 := Complex.ofReal_ne_zero.2 Real.pi_ne_zero
  field_simp
  simp

private theorem gProj_fubini (k : ℕ) (hk : k ≠ 0) (p : Fin (n + 1)) (z : Fin n → ℂ) :
    Graph.gProj (.full (fubiniStudyH n k)) (sectionsJet (monomialBasisFull n k) (p : ℕ) z) k =
      (Real.pi : ℂ)⁻¹ • fsMetricAt z := by
  rw [← lin_gProj]
  have hψ : ∀ w, 0 < Graph.psi (.full (fubiniStudyH n k)) (sectionsJet (monomialBasisFull n k) (p : ℕ) w) := fun w => by
    rw [psi_fubini]
    exact_mod_cast pow_pos (norm2_pos w) k
  have hψ' : ∀ w, Graph.psi (.full 1) (lin n w) = ((1 + ∑ k, ‖w k‖ ^ 2 : ℝ) : ℂ) := fun w => by
    rw [(lin_values w).1]
    push_cast
    simp only [Complex.mul_conj']
  have hK : (fun v => Graph.kahler (.full (fubiniStudyH n k)) (sectionsJet (monomialBasisFull n k) (p : ℕ) v) k) =
      fun v => Graph.kahler (.full 1) (lin n v) 1 := by
    funext v
    rw [kahler_fubini k hk, C24_affine_real]
    unfold Graph.kahler Donaldson.kahler
    rw [hψ', Complex.ofReal_log (norm2_pos v).le]
    simp
  ext i j
  rw [← C64_metric _ (sectionsJet_isJet _ (full_le k) p) _ (C115_posDef n k).isHermitian k z (hψ z) i j,
    ← C64_metric (lin n) (polyJet_isJet _) 1 Matrix.isHermitian_one 1 z (by
      rw [hψ']; exact_mod_cast norm2_pos z) i j, hK]

/-- **C115, ambient space.** In every patch `g_proj` for `h = fubiniStudyH` is `fs_metric / π`. -/
theorem C115_ambient (k : ℕ) (hk : k ≠ 0) (p : Fin (n + 1)) (z : Fin n → ℂ) :
    Graph.gProj (.full (fubiniStudyH n k)) (sectionsJet (monomialBasisFull n k) (p : ℕ) z) k =
      (Real.pi : ℂ)⁻¹ • fsMetricAt z := gProj_fubini k hk p z

section Variety

variable {V : HomKind} {params : Val} {e : ℕ} {F : MvPolynomial (Fin (n + 2)) ℂ}
  (hV : Hypersurface V params (n + 1) e F) (k : ℕ) (hk : k ≠ 0)

include hV hk in
/-- **C115, Kahler potential.** With the full basis of any positive degree and `h = fubiniStudyH`, `kahler_potential` is
`fs_potential / π`. -/
theorem C115_kahler (p : Fin (n + 2)) (z : Fin (n + 1) → ℂ) :
    AlgebraicMetric.kahlerPotential ⟨V, monomialBasisFull (n + 1) k⟩ (fubiniStudyH (n + 1) k) (List.ofFn z) (some (p : ℕ)) =
      .ok (fsPotentialAt z false / Real.pi) := by
  refine (kahler_val (A := ⟨V, monomialBasisFull (n + 1) k⟩) hV _ p z).trans ?_
  congr 1
  exact kahler_fubini k hk p z

include hk in
private theorem gLoc_fubini (p : Fin (n + 2)) (z : Fin (n + 1) → ℂ) (E : Graph.Emb n) :
    Graph.gLoc (.full (fubiniStudyH (n + 1) k)) k (sectionsJet (monomialBasisFull (n + 1) k) (p : ℕ) z) E =
      (Real.pi : ℂ)⁻¹ • inducedMetric (fsMetricAt z) E.gradDef E.dependent none := by
  ext r s
  simp only [Graph.gLoc, gLoc, gProj_fubini k hk, Matrix.of_apply, Matrix.smul_apply, inducedMetric, pullback, smul_eq_mul,
    Finset.mul_sum, Graph.jacC, Graph.jac]
  refine Finset.sum_congr rfl fun i _ => Finset.sum_congr rfl fun j _ => ?_
  ring

include hV hk in
/-- **C115, metric.** With the full basis of any positive degree and `h = fubiniStudyH`, `metric` is `induced_fs / π`, for
every choice of the dependent coordinate, and both methods report the same dependent coordinate. -/
theorem C115_metric (p : Fin (n + 2)) (z : Fin (n + 1) → ℂ) (dep : Option ℤ) :
    ∃ g d, inducedFs V z params (some (.index p)) none dep = .ok (g, d) ∧
      AlgebraicMetric.metric ⟨V, monomialBasisFull (n + 1) k⟩ (fubiniStudyH (n + 1) k) (List.ofFn z) params (some (p : ℕ)) dep
        none = .ok ((Real.pi : ℂ)⁻¹ • g, (p : ℕ), d) := by
  refine ⟨inducedMetric (fsMetricAt z) (fun k => eval z (pderiv k (dehom p F)))
    (chooseDep (fun k => eval z (pderiv k (dehom p F))) dep) none, chooseDep (fun k => eval z (pderiv k (dehom p F))) dep,
    ?_, ?_⟩
  · unfold inducedFs inducedMetricAt
    rw [hV.grad p z]
  · refine (metric_val (A := ⟨V, monomialBasisFull (n + 1) k⟩) hV _ p z dep).trans ?_
    congr 2
    exact gLoc_fubini k hk p z _

include hV hk in
/-- **C115, weights.** `eta` for `h = fubiniStudyH` is the inverse of `sample_intersect_weights` up to `n!`, at every point
where the derivative in the dependent coordinate does not vanish. -/
theorem C115_weight (p : Fin (n + 2)) (z : Fin (n + 1) → ℂ) (d : Fin (n + 1)) (dep : Option ℤ)
    (hd : eval (affineToHom z (p : ℕ)) (pderiv (p.succAbove d) F) ≠ 0) (hdep : dep = none ∨ dep = some ((d : ℕ) : ℤ)) :
    ∃ (η : ℝ) (w : ℝ), 0 < η ∧ 0 < w ∧
      AlgebraicMetric.eta ⟨V, monomialBasisFull (n + 1) k⟩ (fubiniStudyH (n + 1) k) (List.ofFn z) params (some (p : ℕ)) dep
        none = .ok (η : ℂ) ∧
      weight V z params (some (.index p)) dep (some 1) = .ok w ∧ η * w = 1 / n.factorial := by
  set G := fun k => eval z (pderiv k (dehom p F)) with hG
  have hGd : G d ≠ 0 := by
    simp only [hG, eval_pderiv_dehom]
    exact hd
  obtain ⟨d', hd', hd0⟩ : ∃ d' : Fin (n + 1), chooseDep G dep = ((d' : ℕ) : ℤ) ∧ G d' ≠ 0 := by
    rcases hdep with rfl | rfl
    · exact ⟨_, rfl, argmax_ne hGd⟩
    · exact ⟨d, rfl, hGd⟩
  have hpos := det_induced_pos G z d'
  have hherm : (inducedMetric (fsMetricAt z) G (d' : ℕ) none).det.im = 0 :=
    (Complex.lt_def.1 (C28_posDef (fsMetricAt z) (C22_fs_posDef z) G d').det_pos).2.symm
  have hn : 0 < ‖G d'‖ := norm_pos_iff.2 hd0
  set D := (inducedMetric (fsMetricAt z) G (d' : ℕ) none).det.re with hD
  have hpi := Real.pi_pos
  have hf : (0 : ℝ) < n.factorial := by exact_mod_cast n.factorial_pos
  refine ⟨Real.pi⁻¹ ^ n * D * ‖G d'‖ ^ 2, 1 / (D * (n.factorial / Real.pi ^ n) * ‖G d'‖ ^ 2), by positivity, by positivity,
    ?_, ?_, ?_⟩
  · refine (eta_val (A := ⟨V, monomialBasisFull (n + 1) k⟩) hV _ p z dep).trans ?_
    congr 1
    unfold Graph.eta
    rw [show AlgebraicMetric.degree ⟨V, monomialBasisFull (n + 1) k⟩ = k from rfl]
    rw [gLoc_fubini k hk p z]
    simp only [Donaldson.eta]
    have := hd'
    rw [hG] at this
    simp only [this, Matrix.det_smul, Fintype.card_fin, jget_nat]
    have e1 : (inducedMetric (fsMetricAt z) G (d' : ℕ) none).det = (D : ℂ) := Complex.ext rfl hherm
    simp only [hG] at e1
    rw [e1]
    push_cast
    rfl
  · unfold weight
    rw [hV.grad p z]
    simp only
    rw [weightParts_eq G z dep d' hd' (some 1)]
  · rw [inv_pow]
    field_simp

end Variety

section Sigma

variable {V : HomKind} {ps : List ℂ} {e : ℕ} {F : MvPolynomial (Fin (n + 2)) ℂ}
  (hS : Samplable V (n + 1) e ps) (hF : Hypersurface V (.vec ps) (n + 1) e F) (hsm : SmoothHypersurface F) (he : e ≠ 0)
  (k : ℕ) (hk : k ≠ 0) {o : SymOrder} (ho : o.Valid) {roots : List ℂ → List ℂ} (hr : ExactRoots roots) (count : ℕ)
  (hc : count ≠ 0) (draws : List ((Fin (n + 2) → ℂ) × (Fin (n + 2) → ℂ))) (hdr : draws ≠ [])
  (hd : ∀ x ∈ draws, Admissible F x)

include hS hF hsm he hk ho hr hc hdr hd

/-- **C115, accuracy.** For `h = fubiniStudyH` the accuracy is the mean absolute deviation of the sampling weights, relative
to their mean; it is the same number for every degree of the sections. -/
theorem C115_sigma :
    ∃ (Zs : List (Fin (n + 2) → ℂ)) (w : (Fin (n + 2) → ℂ) → ℝ),
      sampleIntersect V o roots ps count (asLists draws) = .ok (Zs.map List.ofFn) ∧
      (∀ Z ∈ Zs, weight V (homToAffineAuto Z).1 (.vec ps) (some (.index (homToAffineAuto Z).2)) none (some 1) = .ok (w Z)) ∧
      AlgebraicMetric.sigmaAccuracy ⟨V, monomialBasisFull (n + 1) k⟩ (fubiniStudyH (n + 1) k) o roots ps count
        (asLists draws) = .ok ((Zs.map fun Z => |w Z - (Zs.map w).sum / Zs.length|).sum / (Zs.map w).sum) := by
  obtain ⟨Zs, η, w, σ, h1, h2, h3, h4, h5, -⟩ := C110_sigma (A := ⟨V, monomialBasisFull (n + 1) k⟩) hS hF hsm he
    (C105_sections F k).1 hk (fubiniStudyH (n + 1) k) (C115_posDef _ _) ho hr count hc draws hdr hd
  have hf : (0 : ℝ) < n.factorial := by exact_mod_cast n.factorial_pos
  have key : ∀ Z ∈ Zs, η Z * w Z = 1 / n.factorial := by
    intro Z hZ
    obtain ⟨hZ0, hz0, -, -, k1, k2⟩ := h3 Z hZ
    have hp0 : Z (homToAffineAuto Z).2 ≠ 0 := (C17_bounded Z hZ0 0).1
    obtain ⟨-, -, hz⟩ := C17_patch Z
    obtain ⟨d, hd0⟩ := smooth_affine hF.homogeneous Z hz0 (hsm Z hZ0 hz0) _ hp0
    rw [eval_pderiv_dehom, ← hz] at hd0
    obtain ⟨η', w', -, -, e1, e2, e3⟩ := C115_weight hF k hk (homToAffineAuto Z).2 (homToAffineAuto Z).1 d none hd0 (Or.inl rfl)
    have e4 := (C103_homogeneous ⟨V, monomialBasisFull (n + 1) k⟩ hF.dim (fubiniStudyH (n + 1) k) (.vec ps) none none Z).2.2.1
    have e5 : η Z = η' := by exact_mod_cast Except.ok.inj (k1.symm.trans (e4.trans e1))
    have e6 : w Z = w' := Except.ok.inj (k2.symm.trans e2)
    rw [e5, e6, e3]
  refine ⟨Zs, w, h1, fun Z hZ => (h3 Z hZ).2.2.2.2.2, ?_⟩
  rw [h4, h5]
  congr 2
  have hsum : (Zs.map fun Z => η Z * w Z).sum = Zs.length * (1 / n.factorial) := by
    rw [List.map_congr_left key]
    simp
  rw [hsum]
  congr 1
  refine List.map_congr_left fun Z hZ => ?_
  have hw := (h3 Z hZ).2.2.2.1
  have hη : η Z = 1 / (n.factorial * w Z) := by
    rw [eq_div_iff (by positivity), ← mul_assoc, mul_comm (η Z), mul_assoc, key Z hZ]
    field_simp
  have hl : (0 : ℝ) < Zs.length := by exact_mod_cast List.length_pos_of_mem hZ
  rw [hη]
  have e7 : (1 - 1 / (n.factorial * w Z) * (Zs.map w).sum / (Zs.length * (1 / n.factorial))) * w Z =
      w Z - (Zs.map w).sum / Zs.length := by
    field_simp
  rw [← e7, abs_mul, abs_of_pos hw]

end Sigma

/-- The hypotheses of `C115_sigma` hold for the Fermat cubic and one line; those of `C115_weight` at the point
`(1 : -1 : 0)`. -/
example : ∃ (V : HomKind) (F : MvPolynomial (Fin 3) ℂ) (x : (Fin 3 → ℂ) × (Fin 3 → ℂ)),
    Samplable V 2 3 [] ∧ Hypersurface V (.vec []) 2 3 F ∧ SmoothHypersurface F ∧ someOrder.Valid ∧ ExactRoots someRoots ∧
    Admissible F x ∧ eval (affineToHom ![-1, 0] ((0 : Fin 3) : ℕ)) (pderiv ((0 : Fin 3).succAbove 0) F) ≠ 0 := by
  refine ⟨.fermat 3, ∑ j, MvPolynomial.X j ^ (2 + 1), (![1, 0, 0], ![0, 1, 1]), .fermat 2,
    (C114_fermat _).1, (C114_fermat (.vec [])).2, someOrder_valid, someRoots_exact, ⟨?_, ?_⟩, ?_⟩
  · rw [LinearIndependent.pair_iff]
    intro s t h
    have h0 := congrFun h 0
    have h1 := congrFun h 1
    simp at h0 h1
    exact ⟨h0, h1⟩
  · simp [Fin.sum_univ_three]
  · rw [show ((0 : Fin 3).succAbove 0) = 1 from rfl]
    have : affineToHom ![(-1 : ℂ), 0] ((0 : Fin 3) : ℕ) 1 = -1 := affineToHom_succAbove ![(-1 : ℂ), 0] (0 : Fin 3) 0
    simp [Fin.sum_univ_three, MvPolynomial.pderiv_X]
    exact fun h => by simpa using this.symm.trans h

/-- In degree one the matrix is the identity, so `h = 1` on linear sections is the Fubini–Study metric; in degree two the
mixed monomials have coefficient two, and `h = 1` is another metric. -/
example : fubiniStudyH 1 1 = 1 ∧ fubiniStudyH 1 2 ≠ 1 := by
  refine ⟨C115_one 1, fun h => ?_⟩
  have hmem : (fun _ => 1 : Fin 2 → ℕ) ∈ monomialBasis 1 2 := by
    rw [mem_monomialBasis]
    simp
  obtain ⟨a, ha⟩ : ∃ a : Fin (monomialBasisFull 1 2).size, (monomialBasisFull 1 2).powers a = fun _ => 1 :=
    List.get_of_mem hmem
  have h1 : fubiniStudyH 1 2 a a = 1 := by rw [h, Matrix.one_apply_eq]
  rw [fubiniStudyH, Matrix.diagonal_apply_eq, ha] at h1
  have h2 : Nat.multinomial Finset.univ (fun _ => 1 : Fin 2 → ℕ) = 2 := by decide
  rw [h2] at h1
  norm_num at h1

end Cyjax
