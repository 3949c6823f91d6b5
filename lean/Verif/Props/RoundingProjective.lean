import Verif.Lemmas.RoundingProjective
import Verif.Props.RoundingAccuracy
import Verif.Props.Projective

/-! # C162: projective coordinates and the Fubini-Study metric in rounded arithmetic -/

namespace Cyjax

open Cyjax.Projective Cyjax.Fl

/-- **C162.** With rounded absolute values the largest one is chosen up to rounding: no entry exceeds the chosen one by more than
the factor `(1 + u) / (1 - u)`, and it is non-zero unless all are. This holds for the patch of a point and for the dependent
coordinate, where `v` is the gradient of the defining polynomial. -/
theorem C162_argmax (D : DivAbs) (u : ℝ) (h1 : u < 1) (hD : D.Accurate u) {n : ℕ} (v : Fin (n + 1) → ℂ) :
    (∀ i, ‖v i‖ ≤ (1 + u) / (1 - u) * ‖v (argmax fun i => D.abs (v i))‖) ∧
      (v ≠ 0 → v (argmax fun i => D.abs (v i)) ≠ 0) := by
  set p := argmax fun i => D.abs (v i) with hp
  have hm : ∀ i, D.abs (v i) ≤ D.abs (v p) := (argmax_spec fun i => D.abs (v i)).1
  have h2 : ∀ i, ‖v i‖ ≤ (1 + u) / (1 - u) * ‖v p‖ := by
    intro i
    have e1 := abs_le.1 (hD.abs (v i))
    have e2 := abs_le.1 (hD.abs (v p))
    rw [div_mul_eq_mul_div, le_div_iff₀ (by linarith)]
    nlinarith [hm i]
  refine ⟨h2, fun hv hc => hv ?_⟩
  funext i
  have := h2 i
  rw [hc, norm_zero, mul_zero] at this
  simpa using this

/-- **C162.** `hom_to_affine` without a patch: the coordinates are bounded by `(1 + u)^2 / (1 - u)`, and going back to homogeneous
coordinates gives the original point, up to a common factor and a relative error `u` in every coordinate. -/
theorem C162_affine (D : DivAbs) (u : ℝ) (h0 : 0 ≤ u) (h1 : u < 1) (hD : D.Accurate u) {n : ℕ} (hom : Fin (n + 1) → ℂ) (hne : hom ≠ 0) :
    (∀ k, ‖(homToAffineAutoF D hom).1 k‖ ≤ (1 + u) ^ 2 / (1 - u)) ∧
    ∃ c : ℂ, c ≠ 0 ∧ ∀ i, RelErr u (c * affineToHom (homToAffineAutoF D hom).1 ((homToAffineAutoF D hom).2 : ℕ) i) (hom i) := by
  have hp : (homToAffineAutoF D hom).2 = argmax fun i => D.abs (hom i) := rfl
  have hz : (homToAffineAutoF D hom).1 = homToAffineF D hom ((homToAffineAutoF D hom).2 : ℕ) := rfl
  obtain ⟨hb, hn⟩ := C162_argmax D u h1 hD hom
  rw [← hp] at hb hn
  set p := (homToAffineAutoF D hom).2
  have hpn := hn hne
  have hpos : 0 < ‖hom p‖ := norm_pos_iff.2 hpn
  have h1' : 0 < 1 - u := by linarith
  rw [hz]
  refine ⟨fun k => ?_, hom p, hpn, fun i => ?_⟩
  · rw [homToAffineF_apply]
    have e := hD.div (hom (p.succAbove k)) (hom p) hpn
    have e2 : ‖hom (p.succAbove k) / hom p‖ ≤ (1 + u) / (1 - u) := by
      rw [norm_div, div_le_iff₀ hpos]
      exact hb _
    have e3 := norm_sub_norm_le (D.div (hom (p.succAbove k)) (hom p)) (hom (p.succAbove k) / hom p)
    calc ‖D.div (hom (p.succAbove k)) (hom p)‖ ≤ (1 + u) * ‖hom (p.succAbove k) / hom p‖ := by linarith
      _ ≤ (1 + u) * ((1 + u) / (1 - u)) := mul_le_mul_of_nonneg_left e2 (by linarith)
      _ = _ := by ring
  · unfold RelErr
    rcases eq_or_ne i p with rfl | hi
    · rw [affineToHom_same, mul_one, sub_self, norm_zero]
      positivity
    · obtain ⟨k, rfl⟩ := Fin.exists_succAbove_eq hi
      rw [affineToHom_succAbove, homToAffineF_apply]
      have e := hD.div (hom (p.succAbove k)) (hom p) hpn
      calc ‖hom p * D.div (hom (p.succAbove k)) (hom p) - hom (p.succAbove k)‖
          = ‖hom p * (D.div (hom (p.succAbove k)) (hom p) - hom (p.succAbove k) / hom p)‖ := by
            congr 1
            rw [mul_sub, mul_div_cancel₀ _ hpn]
        _ ≤ ‖hom p‖ * (u * ‖hom (p.succAbove k) / hom p‖) := by
            rw [norm_mul]
            exact mul_le_mul_of_nonneg_left e (norm_nonneg _)
        _ = u * ‖hom (p.succAbove k)‖ := by rw [norm_div]; field_simp

/-- **C162.** A change of charts computes every new coordinate with relative error `u`. -/
theorem C162_chart (D : DivAbs) (u : ℝ) (hD : D.Accurate u) {n : ℕ} (z : Fin (n + 1) → ℂ) (p q : Fin (n + 2)) (hpq : p ≠ q)
    (hq : affineToHom z (p : ℕ) q ≠ 0) (k : Fin (n + 1)) :
    RelErr u (changeChartF D z (p : ℕ) (q : ℕ) k) (affineToHom z (p : ℕ) (q.succAbove k) / affineToHom z (p : ℕ) q) := by
  rw [changeChartF_eq z p q hpq, homToAffineF_apply]
  exact hD.div _ _ hq

/-- **C162.** Every entry of the Fubini-Study metric has an error of `G - 1` times its two terms, with
`G = (1 + ε)^(d + 5) / (2 - (1 + ε)^(2 d + 5))` and `d` the depth of the sum. -/
theorem C162_metric (A : Arith) (D : DivAbs) (ε : ℝ) (hA : A.Accurate ε) (hD : D.Accurate ε) {n : ℕ} (t : RTree (Fin n))
    (ht : t.Covers) (z : Fin n → ℂ) (hε : (1 + ε) ^ (2 * t.depth + 5) < 2) (i j : Fin n) :
    ‖fsMetricAtF A D t z i j - fsMetricAt z i j‖ ≤ ((1 + ε) ^ (t.depth + 5) / (2 - (1 + ε) ^ (2 * t.depth + 5)) - 1) *
      (((if i = j then 1 else 0) * (1 + ∑ k, ‖z k‖ ^ 2) + ‖z i‖ * ‖z j‖) / (1 + ∑ k, ‖z k‖ ^ 2) ^ 2) := by
  have hN := norm2p1F_near hA t ht z
  have hx := norm2p1_exact z
  set N := norm2p1F A t z (conjArr z) with hNdef
  set s : ℝ := 1 + ∑ k, ‖z k‖ ^ 2 with hs
  have hpos : 0 < s := by positivity
  have hd : NearG 1 (if i = j then (1 : ℂ) else 0) (if i = j then 1 else 0) (if i = j then 1 else 0) :=
    ⟨by simp, by split_ifs <;> simp, le_rfl⟩
  have h1 := hd.mul hA hN
  have h2 := ((NearG.refl (conjArr z i)).mul hA (NearG.refl (z j))).neg
  have hc : ‖conjArr z i‖ = ‖z i‖ := Complex.norm_conj _
  rw [hc] at h2
  have h3 := h1.add hA (h2.mono (by rw [mul_one, mul_one, one_mul]; nlinarith [hN.one_le, hA.nonneg]))
  have h4 := hN.mul hA hN
  have e4 : ‖((s : ℂ) * (s : ℂ))‖ = s * s := by rw [norm_mul, Complex.norm_real, Real.norm_of_nonneg hpos.le]
  rw [← e4] at h4
  have hs0 : (s : ℂ) * (s : ℂ) ≠ 0 := by
    have : (s : ℂ) ≠ 0 := by exact_mod_cast hpos.ne'
    exact mul_ne_zero this this
  have e5 : (1 + ε) * ((1 + ε) ^ (t.depth + 2) * (1 + ε) ^ (t.depth + 2)) = (1 + ε) ^ (2 * t.depth + 5) := by ring
  rw [e5] at h4
  have h5 := (h3.div hA.nonneg hD h4 hs0 hε).err
  unfold fsMetricAtF fsMetricF fsMetricAt fsMetric
  simp only [hx, ← hNdef, intPow_two]
  rw [e4, ← sq, ← sq, ← sub_eq_add_neg] at h5
  refine h5.trans (le_of_eq ?_)
  congr 2
  rw [mul_div_assoc']
  congr 1
  ring

/-- **C162.** The potential has an absolute error of `ε (1 + |K|)` and of about the number of roundings in its argument. -/
theorem C162_potential (A : Arith) (F : Funs) (ε : ℝ) (hA : A.Accurate ε) (hF : F.Accurate ε) {n : ℕ} (t : RTree (Fin n))
    (ht : t.Covers) (z : Fin n → ℂ) (hε : (1 + ε) ^ (t.depth + 2) ≤ 3 / 2) :
    ‖fsPotentialAtF A F t z false - fsPotentialAt z false‖ ≤
        ε * (1 + ‖fsPotentialAt z false‖) + (1 + ε) * (3 / 2 * ((1 + ε) ^ (t.depth + 2) - 1)) ∧
    (z ≠ 0 → ‖fsPotentialAtF A F t z true - fsPotentialAt z true‖ ≤
        ε * (1 + ‖fsPotentialAt z true‖) + (1 + ε) * (3 / 2 * ((1 + ε) ^ (t.depth + 1) - 1))) := by
  constructor
  · have hpos : 0 < 1 + ∑ k, ‖z k‖ ^ 2 := by positivity
    have h := log_near hA.nonneg hF hpos (norm2p1F_near hA t ht z) hε
    have e : fsPotentialAt z false = ((Real.log (1 + ∑ k, ‖z k‖ ^ 2) : ℝ) : ℂ) := by
      simp only [fsPotentialAt, fsPotential, norm2p1_exact, Complex.ofReal_log hpos.le]
      rfl
    rw [e, Complex.norm_real, Real.norm_eq_abs]
    rw [← Complex.ofReal_log hpos.le] at h
    exact h
  · intro hz
    have hpos : 0 < ∑ k, ‖z k‖ ^ 2 := by
      obtain ⟨k, hk⟩ := Function.ne_iff.1 hz
      refine Finset.sum_pos' (fun _ _ => by positivity) ⟨k, Finset.mem_univ _, ?_⟩
      have : 0 < ‖z k‖ := norm_pos_iff.2 hk
      positivity
    have h := log_near hA.nonneg hF hpos (sumsq_near hA t ht z)
      ((pow_le_pow_right₀ (by linarith [hA.nonneg]) (by omega)).trans hε)
    have ex : (∑ k, z k * conjArr z k : ℂ) = ((∑ k, ‖z k‖ ^ 2 : ℝ) : ℂ) := by
      have := norm2p1_exact z
      push_cast at this ⊢
      exact add_left_cancel this
    have e : fsPotentialAt z true = ((Real.log (∑ k, ‖z k‖ ^ 2) : ℝ) : ℂ) := by
      simp only [fsPotentialAt, fsPotentialHom, ex, Complex.ofReal_log hpos.le]
      rfl
    rw [e, Complex.norm_real, Real.norm_eq_abs]
    rw [← Complex.ofReal_log hpos.le] at h
    exact h

/-- **C162.** With exact operations these are the programs of C16, C17, C19, C22 and C24. -/
theorem C162_exact {n : ℕ} (t : RTree (Fin n)) (ht : t.Covers) (z : Fin n → ℂ) (hom : Fin (n + 1) → ℂ) (b : Bool) (patch old : ℤ) :
    homToAffineAutoF exactDivAbs hom = homToAffineAuto hom ∧ homToAffineF exactDivAbs hom patch = homToAffine hom patch ∧
    changeChartF exactDivAbs hom old patch = changeChart hom old patch ∧
    fsMetricAtF Fl.exact exactDivAbs t z = fsMetricAt z ∧ fsPotentialAtF Fl.exact exactFuns t z b = fsPotentialAt z b := by
  have hs : (t.eval Fl.exact.add fun k => Fl.exact.mul (z k) (conjArr z k)) = ∑ k, z k * conjArr z k :=
    (RTree.eval_add t _).trans (ht.sum _)
  refine ⟨rfl, rfl, rfl, ?_, ?_⟩
  · funext i j
    unfold fsMetricAtF fsMetricF fsMetricAt fsMetric norm2p1F
    simp only [hs, intPow_two, sq, sub_eq_add_neg]
    rfl
  · unfold fsPotentialAtF fsPotentialAt norm2p1F
    rw [hs]
    rfl

/-- The metric of the projective plane in double precision. -/
example (z : Fin 2 → ℂ) (i j : Fin 2) :
    ‖fsMetricAtF (ofRounding (rnd 53)) (divAbsOfRounding (rnd 53)) (.node (.leaf 0) (.leaf 1)) z i j - fsMetricAt z i j‖ ≤
      ((1 + 4 * 2 ^ (-(53 : ℤ))) ^ 6 / (2 - (1 + 4 * 2 ^ (-(53 : ℤ))) ^ 7) - 1) *
        (((if i = j then 1 else 0) * (1 + ∑ k, ‖z k‖ ^ 2) + ‖z i‖ * ‖z j‖) / (1 + ∑ k, ‖z k‖ ^ 2) ^ 2) :=
  C162_metric _ _ _ (C159_floats 53 (by norm_num)).2 (C161_floats 53) (.node (.leaf 0) (.leaf 1))
    (by unfold RTree.Covers; decide) z (by norm_num [RTree.depth, zpow_neg]) i j

/-- Near ties the patch may differ from the exact one, but not by much. -/
example (v : Fin 3 → ℂ) (i : Fin 3) : ‖v i‖ ≤ (1 + 4 * 2 ^ (-(24 : ℤ))) / (1 - 4 * 2 ^ (-(24 : ℤ))) *
    ‖v (argmax fun i => (divAbsOfRounding (rnd 24)).abs (v i))‖ :=
  (C162_argmax _ _ (by norm_num [zpow_neg]) (C161_floats 24) v).1 i

end Cyjax
