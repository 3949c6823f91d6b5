import Verif.Model.RoundingProjective
import Verif.Lemmas.RoundingAccuracy
import Verif.Lemmas.Projective
import Verif.Lemmas.Argmax
import Mathlib.Analysis.SpecialFunctions.Complex.LogBounds

/-! # Rounded functions on projective space -/

namespace Cyjax.Projective

open Cyjax.Util Cyjax.Fl

variable {ε G : ℝ} {A : Arith} {D : DivAbs}

theorem homToAffineF_apply {n : ℕ} (h : Fin (n + 1) → ℂ) (p : Fin (n + 1)) (k : Fin n) :
    homToAffineF D h (p : ℕ) k = D.div (h (p.succAbove k)) (h p) := by
  unfold homToAffineF
  simp only [pop_snd, pop_fst]

theorem changeChartF_eq {n : ℕ} (z : Fin (n + 1) → ℂ) (p q : Fin (n + 2)) (hpq : p ≠ q) :
    changeChartF D z (p : ℕ) (q : ℕ) = homToAffineF D (affineToHom z (p : ℕ)) (q : ℕ) := by
  obtain ⟨j, hj, hj'⟩ := exists_affine_index p q hpq
  obtain ⟨i, hi, hi'⟩ := exists_affine_index q p hpq.symm
  unfold changeChartF
  simp only [← hj', ← hi', pop_fst, pop_snd]
  rw [insert1d_insertNth _ _ i]
  funext k
  rw [homToAffineF_apply]
  have hq : affineToHom z (p : ℕ) q = z j := by rw [← hj, affineToHom_succAbove]
  rw [hq]
  rcases eq_or_ne k i with rfl | hk
  · rw [Fin.insertNth_apply_same, hi, affineToHom_same]
  · obtain ⟨l, rfl⟩ := Fin.exists_succAbove_eq hk
    rw [Fin.insertNth_apply_succAbove]
    congr 1
    have h2 : q.succAbove (i.succAbove l) = p.succAbove (j.succAbove l) := by
      clear hq hj hi
      apply Fin.ext
      have hpn := p.2; have hqn := q.2; have hln := l.2
      have hi2 : ((i : ℕ) : ℤ) = ((p : ℕ) : ℤ) - (if ((q : ℕ) : ℤ) < (p : ℕ) then 1 else 0) := hi'
      have hne : (p : ℕ) ≠ q := fun h => hpq (Fin.ext h)
      simp only [Fin.succAbove, Fin.lt_def, Fin.val_castSucc]
      split_ifs at * <;> simp at * <;> omega
    rw [h2, affineToHom_succAbove]

/-- The sum of the squares. -/
theorem sumsq_near (hA : A.Accurate ε) {n : ℕ} (t : RTree (Fin n)) (ht : t.Covers) (z : Fin n → ℂ) :
    NearG ((1 + ε) ^ (t.depth + 1)) (t.eval A.add fun k => A.mul (z k) (conjArr z k)) ((∑ k, ‖z k‖ ^ 2 : ℝ) : ℂ)
      (∑ k, ‖z k‖ ^ 2) := by
  have h : ∀ k, NearG (1 + ε) (A.mul (z k) (conjArr z k)) ((‖z k‖ ^ 2 : ℝ) : ℂ) (‖z k‖ ^ 2) := fun k => by
    have := (NearG.refl (z k)).mul hA (NearG.refl (conjArr z k))
    have e : z k * conjArr z k = ((‖z k‖ ^ 2 : ℝ) : ℂ) := by
      rw [← Complex.normSq_eq_norm_sq]; exact Complex.mul_conj _
    have e' : ‖conjArr z k‖ = ‖z k‖ := Complex.norm_conj _
    rw [e, e', mul_one, mul_one, ← sq] at this
    exact this
  have := t.nearG_add hA h
  rw [ht.sum, ht.sum, ← pow_succ] at this
  convert this using 1
  push_cast
  rfl

theorem norm2p1F_near (hA : A.Accurate ε) {n : ℕ} (t : RTree (Fin n)) (ht : t.Covers) (z : Fin n → ℂ) :
    NearG ((1 + ε) ^ (t.depth + 2)) (norm2p1F A t z (conjArr z)) ((1 + ∑ k, ‖z k‖ ^ 2 : ℝ) : ℂ) (1 + ∑ k, ‖z k‖ ^ 2) := by
  have h := sumsq_near hA t ht z
  have := ((NearG.refl (1 : ℂ)).mono h.one_le).add hA h
  rw [norm_one, ← pow_succ'] at this
  unfold norm2p1F
  push_cast at this ⊢
  exact this

theorem norm2p1_exact {n : ℕ} (z : Fin n → ℂ) : (1 + ∑ k, z k * conjArr z k : ℂ) = ((1 + ∑ k, ‖z k‖ ^ 2 : ℝ) : ℂ) := by
  push_cast
  congr 1
  refine Finset.sum_congr rfl fun k _ => ?_
  rw [← Complex.ofReal_pow, ← Complex.normSq_eq_norm_sq]
  exact Complex.mul_conj _

/-- The logarithm of a positive number with a relative error. -/
theorem log_near {F : Funs} (h0 : 0 ≤ ε) (hF : F.Accurate ε) {y : ℂ} {x : ℝ} (hx : 0 < x) (h : NearG G y (x : ℂ) x)
    (hG : G ≤ 3 / 2) : ‖F.log y - Complex.log (x : ℂ)‖ ≤ ε * (1 + |Real.log x|) + (1 + ε) * (3 / 2 * (G - 1)) := by
  have hx' : (x : ℂ) ≠ 0 := by exact_mod_cast hx.ne'
  have hθ : ‖y / x - 1‖ ≤ G - 1 := by
    rw [show y / (x : ℂ) - 1 = (y - x) / x by field_simp, norm_div, Complex.norm_real, Real.norm_of_nonneg hx.le,
      div_le_iff₀ hx]
    exact h.err
  have hle : ‖y / x - 1‖ ≤ 1 / 2 := hθ.trans (by linarith)
  have hl := Complex.norm_log_one_add_half_le_self hle
  rw [show 1 + (y / (x : ℂ) - 1) = y / x by ring] at hl
  have hne : y / (x : ℂ) ≠ 0 := by
    intro hc
    rw [hc] at hle
    norm_num at hle
  have hy : y ≠ 0 := fun hc => hne (by rw [hc, zero_div])
  have e : Complex.log y = (Real.log x : ℝ) + Complex.log (y / x) := by
    rw [← Complex.log_ofReal_mul hx hne]
    congr 1
    field_simp
  have e2 : ‖Complex.log y - Complex.log (x : ℂ)‖ ≤ 3 / 2 * (G - 1) := by
    rw [e, ← Complex.ofReal_log hx.le, add_sub_cancel_left]
    linarith
  have e3 : ‖Complex.log y‖ ≤ |Real.log x| + 3 / 2 * (G - 1) := by
    rw [e]
    refine (norm_add_le _ _).trans (add_le_add (by rw [Complex.norm_real, Real.norm_eq_abs]) (by linarith))
  have h1 := (hF.log y hy).trans (mul_le_mul_of_nonneg_left (add_le_add_right e3 1) h0)
  calc ‖F.log y - Complex.log (x : ℂ)‖ = ‖(F.log y - Complex.log y) + (Complex.log y - Complex.log (x : ℂ))‖ := by ring_nf
    _ ≤ ‖F.log y - Complex.log y‖ + ‖Complex.log y - Complex.log (x : ℂ)‖ := norm_add_le _ _
    _ ≤ ε * (1 + (|Real.log x| + 3 / 2 * (G - 1))) + 3 / 2 * (G - 1) := add_le_add h1 e2
    _ = _ := by ring

theorem intPow_two (mul : ℂ → ℂ → ℂ) (x : ℂ) : intPow mul x 2 = mul x x := by
  have h : intPowLoop mul none x 2 = some (mul x x) := by
    rw [intPowLoop.eq_def]
    norm_num
    rw [intPowLoop.eq_def]
    norm_num [accMul]
  unfold intPow
  rw [h]

end Cyjax.Projective
