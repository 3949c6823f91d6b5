import Verif.Lemmas.RoundingSections
import Verif.Props.Rounding
import Verif.Props.Sections

/-! # C160: rounding errors of sections -/

namespace Cyjax

open Cyjax.Donaldson Cyjax.Projective Cyjax.Fl

/-- **C160.** With precomputed powers (the default) the relative error of every section of degree `k` in `n` affine coordinates is
at most `(1 + ε)^(k + n - 1) - 1`, in whatever order the product is taken. -/
theorem C160_index (A : Arith) (ε : ℝ) (hA : A.Accurate ε) {n N : ℕ} (t : RTree (Fin n)) (ht : t.Covers) (zs : Fin n → ℂ)
    (p : Fin (n + 1)) (pows : Fin N → Fin (n + 1) → ℕ) (deg : ℕ) (hpow : ∀ a, ∑ i, pows a i = deg) (a : Fin N) :
    ‖monomialsIndexF A t zs (p : ℕ) pows deg a - ∏ i, affineToHom zs (p : ℕ) i ^ pows a i‖ ≤
      ((1 + ε) ^ (deg + n - 1) - 1) * ‖∏ i, affineToHom zs (p : ℕ) i ^ pows a i‖ := by
  have hle : ∀ i, pows a i ≤ deg := fun i => by
    rw [← hpow a]
    exact Finset.single_le_sum (f := fun i => pows a i) (fun _ _ => Nat.zero_le _) (Finset.mem_univ i)
  have hpos := t.leaves_pos
  rw [ht.length] at hpos
  have h := t.near_mul hA (y := fun i => gather (getPowsF A (zs i) deg) (pows a (p.succAbove i)))
    fun i => gather_near hA (zs i) deg (pows a (p.succAbove i)) (hle _)
  rw [ht.prod, ht.prod, ht.sum, ht.length] at h
  have hsum : ∑ i, pows a (p.succAbove i) ≤ deg := by
    rw [← hpow a, Fin.sum_univ_succAbove _ p]
    exact Nat.le_add_left _ _
  have h2 := (h.mono hA.nonneg (show _ ≤ deg + n - 1 by omega)).err
  have e1 : ∏ i, affineToHom zs (p : ℕ) i ^ pows a i = ∏ i, zs i ^ pows a (p.succAbove i) := by
    rw [Fin.prod_univ_succAbove _ p, affineToHom_same, one_pow, one_mul]
    simp only [affineToHom_succAbove]
  rw [e1, norm_prod]
  simp only [norm_pow]
  unfold monomialsIndexF
  simp only [Util.pop_snd]
  exact h2

/-- **C160.** Without precomputed powers the exponential of the rounded logarithms has a relative error that also grows with the
logarithms of the coordinates. -/
theorem C160_log (A : Arith) (F : Funs) (ε : ℝ) (hA : A.Accurate ε) (hF : F.Accurate ε) {n N : ℕ} (t : RTree (Fin n))
    (ht : t.Covers) (zs : Fin n → ℂ) (hz : ∀ i, zs i ≠ 0) (p : Fin (n + 1)) (pows : Fin N → Fin (n + 1) → ℕ) (a : Fin N) :
    ‖monomialsLogF A F t zs (p : ℕ) pows a - ∏ i, affineToHom zs (p : ℕ) i ^ pows a i‖ ≤
      ((1 + ε) * Real.exp (((1 + ε) ^ (t.depth + 2) - 1) * ∑ i, pows a (p.succAbove i) * (1 + ‖Complex.log (zs i)‖)) - 1) *
        ‖∏ i, affineToHom zs (p : ℕ) i ^ pows a i‖ := by
  obtain ⟨σ, hσ, h1, h2⟩ := roll_patch p
  have hn : ∀ i, Near ε 2 (A.mul (pows a (p.succAbove (σ i)) : ℂ) (F.log (zs (σ i))))
      ((pows a (p.succAbove (σ i)) : ℂ) * Complex.log (zs (σ i)))
      (pows a (p.succAbove (σ i)) * (1 + ‖Complex.log (zs (σ i))‖)) := by
    intro i
    have e1 : Near ε 0 (pows a (p.succAbove (σ i)) : ℂ) (pows a (p.succAbove (σ i)) : ℂ) (pows a (p.succAbove (σ i)) : ℝ) :=
      ⟨by simp, by simp⟩
    have e2 : Near ε 1 (F.log (zs (σ i))) (Complex.log (zs (σ i))) (1 + ‖Complex.log (zs (σ i))‖) :=
      ⟨by simpa using hF.log _ (hz (σ i)), by linarith [norm_nonneg (Complex.log (zs (σ i)))]⟩
    exact e1.mul hA e2
  have h3 := (t.near_add hA hn).err
  rw [ht.sum, ht.sum, hσ.sum_comp fun i => (pows a (p.succAbove i) : ℂ) * Complex.log (zs i),
    hσ.sum_comp fun i => (pows a (p.succAbove i) : ℝ) * (1 + ‖Complex.log (zs i)‖), add_comm 2] at h3
  have h4 := exp_near hA.nonneg hF _ _ _ h3
  have e1 : ∏ i, affineToHom zs (p : ℕ) i ^ pows a i = Complex.exp (∑ i, (pows a (p.succAbove i) : ℂ) * Complex.log (zs i)) := by
    rw [Fin.prod_univ_succAbove _ p, affineToHom_same, one_pow, one_mul, Complex.exp_sum]
    refine Finset.prod_congr rfl fun i _ => ?_
    rw [affineToHom_succAbove, Complex.exp_nat_mul, Complex.exp_log (hz i)]
  rw [e1]
  unfold monomialsLogF
  simp only [h1, h2]
  exact h4

/-- **C160.** In exact arithmetic both programs are those of C60, whatever the order. -/
theorem C160_exact {n N : ℕ} (t : RTree (Fin n)) (ht : t.Covers) (zs : Fin n → ℂ) (patch : ℤ)
    (pows : Fin N → Fin (n + 1) → ℕ) (deg : ℕ) :
    monomialsIndexF Fl.exact t zs patch pows deg = monomialsIndex zs patch pows deg ∧
    monomialsLogF Fl.exact exactFuns t zs patch pows = monomialsLog zs patch pows := by
  have hs : ∀ (zi : ℂ) (len : ℕ) (z : ℂ), powScanF Fl.exact zi z len = powScan zi z len := by
    intro zi len
    induction len with
    | zero => intro z; rfl
    | succ len ih =>
      intro z
      rw [powScanF, powScan, ih]
      rfl
  constructor
  · funext a
    unfold monomialsIndexF monomialsIndex getPowsF getPows
    simp only [hs]
    exact (RTree.eval_mul t _).trans (ht.prod _)
  · funext a
    unfold monomialsLogF monomialsLog
    simp only [exactFuns]
    congr 1
    exact (RTree.eval_add t _).trans (ht.sum _)

/-- A loop over three coordinates, and a balanced order of four. -/
example : (RTree.node (.node (.leaf (0 : Fin 3)) (.leaf 1)) (.leaf 2)).Covers ∧
    (RTree.node (.node (.leaf (0 : Fin 4)) (.leaf 2)) (.node (.leaf 1) (.leaf 3))).Covers ∧
    (RTree.node (.node (.leaf (0 : Fin 4)) (.leaf 2)) (.node (.leaf 1) (.leaf 3))).depth = 2 := by
  refine ⟨?_, ?_, rfl⟩ <;> unfold RTree.Covers <;> decide

/-- Sections of degree three on the projective plane in double precision: the relative error is at most `(1 + 2^(-51))^4 - 1`. -/
example (zs : Fin 2 → ℂ) (a : Fin (monomialBasisFull 2 3).size) :
    ‖monomialsIndexF (ofRounding (rnd 53)) (.node (.leaf 0) (.leaf 1)) zs (1 : Fin 3) (monomialBasisFull 2 3).powers 3 a -
        ∏ i, affineToHom zs (1 : Fin 3) i ^ (monomialBasisFull 2 3).powers a i‖ ≤
      ((1 + 4 * 2 ^ (-(53 : ℤ))) ^ 4 - 1) * ‖∏ i, affineToHom zs (1 : Fin 3) i ^ (monomialBasisFull 2 3).powers a i‖ :=
  C160_index _ _ (C159_floats 53 (by norm_num)).2 (.node (.leaf 0) (.leaf 1)) (by unfold RTree.Covers; decide) zs 1 _ 3
    (fun a => (mem_monomialBasis _ _ _).1 (List.get_mem _ _)) a

/-- Accurate functions exist: the exact ones. -/
example (ε : ℝ) (h : 0 ≤ ε) : exactFuns.Accurate ε :=
  ⟨fun z => by simp [exactFuns]; positivity, fun z _ => by simp [exactFuns]; positivity⟩

end Cyjax
