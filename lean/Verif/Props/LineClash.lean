import Verif.Lemmas.LineClash

/-! # Property C32 when a parameter has the name of a symbol used for the lines -/

namespace Cyjax

open Cyjax.Polynomial Cyjax.Variety MvPolynomial

/-- C32 does not hold without the condition on names, and nothing is raised: for `p_0*z0 + z1 = 0` with parameter `p_0`, a
proper homogeneous polynomial, the point returned for a line through independent `p` and `q` is off the variety for every
value of the parameter other than the coordinate `p[0]` that was drawn. -/
theorem C32_silent_violated (o : SymOrder) (ho : o.Valid) (roots : List ℂ → List ℂ) (hr : ExactRoots roots)
    (c p0 p1 q0 q1 : ℂ) (hc : c ≠ p0) (hpq : p0 * q1 ≠ p1 * q0) (hq : p0 * q0 + q1 ≠ 0) :
    Proper clashPoly "z".toList 1 ∧ HomogeneousIn clashPoly.poly "z".toList 1 1 ∧
    ∃ z, sampleIntersect (.generic clashPoly) o roots [c] 1 [([p0, p1], [q0, q1])] = .ok [z] ∧
      ∃ v ≠ 0, defining (.generic clashPoly) z (.vec [c]) none = .ok v := by
  obtain ⟨x, h1, h2⟩ := clash_sample ho hr c p0 p1 q0 q1 hq
  refine ⟨clash_proper, clash_homogeneous, _, h1, c * (p0 + x * q0) + (p1 + x * q1), ?_, clash_defining _ _ _⟩
  intro h0
  have hz : (c - p0) * (p0 + x * q0) = 0 := by linear_combination h0 - h2
  rcases mul_eq_zero.1 hz with h | h
  · exact hc (sub_eq_zero.1 h)
  · have h3 : p1 + x * q1 = 0 := by rw [h] at h2; linear_combination h2
    exact hpq (by linear_combination q1 * h - q0 * h3)

/-- The line through `(1, 0)` in direction `(0, 1)`, the parameter being `5`. -/
example : (5 : ℂ) ≠ 1 ∧ (1 : ℂ) * 1 ≠ 0 * 0 ∧ (1 : ℂ) * 0 + 1 ≠ 0 := by norm_num

end Cyjax
