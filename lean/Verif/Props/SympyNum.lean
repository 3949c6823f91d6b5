import Verif.Spec.SympyNum
import Verif.Lemmas.RoundingLoss

/-! # C187: numbers in polynomials keep their value -/

namespace Cyjax

open Cyjax.Polynomial Cyjax.Fl

/-- **C187.** Every real number is converted to a python number with that value, up to one rounding. -/
theorem C187_value (fl : ℝ → ℝ) (u : ℝ) (hu : 0 ≤ u) (hfl : IsRounding fl u) (s : SNum) (hs : s.value.im = 0) :
    ∃ v, sympyEvalNum fl s = .ok v ∧ ‖v.value - s.value‖ ≤ u * ‖s.value‖ := by
  have real : ∀ r : ℝ, ‖((fl r : ℝ) : ℂ) - r‖ ≤ u * ‖(r : ℂ)‖ := fun r => by
    rw [← Complex.ofReal_sub, Complex.norm_real, Complex.norm_real]
    exact hfl r
  cases s with
  | zero => exact ⟨_, rfl, by simp [PyNum.value, SNum.value]⟩
  | one => exact ⟨_, rfl, by simpa [PyNum.value, SNum.value] using hu⟩
  | negOne => exact ⟨_, rfl, by simpa [PyNum.value, SNum.value] using real (-1)⟩
  | half => exact ⟨_, rfl, by simpa [PyNum.value, SNum.value] using real (1 / 2)⟩
  | integer n => exact ⟨_, rfl, by simpa [PyNum.value, SNum.value] using mul_nonneg hu (norm_nonneg (n : ℂ))⟩
  | rational q => exact ⟨_, rfl, by simpa only [PyNum.value, SNum.value, Complex.ofReal_ratCast] using real (q : ℝ)⟩
  | float x => exact ⟨_, rfl, real x⟩
  | constant x => exact ⟨_, rfl, real x⟩
  | imaginaryUnit => simp [SNum.value] at hs
  | compound z =>
    have hz : z.im = 0 := hs
    refine ⟨.float (fl z.re), by simp [sympyEvalNum, pyFloat, hz], ?_⟩
    have e : z = (z.re : ℂ) := Complex.ext rfl (by simp [hz])
    have := real z.re
    rw [← e] at this
    exact this

/-- **C187.** Rational numbers: every number with `p` binary digits is converted exactly to precision `p`. -/
theorem C187_exact (p : ℕ) (hp : 0 < p) (s : SNum) (x : ℝ) (hs : s.value = x) (hx : IsFloat p x) :
    ∃ v, sympyEvalNum (rnd p) s = .ok v ∧ v.value = x := by
  have h := rnd_of_isFloat p hp hx
  have cast : ∀ y : ℝ, (y : ℂ) = x → ((rnd p y : ℝ) : ℂ) = x := fun y hy => by
    rw [Complex.ofReal_injective hy, h]
  cases s with
  | zero => exact ⟨_, rfl, by rw [← hs]; simp [PyNum.value, SNum.value]⟩
  | one => exact ⟨_, rfl, by rw [← hs]; simp [PyNum.value, SNum.value]⟩
  | negOne => exact ⟨_, rfl, cast _ (by rw [← hs]; simp [SNum.value])⟩
  | half => exact ⟨_, rfl, cast _ (by rw [← hs]; simp [SNum.value])⟩
  | integer n => exact ⟨_, rfl, hs⟩
  | rational q => exact ⟨_, rfl, cast _ (by rw [← hs]; simp [SNum.value])⟩
  | float y => exact ⟨_, rfl, cast _ hs⟩
  | constant y => exact ⟨_, rfl, cast _ hs⟩
  | imaginaryUnit => exact absurd (congrArg Complex.im hs) (by simp [SNum.value])
  | compound z =>
    have hz : z = x := hs
    refine ⟨.float (rnd p z.re), by simp [sympyEvalNum, pyFloat, hz], cast _ ?_⟩
    rw [hz, Complex.ofReal_re]

/-- **C187.** The classes of sympy stand for the numbers they are made from. -/
theorem C187_classes (n : ℤ) (q : ℚ) : (sympyInt n).value = n ∧ (sympyRational q).value = q := by
  have hi : ∀ n : ℤ, (sympyInt n).value = n := fun n => by
    unfold sympyInt
    split_ifs with h0 h1 h2 <;> simp_all [SNum.value]
  refine ⟨hi n, ?_⟩
  unfold sympyRational
  split_ifs with h1 h2
  · rw [hi]
    conv_rhs => rw [← Rat.coe_int_num_of_den_eq_one h1]
    rw [Rat.cast_intCast]
  · rw [h2, SNum.value]
    norm_num
  · rfl

/-- **C187.** Integers of any size, except minus one, stay integers: no rounding. -/
theorem C187_integer_partial (fl : ℝ → ℝ) (n : ℤ) (hn : n ≠ -1) : sympyEvalNum fl (sympyInt n) = .ok (.int n) := by
  unfold sympyInt
  split_ifs with h0 h1 <;> simp_all [sympyEvalNum]

/-- **C187, violated.** Minus one becomes a float: its class is neither `Integer` nor `One` nor `Zero`. -/
theorem C187_violated (fl : ℝ → ℝ) : sympyEvalNum fl (sympyInt (-1)) = .ok (.float (fl (-1))) ∧
    ∀ n : ℤ, sympyEvalNum fl (sympyInt (-1)) ≠ .ok (.int n) := by
  have h : sympyEvalNum fl (sympyInt (-1)) = .ok (.float (fl (-1))) := by simp [sympyInt, sympyEvalNum, pyFloat]
  exact ⟨h, fun n => by rw [h]; simp⟩

/-- **C187.** The imaginary unit becomes `1j`, every other number that is not real raises a `TypeError`. -/
theorem C187_nonreal (fl : ℝ → ℝ) (s : SNum) (hs : s.value.im ≠ 0) :
    sympyEvalNum fl s = .ok (.complex Complex.I) ∧ s = .imaginaryUnit ∨ sympyEvalNum fl s = .error .typeError := by
  cases s with
  | imaginaryUnit => exact .inl ⟨rfl, rfl⟩
  | compound z =>
    have hz : z.im ≠ 0 := hs
    exact .inr (by simp [sympyEvalNum, pyFloat, hz])
  | rational q => exact absurd (by rw [SNum.value, ← Complex.ofReal_ratCast, Complex.ofReal_im]) hs
  | half => exact absurd (by rw [SNum.value, show (1 / 2 : ℂ) = ((1 / 2 : ℝ) : ℂ) by simp, Complex.ofReal_im]) hs
  | _ => simp [SNum.value] at hs

/-- **C187.** Exponents are integers, so that powers are repeated products and not exponentials of logarithms. -/
theorem C187_power (fl : ℝ → ℝ) (f : Fn) (n : ℕ) : powNode fl f (sympyInt n) = .ok (powFn f n) := by
  rw [powNode, C187_integer_partial fl n (by omega)]
  simp only [pyPow, zpow_natCast]
  rfl

private theorem addCoeffs_ok (fl : ℝ → ℝ) (params : List Sym) : ∀ (fs : List Factor) (c : PyNum) (ps : List Sym),
    (∀ s ∈ Factor.params fs, s ∈ params) → Factor.numbers fs = [] →
      addCoeffs fl params c ps fs = .ok (c, ps ++ Factor.params fs)
  | [], c, ps, _, _ => by simp [addCoeffs, Factor.params]
  | .num v :: fs, c, ps, _, h => by simp [Factor.numbers] at h
  | .sym s :: fs, c, ps, hp, h => by
    rw [addCoeffs, if_pos (hp s (by simp [Factor.params])),
      addCoeffs_ok fl params fs c (ps ++ [s]) (fun t ht => hp t (by simp [Factor.params, ht])) h]
    simp [Factor.params]

private theorem addCoeffs_one (fl : ℝ → ℝ) (params : List Sym) (v : SNum) (w : PyNum) (hw : sympyEvalNum fl v = .ok w) :
    ∀ (fs : List Factor) (c : PyNum) (ps : List Sym), (∀ s ∈ Factor.params fs, s ∈ params) → Factor.numbers fs = [v] →
      addCoeffs fl params c ps fs = .ok (w, ps ++ Factor.params fs)
  | [], c, ps, _, h => by simp [Factor.numbers] at h
  | .num v' :: fs, c, ps, hp, h => by
    simp only [Factor.numbers, List.cons.injEq] at h
    rw [addCoeffs, h.1, hw, Factor.params]
    exact addCoeffs_ok fl params fs w ps (fun t ht => hp t (by simpa [Factor.params] using ht)) h.2
  | .sym s :: fs, c, ps, hp, h => by
    rw [addCoeffs, if_pos (hp s (by simp [Factor.params])),
      addCoeffs_one fl params v w hw fs c (ps ++ [s]) (fun t ht => hp t (by simp [Factor.params, ht])) h]
    simp [Factor.params]

private theorem prod_factors (ρ : Sym → ℂ) : ∀ fs : List Factor,
    (fs.map (Factor.value ρ)).prod = ((Factor.numbers fs).map SNum.value).prod * ((Factor.params fs).map ρ).prod
  | [] => by simp [Factor.numbers, Factor.params]
  | .sym s :: fs => by
    rw [List.map_cons, List.prod_cons, prod_factors ρ fs, Factor.value, Factor.numbers, Factor.params, List.map_cons,
      List.prod_cons]
    ring
  | .num v :: fs => by
    rw [List.map_cons, List.prod_cons, prod_factors ρ fs, Factor.value, Factor.numbers, Factor.params, List.map_cons,
      List.prod_cons]
    ring

/-- **C187.** A coefficient with at most one number among its factors is split into its number, up to one rounding, and its
parameters. -/
theorem C187_coefficient_partial (fl : ℝ → ℝ) (u : ℝ) (hu : 0 ≤ u) (hfl : IsRounding fl u) (params : List Sym)
    (fs : List Factor) (hp : ∀ s ∈ Factor.params fs, s ∈ params) (h1 : (Factor.numbers fs).length ≤ 1)
    (hr : ∀ v ∈ Factor.numbers fs, v.value.im = 0) (ρ : Sym → ℂ) :
    ∃ c ps, termCoeff fl params fs = .ok (c, ps) ∧
      ‖c.value * (ps.map ρ).prod - (fs.map (Factor.value ρ)).prod‖ ≤ u * ‖(fs.map (Factor.value ρ)).prod‖ := by
  rw [prod_factors]
  match hn : Factor.numbers fs with
  | [] =>
    refine ⟨_, _, by rw [termCoeff, addCoeffs_ok fl params fs _ _ hp hn, List.nil_append], ?_⟩
    simpa [PyNum.value] using mul_nonneg hu (norm_nonneg _)
  | [v] =>
    obtain ⟨w, h2, h3⟩ := C187_value fl u hu hfl v (hr v (by simp [hn]))
    refine ⟨_, _, by rw [termCoeff, addCoeffs_one fl params v w h2 fs _ _ hp hn, List.nil_append], ?_⟩
    rw [List.map_singleton, List.prod_singleton, ← sub_mul, norm_mul, norm_mul, ← mul_assoc]
    exact mul_le_mul_of_nonneg_right h3 (norm_nonneg _)
  | _ :: _ :: _ => simp [hn] at h1

/-- **C187, violated.** With two numbers among the factors, as in `2*I`, only the last one is kept. -/
theorem C187_coefficient_violated (fl : ℝ → ℝ) : ∃ fs : List Factor, ∀ params ρ,
    termCoeff fl params fs = .ok (.complex Complex.I, []) ∧ (fs.map (Factor.value ρ)).prod = 2 * Complex.I :=
  ⟨[.num (sympyInt 2), .num .imaginaryUnit], fun params ρ => by
    simp [termCoeff, addCoeffs, sympyInt, sympyEvalNum, Factor.value, SNum.value]⟩

/-- In double precision `1/3 * psi` becomes a number within `2^(-53)` of one third, with parameter `psi`. -/
example (ρ : Sym → ℂ) : ∃ c ps, termCoeff (rnd 53) ["psi".toList] [.num (sympyRational (1 / 3)), .sym "psi".toList] = .ok (c, ps) ∧
    ‖c.value * (ps.map ρ).prod - 1 / 3 * ρ "psi".toList‖ ≤ 2 ^ (-(53 : ℤ)) * ‖1 / 3 * ρ "psi".toList‖ := by
  have e : sympyRational (1 / 3) = .rational (1 / 3) := by
    rw [sympyRational, if_neg (by norm_num), if_neg (by norm_num)]
  obtain ⟨c, ps, h, h'⟩ := C187_coefficient_partial (rnd 53) (2 ^ (-((53 : ℕ) : ℤ))) (by positivity) (rnd_isRounding 53) ["psi".toList]
    [.num (sympyRational (1 / 3)), .sym "psi".toList] (by simp [Factor.params]) (by simp [Factor.numbers])
    (by
      intro v hv
      simp only [Factor.numbers, List.mem_singleton] at hv
      rw [hv, e, SNum.value, ← Complex.ofReal_ratCast, Complex.ofReal_im]) ρ
  refine ⟨c, ps, h, ?_⟩
  rw [e] at h'
  simpa [Factor.value, SNum.value] using h'

/-- `3 + I` is not converted; one half is exact. -/
example : sympyEvalNum (rnd 53) (.compound (3 + Complex.I)) = .error .typeError ∧
    ∃ v, sympyEvalNum (rnd 53) (sympyRational (1 / 2)) = .ok v ∧ v.value = ((1 / 2 : ℝ) : ℂ) := by
  refine ⟨?_, C187_exact 53 (by norm_num) _ (1 / 2) ?_ ⟨1, -1, by norm_num, by norm_num⟩⟩
  · simpa using C187_nonreal (rnd 53) (.compound (3 + Complex.I)) (by simp [SNum.value])
  · rw [sympyRational, if_neg (by norm_num), if_pos rfl, SNum.value]
    norm_num

end Cyjax
