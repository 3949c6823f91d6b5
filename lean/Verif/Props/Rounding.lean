import Verif.Lemmas.RoundingOps
import Verif.Props.PolyOps

/-! # C159: rounding errors of polynomial evaluation -/

namespace Cyjax

open Cyjax.Polynomial Cyjax.Fl MvPolynomial

/-- **C159.** In any arithmetic whose operations have relative error at most `ε`, evaluating an expression with `r` roundings
(`Expr.roundings`) gives its value up to `((1 + ε)^r - 1)` times the value of the expression with absolute values. -/
theorem C159_expression (A : Arith) (ε : ℝ) (hA : A.Accurate ε) (m : Meta) (hm : m.WF) (e : Expr) (he : e.Real)
    (hs : ∀ s ∈ e.symbols, s ∈ m.allSymbols) (ρ : Sym → ℂ) (args : List Val) (kwargs : List (List Char × Val))
    (hb : sortVarArgs Val.len m.names m.params.length args kwargs = .ok (m.inputs ρ, some (.vec (m.paramInput ρ)))) :
    ∃ v, callNumF A m e args kwargs = .ok v ∧ ‖v - e.value ρ‖ ≤ ((1 + ε) ^ e.roundings - 1) * e.absValue ρ := by
  obtain ⟨f, v, h1, h2, h3⟩ := compileExprF_near hA m hm ρ e he hs
  refine ⟨v, ?_, h3.err⟩
  unfold callNumF evalNumF
  rw [hb, h1]
  exact h2

/-- **C159.** For a polynomial with `N` terms and degree `D` the number of roundings is at most `N + D + 1`, and the scale of
the error is the sum of the absolute values of its terms. -/
theorem C159_poly (A : Arith) (ε : ℝ) (hA : A.Accurate ε) (P : PolyObj) (hm : P.md.WF) (hd : P.Declared)
    (hr : RealCoeffs P.poly) (ρ : Sym → ℂ) :
    ∃ v, P.callF A (P.md.inputs ρ ++ [.vec (P.md.paramInput ρ)]) [] = .ok v ∧
      ‖v - eval ρ P.poly‖ ≤ ((1 + ε) ^ (P.poly.support.card + P.poly.totalDegree + 1) - 1) *
        ∑ m ∈ P.poly.support, ‖coeff m P.poly‖ * ∏ s ∈ m.support, ‖ρ s‖ ^ m s := by
  obtain ⟨v, h1, h2⟩ := C159_expression A ε hA P.md hm (polyExpr P.poly) ((polyExpr_real _).2 hr)
    (fun s hs => hd s (polyExpr_symbols _ s hs)) ρ (P.md.inputs ρ ++ [.vec (P.md.paramInput ρ)]) []
    (C38_binding_positional _ _ _ _ (by simp [Meta.inputs, Meta.names]) _ (by simp [Val.len, Meta.paramInput]) [] rfl)
  refine ⟨v, h1, ?_⟩
  rw [polyExpr_value, polyExpr_absValue ρ _ hr] at h2
  refine h2.trans (mul_le_mul_of_nonneg_right ?_ (by positivity))
  exact sub_le_sub_right (pow_le_pow_right₀ (by linarith [hA.nonneg]) (polyExpr_roundings _ hr)) 1

/-- **C159.** With exact arithmetic the program is the one of C39. -/
theorem C159_exact (P : PolyObj) (args : List Val) (kwargs : List (List Char × Val)) :
    P.callF Fl.exact args kwargs = P.call args kwargs := callNumF_exact _ _ _ _

/-- **C159.** Complex arithmetic on numbers with `p` binary digits: results of real operations are such numbers, and all
operations have relative error at most `4 * 2^(-p)`. -/
theorem C159_floats (p : ℕ) (hp : 1 ≤ p) :
    (∀ x, IsFloat p (rnd p x)) ∧ (ofRounding (rnd p)).Accurate (4 * 2 ^ (-(p : ℤ))) := by
  refine ⟨rnd_isFloat p, ofRounding_accurate _ _ (by positivity) ?_ (rnd_isRounding p)⟩
  rw [zpow_neg, zpow_natCast, ← one_div]
  refine one_div_le_one_div_of_le two_pos ?_
  calc (2 : ℝ) = 2 ^ 1 := by norm_num
    _ ≤ 2 ^ p := pow_le_pow_right₀ (by norm_num) hp

/-- **C159.** With `p` binary digits (24 in single, 53 in double precision) the error of evaluating a polynomial with `N` terms
and degree `D` is at most `(N + D + 1) * 2^(3 - p)` times the sum of the absolute values of its terms, as long as
`N + D + 1` is not more than `2^(p - 2)`. -/
theorem C159_binary (p : ℕ) (hp : 2 ≤ p) (P : PolyObj) (hm : P.md.WF) (hd : P.Declared) (hr : RealCoeffs P.poly)
    (hN : P.poly.support.card + P.poly.totalDegree + 1 ≤ 2 ^ (p - 2)) (ρ : Sym → ℂ) :
    ∃ v, P.callF (ofRounding (rnd p)) (P.md.inputs ρ ++ [.vec (P.md.paramInput ρ)]) [] = .ok v ∧
      ‖v - eval ρ P.poly‖ ≤ (P.poly.support.card + P.poly.totalDegree + 1 : ℕ) * 2 ^ (3 - (p : ℤ)) *
        ∑ m ∈ P.poly.support, ‖coeff m P.poly‖ * ∏ s ∈ m.support, ‖ρ s‖ ^ m s := by
  obtain ⟨v, h1, h2⟩ := C159_poly _ _ (C159_floats p (by omega)).2 P hm hd hr ρ
  refine ⟨v, h1, h2.trans (mul_le_mul_of_nonneg_right ?_ (by positivity))⟩
  set k := P.poly.support.card + P.poly.totalDegree + 1
  have e4 : (4 : ℝ) * 2 ^ (-(p : ℤ)) = 2 ^ (2 - (p : ℤ)) := by
    rw [show (2 : ℤ) - p = 2 + -(p : ℤ) by ring, zpow_add₀ two_ne_zero]
    norm_num
  rw [e4]
  have hk : (k : ℝ) * 2 ^ (2 - (p : ℤ)) ≤ 1 := by
    have h : (k : ℝ) ≤ 2 ^ (p - 2) := by exact_mod_cast hN
    calc (k : ℝ) * 2 ^ (2 - (p : ℤ)) ≤ 2 ^ (p - 2) * 2 ^ (2 - (p : ℤ)) := by gcongr
      _ = 1 := by
        rw [← zpow_natCast, Nat.cast_sub hp, ← zpow_add₀ two_ne_zero]
        simp
  refine (growth_le _ (by positivity) k hk).trans (le_of_eq ?_)
  rw [show (3 : ℤ) - p = (2 - p) + 1 by ring, zpow_add_one₀ two_ne_zero]
  ring

/-- Double precision, `psi * z5**2 + 3`: two terms. -/
example (ρ : Sym → ℂ) : ∃ v, examplePoly.callF (ofRounding (rnd 53))
    (examplePoly.md.inputs ρ ++ [.vec (examplePoly.md.paramInput ρ)]) [] = .ok v := by
  obtain ⟨v, h, -⟩ := C159_poly _ _ (C159_floats 53 (by norm_num)).2 examplePoly exampleMeta_wf examplePoly_declared
    examplePoly_real ρ
  exact ⟨v, h⟩

/-- Rounding to two digits: five becomes six, three stays. -/
example : rnd 2 5 = 6 ∧ rnd 2 3 = 3 := by
  have h5 : Int.log 2 |(5 : ℝ)| = 2 := by
    rw [abs_of_pos (by norm_num), show (5 : ℝ) = ((5 : ℕ) : ℝ) by norm_num, Int.log_natCast,
      (Nat.log_eq_iff (by norm_num)).2 (show 2 ^ 2 ≤ 5 ∧ 5 < 2 ^ (2 + 1) by norm_num)]
    rfl
  have h3 : Int.log 2 |(3 : ℝ)| = 1 := by
    rw [abs_of_pos (by norm_num), show (3 : ℝ) = ((3 : ℕ) : ℝ) by norm_num, Int.log_natCast,
      (Nat.log_eq_iff (by norm_num)).2 (show 2 ^ 1 ≤ 3 ∧ 3 < 2 ^ (1 + 1) by norm_num)]
    rfl
  constructor
  · rw [rnd, if_neg (by norm_num), h5]
    norm_num [round_eq]
  · rw [rnd, if_neg (by norm_num), h3]
    norm_num [round_eq]

end Cyjax
