import Verif.Spec.Rounding
import Verif.Lemmas.Poly
import Mathlib.Tactic.Positivity
import Mathlib.Tactic.Linarith
import Mathlib.Tactic.NormNum
import Mathlib.Analysis.Complex.Basic

/-! # Propagation of rounding errors -/

namespace Cyjax.Fl

/-- `y` is `x` computed with `k` roundings, where `a` bounds the terms entering `x`. -/
structure Near (ε : ℝ) (k : ℕ) (y x : ℂ) (a : ℝ) : Prop where
  err : ‖y - x‖ ≤ ((1 + ε) ^ k - 1) * a
  size : ‖x‖ ≤ a

variable {ε : ℝ} {k l : ℕ} {y x y' x' : ℂ} {a a' : ℝ}

theorem Near.nonneg (h : Near ε k y x a) : 0 ≤ a := (norm_nonneg _).trans h.size

theorem Near.refl (x : ℂ) : Near ε 0 x x ‖x‖ := ⟨by simp, le_rfl⟩

theorem one_le_growth (hε : 0 ≤ ε) (k : ℕ) : 1 ≤ (1 + ε) ^ k := one_le_pow₀ (by linarith)

theorem Near.mono (hε : 0 ≤ ε) (h : Near ε k y x a) (hkl : k ≤ l) : Near ε l y x a :=
  ⟨h.err.trans (mul_le_mul_of_nonneg_right (by linarith [pow_le_pow_right₀ (show 1 ≤ 1 + ε by linarith) hkl]) h.nonneg), h.size⟩

theorem Near.bound (h : Near ε k y x a) : ‖y‖ ≤ (1 + ε) ^ k * a := by
  calc ‖y‖ = ‖(y - x) + x‖ := by ring_nf
    _ ≤ ‖y - x‖ + ‖x‖ := norm_add_le _ _
    _ ≤ ((1 + ε) ^ k - 1) * a + a := add_le_add h.err h.size
    _ = _ := by ring

theorem Near.add {A : Arith} (hA : A.Accurate ε) (h : Near ε k y x a) (h' : Near ε k y' x' a') :
    Near ε (k + 1) (A.add y y') (x + x') (a + a') := by
  refine ⟨?_, (norm_add_le _ _).trans (add_le_add h.size h'.size)⟩
  have h1 := hA.add y y'
  have h2 : ‖y + y'‖ ≤ (1 + ε) ^ k * (a + a') := by
    rw [mul_add]
    exact (norm_add_le _ _).trans (add_le_add h.bound h'.bound)
  have h3 := mul_le_mul_of_nonneg_left h2 hA.nonneg
  calc ‖A.add y y' - (x + x')‖ = ‖(A.add y y' - (y + y')) + ((y - x) + (y' - x'))‖ := by ring_nf
    _ ≤ ‖A.add y y' - (y + y')‖ + (‖y - x‖ + ‖y' - x'‖) := (norm_add_le _ _).trans (by gcongr; exact norm_add_le _ _)
    _ ≤ ε * ((1 + ε) ^ k * (a + a')) + (((1 + ε) ^ k - 1) * a + ((1 + ε) ^ k - 1) * a') :=
      add_le_add (h1.trans h3) (add_le_add h.err h'.err)
    _ = _ := by ring

theorem Near.mul {A : Arith} (hA : A.Accurate ε) (h : Near ε k y x a) (h' : Near ε l y' x' a') :
    Near ε (k + l + 1) (A.mul y y') (x * x') (a * a') := by
  have ha := h.nonneg
  have ha' := h'.nonneg
  have g := one_le_growth hA.nonneg k
  have g' := one_le_growth hA.nonneg l
  refine ⟨?_, by rw [norm_mul]; exact mul_le_mul h.size h'.size (norm_nonneg _) ha⟩
  have h1 := hA.mul y y'
  have h2 : ‖y * y'‖ ≤ (1 + ε) ^ k * a * ((1 + ε) ^ l * a') := by
    rw [norm_mul]
    exact mul_le_mul h.bound h'.bound (norm_nonneg _) (by positivity)
  have h3 := mul_le_mul_of_nonneg_left h2 hA.nonneg
  have h4 : ‖y * y' - x * x'‖ ≤ ((1 + ε) ^ k * (1 + ε) ^ l - 1) * (a * a') := by
    calc ‖y * y' - x * x'‖ = ‖(y - x) * (y' - x') + (x * (y' - x') + (y - x) * x')‖ := by ring_nf
      _ ≤ ‖y - x‖ * ‖y' - x'‖ + (‖x‖ * ‖y' - x'‖ + ‖y - x‖ * ‖x'‖) := by
        refine (norm_add_le _ _).trans (add_le_add (norm_mul_le _ _) ((norm_add_le _ _).trans ?_))
        exact add_le_add (norm_mul_le _ _) (norm_mul_le _ _)
      _ ≤ ((1 + ε) ^ k - 1) * a * (((1 + ε) ^ l - 1) * a') +
          (a * (((1 + ε) ^ l - 1) * a') + ((1 + ε) ^ k - 1) * a * a') := by
        have e1 : 0 ≤ ((1 + ε) ^ k - 1) * a := (norm_nonneg _).trans h.err
        refine add_le_add (mul_le_mul h.err h'.err (norm_nonneg _) e1) (add_le_add ?_ ?_)
        · exact mul_le_mul h.size h'.err (norm_nonneg _) ha
        · exact mul_le_mul h.err h'.size (norm_nonneg _) e1
      _ = _ := by ring
  calc ‖A.mul y y' - x * x'‖ = ‖(A.mul y y' - y * y') + (y * y' - x * x')‖ := by ring_nf
    _ ≤ _ := norm_add_le _ _
    _ ≤ ε * ((1 + ε) ^ k * a * ((1 + ε) ^ l * a')) + ((1 + ε) ^ k * (1 + ε) ^ l - 1) * (a * a') :=
      add_le_add (h1.trans h3) h4
    _ = _ := by ring

theorem Near.const {A : Arith} (hA : A.Accurate ε) (r : ℝ) : Near ε 1 (A.const r) r |r| :=
  ⟨by simpa using hA.const r, by simp⟩

/-! ## Powers -/

theorem intPowLoop_near {A : Arith} (hA : A.Accurate ε) (x0 : ℂ) (a0 : ℝ) (n : ℕ) :
    ∀ (acc : Option ℂ) (x : ℂ) (j m : ℕ), 0 < m → 0 < n →
      (acc = none ∧ j = 0 ∨ ∃ v, acc = some v ∧ 0 < j ∧ Near ε (j * k + (j - 1)) v (x0 ^ j) (a0 ^ j)) →
      Near ε (m * k + (m - 1)) x (x0 ^ m) (a0 ^ m) →
      ∃ v, intPowLoop A.mul acc x n = some v ∧
        Near ε ((j + m * n) * k + (j + m * n - 1)) v (x0 ^ (j + m * n)) (a0 ^ (j + m * n)) := by
  have mulN : ∀ {i j : ℕ} {v w : ℂ}, 0 < i → 0 < j → Near ε (i * k + (i - 1)) v (x0 ^ i) (a0 ^ i) →
      Near ε (j * k + (j - 1)) w (x0 ^ j) (a0 ^ j) →
      Near ε ((i + j) * k + (i + j - 1)) (A.mul v w) (x0 ^ (i + j)) (a0 ^ (i + j)) := by
    intro i j v w hi hj h1 h2
    have := h1.mul hA h2
    rw [← pow_add, ← pow_add] at this
    exact this.mono hA.nonneg (by rw [add_mul]; omega)
  induction n using Nat.strong_induction_on with
  | _ n ih =>
  intro acc x j m hm hn hacc hx
  rw [intPowLoop.eq_def, if_neg hn.ne']
  set acc' : Option ℂ := if n % 2 = 1 then some (accMul A.mul acc x) else acc with hacc'
  have key : (acc' = none ∧ j + m * (n % 2) = 0 ∨ ∃ v, acc' = some v ∧ 0 < j + m * (n % 2) ∧
      Near ε ((j + m * (n % 2)) * k + (j + m * (n % 2) - 1)) v (x0 ^ (j + m * (n % 2))) (a0 ^ (j + m * (n % 2)))) := by
    rcases Nat.mod_two_eq_zero_or_one n with h | h
    · rw [hacc', h]
      simpa using hacc
    · rw [hacc', if_pos h, h]
      right
      rcases hacc with ⟨rfl, rfl⟩ | ⟨v, rfl, hj, hv⟩
      · exact ⟨x, rfl, by omega, by simpa using hx⟩
      · exact ⟨A.mul v x, rfl, by omega, by simpa using mulN hj hm hv hx⟩
  have hdecomp : j + m * n = j + m * (n % 2) + (m + m) * (n / 2) := by
    conv_lhs => rw [← Nat.div_add_mod n 2]
    ring
  show ∃ v, (if n / 2 = 0 then acc' else intPowLoop A.mul acc' (A.mul x x) (n / 2)) = some v ∧ _
  by_cases h0 : n / 2 = 0
  · rw [if_pos h0]
    rcases key with ⟨-, h⟩ | ⟨v, h1, -, h3⟩
    · exfalso
      have : n % 2 = 1 := by omega
      rw [this] at h
      omega
    · refine ⟨v, h1, ?_⟩
      rw [hdecomp, h0]
      simpa using h3
  · rw [if_neg h0, hdecomp]
    exact ih (n / 2) (by omega) acc' _ _ _ (by omega) (by omega) key (mulN hm hm hx hx)

theorem intPow_near {A : Arith} (hA : A.Accurate ε) (h : Near ε k y x a) (n : ℕ) :
    Near ε (n * k + (n - 1)) (intPow A.mul y n) (x ^ n) (a ^ n) := by
  rcases Nat.eq_zero_or_pos n with rfl | hn
  · have : intPow A.mul y 0 = 1 := by simp [intPow, intPowLoop]
    rw [this]
    exact ⟨by simp, by simp⟩
  · obtain ⟨v, h1, h2⟩ := intPowLoop_near (k := k) hA x a n none y 0 1 one_pos hn (.inl ⟨rfl, rfl⟩) (by simpa using h)
    rw [intPow, h1]
    simpa using h2

end Cyjax.Fl

namespace Cyjax.Polynomial

open Cyjax.Fl MvPolynomial

variable {ε : ℝ} {A : Arith}

/-! ## Sums and products -/

theorem pySumF_near {ι : Type*} (hA : A.Accurate ε) (K : ℕ) {ys : List ℂ} {es : List ι} {r : ι → ℕ} {v : ι → ℂ} {b : ι → ℝ}
    (h : List.Forall₂ (fun y e => Near ε (r e) y (v e) (b e)) ys es) (hK : ∀ e ∈ es, r e ≤ K) :
    Near ε (K + es.length) (pySumF A ys) (es.map v).sum (es.map b).sum := by
  have key : ∀ (i : ℕ) (y x : ℂ) (a : ℝ), Near ε (K + i) y x a →
      Near ε (K + i + es.length) (ys.foldl A.add y) (x + (es.map v).sum) (a + (es.map b).sum) := by
    induction h with
    | nil =>
      intro i y x a hy
      simpa using hy
    | @cons y1 e ys es h1 h2 ih =>
      intro i y x a hy
      have hle : r e ≤ K + i := (hK e List.mem_cons_self).trans (Nat.le_add_right _ _)
      have := ih (fun e he => hK e (List.mem_cons_of_mem _ he)) (i + 1) _ _ _ (hy.add hA (h1.mono hA.nonneg hle))
      rw [List.foldl_cons, List.map_cons, List.sum_cons, List.map_cons, List.sum_cons, List.length_cons, ← add_assoc x,
        ← add_assoc a, show K + i + (es.length + 1) = K + (i + 1) + es.length by omega]
      exact this
  have h0 : Near ε (K + 0) 0 0 0 := ⟨by simp, by simp⟩
  simpa [pySumF] using key 0 0 0 0 h0

theorem prodF_near {ι : Type*} (hA : A.Accurate ε) {ys : List ℂ} {es : List ι} {r : ι → ℕ} {v : ι → ℂ} {b : ι → ℝ}
    (h : List.Forall₂ (fun y e => Near ε (r e) y (v e) (b e)) ys es) :
    Near ε ((es.map r).sum + (es.length - 1)) (prodF A ys) (es.map v).prod (es.map b).prod := by
  have key : ∀ {ys : List ℂ} {es : List ι}, List.Forall₂ (fun y e => Near ε (r e) y (v e) (b e)) ys es →
      ∀ (k : ℕ) (y x : ℂ) (a : ℝ), Near ε k y x a → ∃ w, prodLoopF A (some y) ys = some w ∧
      Near ε (k + (es.map r).sum + es.length) w (x * (es.map v).prod) (a * (es.map b).prod) := by
    intro ys es h
    induction h with
    | nil =>
      intro k y x a hy
      exact ⟨y, rfl, by simpa using hy⟩
    | @cons y1 e ys es h1 h2 ih =>
      intro k y x a hy
      obtain ⟨w, hw, hn⟩ := ih _ _ _ _ (hy.mul hA h1)
      refine ⟨w, hw, ?_⟩
      rw [List.map_cons, List.map_cons, List.map_cons, List.prod_cons, List.prod_cons, List.sum_cons, List.length_cons,
        ← mul_assoc x, ← mul_assoc a,
        show k + (r e + (es.map r).sum) + (es.length + 1) = k + r e + 1 + (es.map r).sum + es.length by omega]
      exact hn
  cases h with
  | nil => exact ⟨by simp [prodF, prodLoopF], by simp⟩
  | @cons y1 e ys es h1 h2 =>
    obtain ⟨w, hw, hn⟩ := key h2 _ _ _ _ h1
    have : prodF A (y1 :: ys) = w := by rw [prodF, prodLoopF, hw]
    rw [this]
    simpa using hn

theorem absValues_eq_map (ρ : Sym → ℂ) (es : List Expr) : Expr.absValues ρ es = es.map (Expr.absValue ρ) := by
  induction es with
  | nil => rw [Expr.absValues]; rfl
  | cons e es ih => rw [Expr.absValues, ih]; rfl

theorem sumRoundings_eq (es : List Expr) : Expr.sumRoundings es = (es.map Expr.roundings).sum := by
  induction es with
  | nil => rw [Expr.sumRoundings]; rfl
  | cons e es ih => rw [Expr.sumRoundings, ih]; rfl

theorem roundings_le_max (es : List Expr) : ∀ e ∈ es, e.roundings ≤ Expr.maxRoundings es := by
  induction es with
  | nil => simp
  | cons e es ih =>
    intro e' he
    rw [Expr.maxRoundings]
    rcases List.mem_cons.1 he with rfl | he
    · exact le_max_left _ _
    · exact (ih e' he).trans (le_max_right _ _)

mutual
theorem compileExprF_near (hA : A.Accurate ε) (m : Meta) (hm : m.WF) (ρ : Sym → ℂ) :
    (e : Expr) → e.Real → (∀ s ∈ e.symbols, s ∈ m.allSymbols) →
    ∃ f v, compileExprF A m e = .ok f ∧ f (m.names.zip (m.inputs ρ)) (some (m.paramInput ρ)) = .ok v ∧
      Near ε e.roundings v (e.value ρ) (e.absValue ρ)
  | .sym s, _, hs => by
    obtain ⟨f, h1, h2⟩ := compileSym_ok m hm ρ s (hs s (by simp [Expr.symbols]))
    exact ⟨f, ρ s, by simpa only [compileExprF] using h1, h2, by
      simpa only [Expr.value, Expr.absValue, Expr.roundings] using Near.refl (ρ s)⟩
  | .int n, _, _ => ⟨_, _, by rw [compileExprF], rfl, by
      simpa only [Expr.value, Expr.absValue, Expr.roundings, Complex.ofReal_intCast] using Near.const hA (n : ℝ)⟩
  | .float r, _, _ => ⟨_, _, by rw [compileExprF], rfl, by
      simpa only [Expr.value, Expr.absValue, Expr.roundings] using Near.const hA r⟩
  | .imagUnit, h, _ => by simp [Expr.Real] at h
  | .other, h, _ => by simp [Expr.Real] at h
  | .add args, h, hs => by
    obtain ⟨fs, vs, h1, h2, h3⟩ := compileListF_near hA m hm ρ args (by simpa [Expr.Real] using h)
      (by simpa [Expr.symbols] using hs)
    refine ⟨applyOp (pySumF A) fs, pySumF A vs, by simp only [compileExprF, h1], by simp only [applyOp, h2], ?_⟩
    rw [Expr.value, Expr.absValue, Expr.roundings, values_eq_map, absValues_eq_map]
    exact pySumF_near hA _ h3 (roundings_le_max args)
  | .mul args, h, hs => by
    obtain ⟨fs, vs, h1, h2, h3⟩ := compileListF_near hA m hm ρ args (by simpa [Expr.Real] using h)
      (by simpa [Expr.symbols] using hs)
    refine ⟨applyOp (prodF A) fs, prodF A vs, by simp only [compileExprF, h1], by simp only [applyOp, h2], ?_⟩
    rw [Expr.value, Expr.absValue, Expr.roundings, values_eq_map, absValues_eq_map, sumRoundings_eq]
    exact prodF_near hA h3
  | .pow b n, h, hs => by
    obtain ⟨f, v, h1, h2, h3⟩ := compileExprF_near hA m hm ρ b (by simpa [Expr.Real] using h)
      (by simpa [Expr.symbols] using hs)
    refine ⟨powFnF A f n, intPow A.mul v n, by simp only [compileExprF, h1], by simp only [powFnF, h2], ?_⟩
    simp only [Expr.value, Expr.absValue, Expr.roundings]
    exact intPow_near hA h3 n

theorem compileListF_near (hA : A.Accurate ε) (m : Meta) (hm : m.WF) (ρ : Sym → ℂ) :
    (es : List Expr) → Expr.RealList es → (∀ s ∈ Expr.symbolsList es, s ∈ m.allSymbols) →
    ∃ fs vs, compileListF A m es = .ok fs ∧
      runAll (m.names.zip (m.inputs ρ)) (some (m.paramInput ρ)) fs = .ok vs ∧
      List.Forall₂ (fun v e => Near ε (Expr.roundings e) v (Expr.value ρ e) (Expr.absValue ρ e)) vs es
  | [], _, _ => ⟨[], [], by simp only [compileListF], by simp only [runAll], .nil⟩
  | e :: es, h, hs => by
    rw [Expr.RealList] at h
    rw [Expr.symbolsList] at hs
    obtain ⟨f, v, h1, h2, h3⟩ := compileExprF_near hA m hm ρ e h.1 (fun s hs' => hs s (List.mem_append_left _ hs'))
    obtain ⟨fs, vs, g1, g2, g3⟩ := compileListF_near hA m hm ρ es h.2 (fun s hs' => hs s (List.mem_append_right _ hs'))
    exact ⟨f :: fs, v :: vs, by simp only [compileListF, h1, g1], by simp only [runAll, h2, g2], .cons h3 g3⟩
end

/-! ## The expression of a polynomial -/

theorem powExpr_roundings (s : Sym) (k : ℕ) : (powExpr s k).roundings = k - 1 := by
  unfold powExpr
  split_ifs with h <;> simp [Expr.roundings, h]

theorem powExpr_absValue (ρ : Sym → ℂ) (s : Sym) (k : ℕ) : (powExpr s k).absValue ρ = ‖ρ s‖ ^ k := by
  unfold powExpr
  split_ifs with h <;> simp [Expr.absValue, h]

theorem termExpr_roundings (c : ℂ) (hc : c.im = 0) (m : Sym →₀ ℕ) :
    (termExpr c m).roundings = 1 + m.sum fun _ e => e := by
  have h1 : (numExpr c).roundings = 1 := by rw [numExpr, if_pos hc, Expr.roundings]
  rw [termExpr, Expr.roundings, sumRoundings_eq, List.map_cons, List.sum_cons, h1, List.length_cons, List.length_map,
    Finset.length_toList, List.map_map, Nat.add_sub_cancel, Finsupp.sum, add_assoc]
  congr 1
  have h2 : (m.support.toList.map (Expr.roundings ∘ fun s => powExpr s (m s))).sum = ∑ s ∈ m.support, (m s - 1) := by
    rw [← Finset.sum_map_toList]
    congr 1
    exact List.map_congr_left fun s _ => powExpr_roundings s (m s)
  rw [h2, Finset.card_eq_sum_ones, ← Finset.sum_add_distrib]
  refine Finset.sum_congr rfl fun s hs => ?_
  have := Finsupp.mem_support_iff.1 hs
  omega

theorem termExpr_absValue (ρ : Sym → ℂ) (c : ℂ) (hc : c.im = 0) (m : Sym →₀ ℕ) :
    (termExpr c m).absValue ρ = ‖c‖ * ∏ s ∈ m.support, ‖ρ s‖ ^ m s := by
  have h1 : (numExpr c).absValue ρ = ‖c‖ := by
    rw [numExpr, if_pos hc, Expr.absValue]
    have : c = (c.re : ℂ) := by apply Complex.ext <;> simp [hc]
    rw [this, Complex.norm_real, Complex.ofReal_re, Real.norm_eq_abs]
  rw [termExpr, Expr.absValue, absValues_eq_map, List.map_cons, List.prod_cons, h1, List.map_map, ← Finset.prod_map_toList]
  congr 2
  exact List.map_congr_left fun s _ => powExpr_absValue ρ s (m s)

theorem polyExpr_absValue (ρ : Sym → ℂ) (p : MvPolynomial Sym ℂ) (hr : RealCoeffs p) :
    (polyExpr p).absValue ρ = ∑ m ∈ p.support, ‖coeff m p‖ * ∏ s ∈ m.support, ‖ρ s‖ ^ m s := by
  rw [polyExpr, Expr.absValue, absValues_eq_map, List.map_map, ← Finset.sum_map_toList]
  congr 1
  exact List.map_congr_left fun m _ => termExpr_absValue ρ _ (hr m) m

theorem maxRoundings_le (es : List Expr) (K : ℕ) (h : ∀ e ∈ es, e.roundings ≤ K) : Expr.maxRoundings es ≤ K := by
  induction es with
  | nil => simp [Expr.maxRoundings]
  | cons e es ih =>
    rw [Expr.maxRoundings]
    exact max_le (h e List.mem_cons_self) (ih fun e he => h e (List.mem_cons_of_mem _ he))

theorem polyExpr_roundings (p : MvPolynomial Sym ℂ) (hr : RealCoeffs p) :
    (polyExpr p).roundings ≤ p.support.card + p.totalDegree + 1 := by
  rw [polyExpr, Expr.roundings, List.length_map, Finset.length_toList]
  have := maxRoundings_le (p.support.toList.map fun m => termExpr (coeff m p) m) (1 + p.totalDegree) (by
    intro e he
    obtain ⟨m, hm, rfl⟩ := List.mem_map.1 he
    rw [termExpr_roundings _ (hr m)]
    exact Nat.add_le_add_left (le_totalDegree (Finset.mem_toList.1 hm)) 1)
  omega

/-! ## Exact arithmetic -/

theorem intPowLoop_exact (n : ℕ) : ∀ (acc : Option ℂ) (x : ℂ), 0 < n →
    intPowLoop (· * ·) acc x n = some (acc.getD 1 * x ^ n) := by
  induction n using Nat.strong_induction_on with
  | _ n ih =>
  intro acc x hn
  rw [intPowLoop.eq_def, if_neg hn.ne']
  have hx : x ^ n = x ^ (n % 2) * (x * x) ^ (n / 2) := by
    rw [← pow_two, ← pow_mul, ← pow_add, Nat.mod_add_div]
  simp only
  by_cases h0 : n / 2 = 0
  · have h1 : n % 2 = 1 := by omega
    rw [if_pos h0, if_pos h1, hx, h1, h0]
    cases acc <;> simp [accMul]
  · rw [if_neg h0, ih (n / 2) (by omega) _ _ (by omega), hx]
    rcases Nat.mod_two_eq_zero_or_one n with h | h
    · rw [if_neg (by omega), h]
      simp
    · rw [if_pos h, h]
      cases acc <;> simp [mul_assoc, accMul]

theorem intPow_exact (x : ℂ) (n : ℕ) : intPow (· * ·) x n = x ^ n := by
  rcases Nat.eq_zero_or_pos n with rfl | hn
  · simp [intPow, intPowLoop]
  · rw [intPow, intPowLoop_exact n none x hn]
    simp

theorem prodLoopF_exact (o : Option ℂ) (l : List ℂ) : prodLoopF exact o l = Util.prodLoop o l := by
  induction l generalizing o with
  | nil => cases o <;> rfl
  | cons a l ih =>
    cases o with
    | none => rw [prodLoopF, Util.prodLoop, ih]
    | some p => rw [prodLoopF, Util.prodLoop, ih]; rfl

theorem prodF_exact : prodF exact = Util.prod := by
  funext l
  rw [prodF, Util.prod, prodLoopF_exact]
  cases Util.prodLoop none l <;> rfl

theorem powFnF_exact (f : Fn) (n : ℕ) : powFnF exact f n = powFn f n := by
  funext var par
  rw [powFnF, powFn]
  cases f var par with
  | error e => rfl
  | ok x =>
    show Except.ok (intPow (· * ·) x n) = _
    rw [intPow_exact]

mutual
theorem compileExprF_exact (m : Meta) : (e : Expr) → compileExprF exact m e = compileExpr m e
  | .sym s => by rw [compileExprF, compileExpr]
  | .int n => by simp [compileExprF, compileExpr, exact]
  | .float n => by simp [compileExprF, compileExpr, exact]
  | .imagUnit => by rw [compileExprF, compileExpr]
  | .other => by rw [compileExprF, compileExpr]
  | .add args => by
    rw [compileExprF, compileExpr, compileListF_exact m args]
    rfl
  | .mul args => by
    rw [compileExprF, compileExpr, compileListF_exact m args, prodF_exact]
    rfl
  | .pow b n => by
    rw [compileExprF, compileExpr, compileExprF_exact m b]
    cases compileExpr m b with
    | error e => rfl
    | ok f => simp only [powFnF_exact]

theorem compileListF_exact (m : Meta) : (es : List Expr) → compileListF exact m es = compileList m es
  | [] => by rw [compileListF, compileList]
  | e :: es => by rw [compileListF, compileList, compileExprF_exact m e, compileListF_exact m es]; rfl
end

theorem callNumF_exact (m : Meta) (e : Expr) (args : List Val) (kwargs : List (List Char × Val)) :
    callNumF exact m e args kwargs = callNum m e args kwargs := by
  unfold callNumF callNum evalNumF evalNum
  rw [compileExprF_exact]
  rfl

end Cyjax.Polynomial
