import Verif.Model.Variety
import Verif.Spec.Poly
import Verif.Lemmas.Poly
import Verif.Lemmas.PolyOps

/-! # Expansion and substitution of expressions -/

namespace Cyjax.Variety

open Cyjax.Polynomial MvPolynomial

theorem realCoeffs_listSum (l : List (MvPolynomial Sym ℂ)) (h : ∀ p ∈ l, RealCoeffs p) : RealCoeffs l.sum := by
  induction l with
  | nil => exact realCoeffs_zero
  | cons p l ih =>
    rw [List.sum_cons]
    exact (h p (by simp)).add (ih fun q hq => h q (by simp [hq]))

theorem vars_listSum (l : List (MvPolynomial Sym ℂ)) (s : Sym) (h : s ∈ l.sum.vars) : ∃ p ∈ l, s ∈ p.vars := by
  classical
  induction l with
  | nil => simp at h
  | cons p l ih =>
    rw [List.sum_cons] at h
    rcases Finset.mem_union.1 (vars_add_subset _ _ h) with h | h
    · exact ⟨p, by simp, h⟩
    · obtain ⟨q, hq, h⟩ := ih h
      exact ⟨q, by simp [hq], h⟩

theorem vars_listProd (l : List (MvPolynomial Sym ℂ)) (s : Sym) (h : s ∈ l.prod.vars) : ∃ p ∈ l, s ∈ p.vars := by
  classical
  induction l with
  | nil => simp at h
  | cons p l ih =>
    rw [List.prod_cons] at h
    rcases Finset.mem_union.1 (vars_mul _ _ h) with h | h
    · exact ⟨p, by simp, h⟩
    · obtain ⟨q, hq, h⟩ := ih h
      exact ⟨q, by simp [hq], h⟩

mutual
/-- A real expression expands to a real polynomial with the same values. -/
theorem expand_ok : (e : Expr) → e.Real → ∃ p, expand e = some p ∧ RealCoeffs p ∧
    (∀ ρ, eval ρ p = e.value ρ) ∧ ∀ s ∈ p.vars, s ∈ e.symbols
  | .sym s, _ => ⟨X s, by rw [expand], realCoeffs_X s, by simp [Expr.value], by simp [Expr.symbols, vars_X]⟩
  | .int n, _ => ⟨C (n : ℂ), by rw [expand], realCoeffs_C _ (by simp), by simp [Expr.value], fun s hs => by rw [vars_C] at hs; simp at hs⟩
  | .float r, _ => ⟨C (r : ℂ), by rw [expand], realCoeffs_C _ (by simp), by simp [Expr.value], by simp⟩
  | .add args, h => by
    obtain ⟨ps, h1, h2, h3, h4⟩ := expandList_ok args (by rwa [Expr.Real] at h)
    refine ⟨ps.sum, by rw [expand, h1]; rfl, realCoeffs_listSum ps h2, ?_, ?_⟩
    · intro ρ
      rw [Expr.value, ← h3 ρ, map_list_sum]
    · intro s hs
      obtain ⟨p, hp, hs⟩ := vars_listSum ps s hs
      rw [Expr.symbols]
      exact h4 p hp s hs
  | .mul args, h => by
    obtain ⟨ps, h1, h2, h3, h4⟩ := expandList_ok args (by rwa [Expr.Real] at h)
    refine ⟨ps.prod, by rw [expand, h1]; rfl, realCoeffs_listProd ps h2, ?_, ?_⟩
    · intro ρ
      rw [Expr.value, ← h3 ρ, map_list_prod]
    · intro s hs
      obtain ⟨p, hp, hs⟩ := vars_listProd ps s hs
      rw [Expr.symbols]
      exact h4 p hp s hs
  | .pow b n, h => by
    obtain ⟨p, h1, h2, h3, h4⟩ := expand_ok b (by rwa [Expr.Real] at h)
    refine ⟨p ^ n, by rw [expand, h1]; rfl, h2.pow n, ?_, ?_⟩
    · intro ρ
      rw [Expr.value, ← h3 ρ, map_pow]
    · intro s hs
      rw [Expr.symbols]
      exact h4 s (vars_pow _ _ hs)
  | .imagUnit, h => by rw [Expr.Real] at h; exact h.elim
  | .other, h => by rw [Expr.Real] at h; exact h.elim

theorem expandList_ok : (es : List Expr) → Expr.RealList es → ∃ ps, expandList es = some ps ∧
    (∀ p ∈ ps, RealCoeffs p) ∧ (∀ ρ, ps.map (eval ρ) = Expr.values ρ es) ∧
    ∀ p ∈ ps, ∀ s ∈ p.vars, s ∈ Expr.symbolsList es
  | [], _ => ⟨[], by rw [expandList], by simp, by simp [Expr.values], by simp⟩
  | e :: es, h => by
    rw [Expr.RealList] at h
    obtain ⟨p, h1, h2, h3, h4⟩ := expand_ok e h.1
    obtain ⟨ps, g1, g2, g3, g4⟩ := expandList_ok es h.2
    refine ⟨p :: ps, by rw [expandList, h1, g1]; rfl, ?_, ?_, ?_⟩
    · simp only [List.mem_cons, forall_eq_or_imp]
      exact ⟨h2, g2⟩
    · intro ρ
      rw [List.map_cons, h3, g3, Expr.values]
    · simp only [List.mem_cons, forall_eq_or_imp, Expr.symbolsList, List.mem_append]
      exact ⟨fun s hs => Or.inl (h4 s hs), fun q hq s hs => Or.inr (g4 q hq s hs)⟩
end

mutual
theorem subst_real (s : Sym) (v : Expr) (hv : v.Real) : (e : Expr) → e.Real → (Expr.subst s v e).Real
  | .sym t, _ => by
    rw [Expr.subst]
    split_ifs
    · exact hv
    · simp [Expr.Real]
  | .int _, _ => by simp [Expr.subst, Expr.Real]
  | .float _, _ => by simp [Expr.subst, Expr.Real]
  | .imagUnit, h => by rw [Expr.Real] at h; exact h.elim
  | .other, h => by rw [Expr.Real] at h; exact h.elim
  | .add args, h => by
    rw [Expr.subst, Expr.Real]
    exact substList_real s v hv args (by rwa [Expr.Real] at h)
  | .mul args, h => by
    rw [Expr.subst, Expr.Real]
    exact substList_real s v hv args (by rwa [Expr.Real] at h)
  | .pow b n, h => by
    rw [Expr.subst, Expr.Real]
    exact subst_real s v hv b (by rwa [Expr.Real] at h)

theorem substList_real (s : Sym) (v : Expr) (hv : v.Real) :
    (es : List Expr) → Expr.RealList es → Expr.RealList (Expr.substList s v es)
  | [], _ => by simp [Expr.substList, Expr.RealList]
  | e :: es, h => by
    rw [Expr.RealList] at h
    rw [Expr.substList, Expr.RealList]
    exact ⟨subst_real s v hv e h.1, substList_real s v hv es h.2⟩
end

mutual
theorem subst_symbols (s : Sym) (v : Expr) : (e : Expr) → ∀ t ∈ (Expr.subst s v e).symbols,
    (t ∈ e.symbols ∧ t ≠ s) ∨ t ∈ v.symbols
  | .sym u => by
    rw [Expr.subst]
    intro t ht
    split_ifs at ht with h
    · exact Or.inr ht
    · simp only [Expr.symbols, List.mem_singleton] at ht ⊢
      subst ht
      exact Or.inl ⟨rfl, h⟩
  | .int _ => by simp [Expr.subst, Expr.symbols]
  | .float _ => by simp [Expr.subst, Expr.symbols]
  | .imagUnit => by simp [Expr.subst, Expr.symbols]
  | .other => by simp [Expr.subst, Expr.symbols]
  | .add args => by
    rw [Expr.subst, Expr.symbols, Expr.symbols]
    exact substList_symbols s v args
  | .mul args => by
    rw [Expr.subst, Expr.symbols, Expr.symbols]
    exact substList_symbols s v args
  | .pow b n => by
    rw [Expr.subst, Expr.symbols, Expr.symbols]
    exact subst_symbols s v b

theorem substList_symbols (s : Sym) (v : Expr) : (es : List Expr) →
    ∀ t ∈ Expr.symbolsList (Expr.substList s v es), (t ∈ Expr.symbolsList es ∧ t ≠ s) ∨ t ∈ v.symbols
  | [] => by simp [Expr.substList, Expr.symbolsList]
  | e :: es => by
    intro t ht
    rw [Expr.substList, Expr.symbolsList, List.mem_append] at ht
    rw [Expr.symbolsList, List.mem_append]
    rcases ht with ht | ht
    · rcases subst_symbols s v e t ht with ⟨h1, h2⟩ | h
      · exact Or.inl ⟨Or.inl h1, h2⟩
      · exact Or.inr h
    · rcases substList_symbols s v es t ht with ⟨h1, h2⟩ | h
      · exact Or.inl ⟨Or.inr h1, h2⟩
      · exact Or.inr h
end

theorem substSeq_real (items : List (Sym × Expr)) (h : ∀ x ∈ items, x.2.Real) (e : Expr) (he : e.Real) :
    (Expr.substSeq items e).Real := by
  induction items generalizing e with
  | nil => exact he
  | cons x items ih =>
    exact ih (fun y hy => h y (by simp [hy])) _ (subst_real _ _ (h x (by simp)) _ he)

theorem substSeq_symbols (items : List (Sym × Expr)) (N : Sym → Prop)
    (h : ∀ x ∈ items, ∀ t ∈ x.2.symbols, N t) (e : Expr)
    (he : ∀ t ∈ e.symbols, N t ∨ t ∈ items.map Prod.fst) :
    ∀ t ∈ (Expr.substSeq items e).symbols, N t := by
  induction items generalizing e with
  | nil =>
    intro t ht
    simpa using he t ht
  | cons x items ih =>
    refine ih (fun y hy => h y (by simp [hy])) _ fun t ht => ?_
    rcases subst_symbols _ _ _ t ht with ⟨h1, h2⟩ | h1
    · rcases he t h1 with h3 | h3
      · exact Or.inl h3
      · rw [List.map_cons, List.mem_cons] at h3
        exact Or.inr (h3.resolve_left h2)
    · exact Or.inl (h x (by simp) t h1)

theorem numExpr_real (c : ℂ) (h : c.im = 0) : (numExpr c).Real := by
  unfold numExpr
  rw [if_pos h]
  simp [Expr.Real]

end Cyjax.Variety
