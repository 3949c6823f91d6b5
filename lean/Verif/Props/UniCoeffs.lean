import Verif.Lemmas.UniCoeffs
import Verif.Props.PolyOps

/-! # Property C47, with the calls of `Poly.from_sympy` -/

namespace Cyjax

open Cyjax.Polynomial MvPolynomial

/-- `free` lists the free symbols of an expression, each once, in some order. -/
def ListsSymbols (free : MvPolynomial Sym ℂ → List Sym) : Prop :=
  ∀ p, (free p).Nodup ∧ ∀ s, s ∈ free p ↔ s ∈ p.vars

/-- C47: going through `Poly.from_sympy` with arrays of symbols, as the code does, gives the same results and the same
errors as writing down the coefficient polynomials: nothing is renamed, dropped or reordered. -/
theorem C47_from_sympy (free : MvPolynomial Sym ℂ → List Sym) (hfree : ListsSymbols free) (P : PolyObj) (x : Sym)
    (hm : P.md.WF) (hd : P.Declared) (hk : paramsKey ∉ P.md.names) (hp : ∀ s ∈ P.md.params, IsOther P.md.names s) :
    univariateCoefficientsCode free P x = univariateCoefficients P x := by
  unfold univariateCoefficientsCode univariateCoefficients
  by_cases hx : x ∈ P.md.params
  · rw [if_pos hx, if_pos hx]
  rw [if_neg hx, if_neg hx]
  by_cases hne : (constMeta P.md x).vars = []
  · have harr : constArrays P.md x = [] := by
      have h := constArrays_describes P.md.vars x hm.good
      have h0 : P.md.vars.filterMap (dropSym x) = [] := hne
      rw [h0] at h
      exact List.forall₂_nil_right_iff.1 h
    by_cases hex : ∃ k ≤ degreeOf x P.poly, (uniCoeff P.poly x k).vars ≠ ∅
    · rw [if_pos ⟨hne, hex⟩]
      obtain ⟨k, hk1, hk2⟩ := hex
      refine mapM_error _ _ ?_ k (by simpa [Nat.lt_succ_iff] using hk1) ?_
      · intro j
        unfold uniEntry
        simp only
        split_ifs with h
        · exact Or.inl ⟨_, rfl⟩
        · right
          simp [fromSympyArrays, harr, Except.map]
      · unfold uniEntry
        simp only
        rw [if_neg hk2]
        simp [fromSympyArrays, harr, Except.map]
    · rw [if_neg (fun h => hex h.2)]
      refine mapM_ok _ _ _ fun k hk => ?_
      unfold uniEntry
      simp only
      push Not at hex
      have h0 := hex k (by simpa [Nat.lt_succ_iff] using hk)
      rw [if_pos h0, if_pos h0]
  · rw [if_neg (fun h => hne h.1)]
    refine mapM_ok _ _ _ fun k hk' => ?_
    unfold uniEntry
    simp only
    split_ifs with h
    · rfl
    · rw [fromSympyArrays_const hm hd hk hp hne k (hfree _).1 (hfree _).2]
      rfl

/-- C47 for the code path, provided another variable is left. -/
theorem C47_code_partial (free : MvPolynomial Sym ℂ → List Sym) (hfree : ListsSymbols free) (P : PolyObj) (x : Sym)
    (hm : P.md.WF) (hd : P.Declared) (hk : paramsKey ∉ P.md.names) (hp : ∀ s ∈ P.md.params, IsOther P.md.names s)
    (hx : x ∉ P.md.params) (hx' : ∃ s ∈ P.md.varSyms, s ≠ x) (hr : RealCoeffs P.poly) :
    ∃ cs, univariateCoefficientsCode free P x = .ok cs ∧ cs.length = degreeOf x P.poly + 1 ∧
      ∀ ρ : Sym → ℂ, ∃ vals : List ℂ, List.Forall₂ (fun u v => u.callAt ρ = .ok v) cs vals ∧
        (∀ t, List.Forall₂ (fun u v => u.callAt (Function.update ρ x t) = .ok v) cs vals) ∧
        P.callAt ρ = .ok (polyval vals (ρ x)) := by
  rw [C47_from_sympy free hfree P x hm hd hk hp]
  exact C47_univariate_partial P x hx hx' hm hd hr

/-- The symbols of a polynomial can be listed. -/
theorem listsSymbols_exists : ∃ free, ListsSymbols free :=
  ⟨fun p => p.vars.toList, fun p => ⟨p.vars.nodup_toList, fun _ => Finset.mem_toList⟩⟩

/-- The hypotheses hold for `examplePoly` and the symbol `z5`. -/
example : ∃ free, ListsSymbols free ∧ ∃ cs,
    univariateCoefficientsCode free examplePoly (mergeSubscript "z".toList 5) = .ok cs := by
  obtain ⟨free, hfree⟩ := listsSymbols_exists
  refine ⟨free, hfree, ?_⟩
  obtain ⟨cs, h, -⟩ := C47_code_partial free hfree examplePoly (mergeSubscript "z".toList 5) exampleMeta_wf
    examplePoly_declared (by decide) (by
      intro s hs
      have : s = "psi".toList ∨ s = "a".toList := by simpa [examplePoly, exampleMeta] using hs
      rcases this with rfl | rfl
      · exact ⟨_, by decide, Or.inl (splitSubscript_good _ (by decide))⟩
      · exact ⟨_, by decide, Or.inl (splitSubscript_good _ (by decide))⟩) (by decide) (by decide) examplePoly_real
  exact ⟨cs, h⟩

end Cyjax
