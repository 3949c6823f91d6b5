import Verif.Lemmas.VarietyFromSympy
import Verif.Lemmas.Family

/-! # Expressions for hypersurfaces, built step by step -/

namespace Cyjax

open Cyjax.Spec Cyjax.Polynomial Cyjax.Variety MvPolynomial

/-- The conditions on the polynomial in `HypersurfaceExpr`. -/
structure FormExpr (name : List Char) (free : List Sym) (e : ℕ) (p : MvPolynomial Sym ℂ) : Prop where
  vars : ∀ s ∈ p.vars, s ∈ free
  real : RealCoeffs p
  degree : ∀ mon ∈ p.support, coordDeg name mon = e

namespace FormExpr

variable {name : List Char} {free : List Sym} {e e' : ℕ} {p q : MvPolynomial Sym ℂ}

theorem zero : FormExpr name free e 0 := ⟨by simp, fun mon => by simp, by simp⟩

theorem one : FormExpr name free 0 1 := by
  classical
  refine ⟨by simp, fun mon => ?_, fun mon h => ?_⟩
  · rw [coeff_one]
    split_ifs <;> simp
  · rw [mem_support_iff, coeff_one] at h
    have h0 : 0 = mon := by
      by_contra hne
      exact h (if_neg hne)
    rw [← h0, coordDeg_eq, Finsupp.sum_zero_index]

theorem add (hp : FormExpr name free e p) (hq : FormExpr name free e q) : FormExpr name free e (p + q) := by
  classical
  refine ⟨fun s hs => ?_, fun mon => ?_, fun mon h => ?_⟩
  · rcases Finset.mem_union.1 (vars_add_subset p q hs) with h | h
    · exact hp.vars s h
    · exact hq.vars s h
  · rw [coeff_add, Complex.add_im, hp.real mon, hq.real mon, add_zero]
  · rcases Finset.mem_union.1 (support_add h) with h | h
    · exact hp.degree mon h
    · exact hq.degree mon h

theorem mul (hp : FormExpr name free e p) (hq : FormExpr name free e' q) : FormExpr name free (e + e') (p * q) := by
  classical
  refine ⟨fun s hs => ?_, fun mon => ?_, fun mon h => ?_⟩
  · rcases Finset.mem_union.1 (vars_mul p q hs) with h | h
    · exact hp.vars s h
    · exact hq.vars s h
  · rw [coeff_mul, Complex.im_sum]
    refine Finset.sum_eq_zero fun x _ => ?_
    rw [Complex.mul_im, hp.real, hq.real, mul_zero, zero_mul, add_zero]
  · obtain ⟨a, ha, b, hb, rfl⟩ := Finset.mem_add.1 (support_mul p q h)
    rw [coordDeg_add, hp.degree a ha, hq.degree b hb]

theorem pow (hp : FormExpr name free e p) (k : ℕ) : FormExpr name free (k * e) (p ^ k) := by
  induction k with
  | zero => rw [Nat.zero_mul, pow_zero]; exact one
  | succ k ih => rw [Nat.succ_mul, pow_succ]; exact ih.mul hp

theorem sum {ι : Type*} (t : Finset ι) (f : ι → MvPolynomial Sym ℂ) (h : ∀ i ∈ t, FormExpr name free e (f i)) :
    FormExpr name free e (∑ i ∈ t, f i) := by
  classical
  induction t using Finset.induction_on with
  | empty => rw [Finset.sum_empty]; exact zero
  | insert a t ha ih =>
    rw [Finset.sum_insert ha]
    exact (h a (Finset.mem_insert_self a t)).add (ih fun i hi => h i (Finset.mem_insert_of_mem hi))

theorem prod {ι : Type*} (t : Finset ι) (f : ι → MvPolynomial Sym ℂ) (h : ∀ i ∈ t, FormExpr name free 1 (f i)) :
    FormExpr name free t.card (∏ i ∈ t, f i) := by
  classical
  induction t using Finset.induction_on with
  | empty => rw [Finset.prod_empty]; exact one
  | insert a t ha ih =>
    rw [Finset.prod_insert ha, Finset.card_insert_of_notMem ha, add_comm]
    exact (h a (Finset.mem_insert_self a t)).mul (ih fun i hi => h i (Finset.mem_insert_of_mem hi))

theorem coord (hn : GoodName name) (i : ℕ) (h : mergeSubscript name i ∈ free) :
    FormExpr name free 1 (X (mergeSubscript name i)) := by
  classical
  refine ⟨fun s hs => ?_, fun mon => ?_, fun mon hm => ?_⟩
  · rw [vars_X, Finset.mem_singleton] at hs
    rwa [hs]
  · rw [coeff_X']
    split_ifs <;> simp
  · rw [support_X, Finset.mem_singleton] at hm
    rw [hm, coordDeg_coord name hn]

theorem param {s : Sym} (hs : IsParam name s) (h : s ∈ free) : FormExpr name free 0 (X s) := by
  classical
  refine ⟨fun t ht => ?_, fun mon => ?_, fun mon hm => ?_⟩
  · rw [vars_X, Finset.mem_singleton] at ht
    rwa [ht]
  · rw [coeff_X']
    split_ifs <;> simp
  · rw [support_X, Finset.mem_singleton] at hm
    rw [hm, coordDeg_param name s hs]

end FormExpr

/-- A family of hypersurfaces given by an expression. -/
theorem family_from_sympy {name : List Char} {m e : ℕ} {p : MvPolynomial Sym ℂ} {free l : List Sym}
    {k : ℕ} (hk : l.length = k) (h : HypersurfaceExpr name m e p free (some l)) (hm : m ≠ 0) (hl : LineNames l)
    (Φ : MvPolynomial (Fin (m + 1)) (MvPolynomial (Fin k) ℂ))
    (hΦ : ∀ (Z : Fin (m + 1) → ℂ) (ps : Fin k → ℂ) (σ : Sym → ℂ), l.map σ = List.ofFn ps →
      (∀ s ∈ free, ∀ i : Fin (m + 1), Indexed s name i → σ s = Z i) → eval Z (map (eval ps) Φ) = eval σ p) :
    ∃ V, varietyFromSympy p free name (m + 1) (some l) = .ok V ∧ V.md.params = l ∧ Family V k m e Φ ∧
      ∀ ps : Fin k → ℂ, Samplable V m e (List.ofFn ps) := by
  subst hk
  obtain ⟨P, h1, h2, h3, h4, h5, h6, f, h7, h8, h9⟩ := from_sympy_ok h
  have hpar := h5 l rfl
  have hgens : P.gens = (List.range (m + 1)).map (mergeSubscript name) := by
    rw [h3, Meta.varSyms, h2.vars, List.flatMap_singleton, varSymbols]
  have hgood := h.name_ok.1
  have hhom : HomogeneousIn P.poly name m e := by rw [h7]; exact homogeneous_rename h f h8 h9
  have hpatch : ∀ j : Fin (m + 1), HasPatch P name j := by
    intro j
    refine ⟨by rw [hgens]; exact List.mem_map.2 ⟨j, List.mem_range.2 j.isLt, rfl⟩, ?_⟩
    obtain ⟨k, hk⟩ : ∃ k : Fin (m + 1), k ≠ j := by
      have : Nontrivial (Fin (m + 1)) := Fin.nontrivial_iff_two_le.2 (by omega)
      exact exists_ne j
    refine ⟨mergeSubscript name k, by rw [hgens]; exact List.mem_map.2 ⟨k, List.mem_range.2 k.isLt, rfl⟩, fun h14 => hk ?_⟩
    exact Fin.ext (merge_inj name name hgood hgood k j h14).2
  have hS : ∀ ps : Fin l.length → ℂ, Samplable (.generic P) m e (List.ofFn ps) := fun ps =>
    .generic P name m e _ h2 hhom hpatch (by rw [hpar]; exact hl) (by rw [hpar, List.length_ofFn])
  refine ⟨.generic P, ?_, hpar, ?_, hS⟩
  · unfold varietyFromSympy
    rw [h1]
    exact if_pos (by simp [HomKind.md, h2.vars])
  · have hfix : ∀ ps : Fin l.length → ℂ, ∃ ρ₀, P.md.paramInput ρ₀ = List.ofFn ps ∧
        map (eval ps) Φ = fixParams name m ρ₀ P.poly := by
      intro ps
      obtain ⟨ρ₀, -, r2⟩ := exists_point h2 0 (List.ofFn ps) (by rw [hpar, List.length_ofFn])
      refine ⟨ρ₀, r2, MvPolynomial.funext fun Z => ?_⟩
      set ρ : Sym → ℂ := open Classical in fun s => if hs : ∃ i : Fin (m + 1), s = mergeSubscript name i then Z hs.choose
        else ρ₀ s with hρ
      have k1 : ∀ i : Fin (m + 1), ρ (mergeSubscript name i) = Z i := by
        intro i
        have hs : ∃ j : Fin (m + 1), mergeSubscript name i = mergeSubscript name j := ⟨i, rfl⟩
        simp only [hρ, dif_pos hs]
        rw [choose_eq hgood i hs]
      have k2 : ∀ s ∈ l, ρ s = ρ₀ s := by
        intro s hs
        have : ¬ ∃ i : Fin (m + 1), s = mergeSubscript name i := fun ⟨i, hi⟩ => h2.mem_params s (by rw [hpar]; exact hs) i hi
        simp only [hρ, dif_neg this]
      have k3 : fixParams name m ρ₀ P.poly = fixParams name m ρ P.poly := by
        unfold fixParams
        congr 2
        funext s
        split_ifs with hs
        · rfl
        · simp only [hρ, dif_neg hs]
      rw [k3, eval_fixParams hgood m ρ P.poly Z k1, h7, eval_rename]
      have r2' : l.map ρ₀ = List.ofFn ps := by rw [← r2, ← hpar]; rfl
      have k4 : eval (ρ ∘ f) p = eval (fun s => if s ∈ l then ρ₀ s else ρ (f s)) p := by
        refine eval₂Hom_congr' rfl (fun s hs _ => ?_) rfl
        by_cases hsl : s ∈ l
        · rw [if_pos hsl, Function.comp, h9 s (h.vars s hs) ((h.params_ok l rfl).2 s hsl), k2 s hsl]
        · rw [if_neg hsl, Function.comp]
      rw [k4]
      refine hΦ Z ps _ ?_ fun s hs i hi => ?_
      · rw [← r2']
        exact List.map_congr_left fun s hs => if_pos hs
      · have hsl : s ∉ l := fun hsl => isParam_not_indexed ((h.params_ok l rfl).2 s hsl) i hi
        rw [if_neg hsl, h8 s hs i hi, k1]
    refine ⟨homogeneous_of_members fun ps => ?_, fun ps => ⟨?_, ?_, fun p zs => ?_⟩⟩
    · obtain ⟨ρ₀, -, h11⟩ := hfix ps
      rw [h11]
      exact fixParams_homogeneous hgood m _ hhom
    · simp [dimComplex, HomKind.md, h2.vars]
    · obtain ⟨ρ₀, -, h11⟩ := hfix ps
      rw [h11]
      exact fixParams_homogeneous hgood m _ hhom
    · obtain ⟨ρ₀, h10, h11⟩ := hfix ps
      rw [h11]
      exact represents_fixParams h2 (List.ofFn ps) _ h10 p (hpatch p) zs

end Cyjax
