import Verif.Lemmas.Samplable
import Verif.Lemmas.LineAverage

/-! # The sample as list of all intersections -/

namespace Cyjax

open Cyjax.Spec Cyjax.Polynomial Cyjax.Projective Cyjax.Variety MvPolynomial

variable {V : HomKind} {m d : ℕ} {ps : List ℂ}

theorem mapM_flatMap {α β : Type*} (f : α → Except PyErr (List β)) (g : α → List β) :
    ∀ l : List α, (∀ x ∈ l, f x = .ok (g x)) → ∃ ptss, l.mapM f = .ok ptss ∧ ptss.flatten = l.flatMap g
  | [], _ => ⟨[], rfl, rfl⟩
  | x :: l, h => by
    obtain ⟨ptss, h1, h2⟩ := mapM_flatMap f g l fun y hy => h y (by simp [hy])
    refine ⟨g x :: ptss, ?_, by rw [List.flatten_cons, h2, List.flatMap_cons]⟩
    rw [List.mapM_cons, h x (by simp), h1]
    rfl

/-- The sampler returns all intersections of the lines with the hypersurface, line after line. -/
theorem sample_all (h : Samplable V m d ps) {F : MvPolynomial (Fin (m + 1)) ℂ} (hF : Hypersurface V (.vec ps) m d F)
    {o : SymOrder} (ho : o.Valid) {roots : List ℂ → List ℂ} (hr : CompleteRoots roots) :
    ∃ R : (Fin (m + 1) → ℂ) × (Fin (m + 1) → ℂ) → List ℂ,
      (∀ x, Admissible F x → (R x).length = d ∧ ∀ t, eval (linePoint x t) F = eval x.2 F * ((R x).map (t - ·)).prod) ∧
      ∀ (count : ℕ) (draws : List ((Fin (m + 1) → ℂ) × (Fin (m + 1) → ℂ))), (∀ x ∈ draws, Admissible F x) →
        sampleIntersect V o roots ps count (asLists draws) =
          .ok (((draws.flatMap fun x => (R x).map (linePoint x)).take count).map List.ofFn) := by
  obtain ⟨e, he⟩ := h.line ho
  obtain ⟨Q, cs, h1, h2, h3⟩ := line_solve ho he h.scales
  have hex : ∀ x : (Fin (m + 1) → ℂ) × (Fin (m + 1) → ℂ), ∃ R : List ℂ, Admissible F x →
      R.length = d ∧ (∀ t, eval (linePoint x t) F = eval x.2 F * (R.map (t - ·)).prod) ∧
      solveIntersect roots cs ps (List.ofFn x.1, List.ofFn x.2) = .ok ((R.map (linePoint x)).map List.ofFn) := by
    intro x
    by_cases hx : Admissible F x
    · obtain ⟨rest, g1, g2, g3⟩ := h3 x.1 x.2 ps _ h.params (h.defining hF x.2 hx.ne.1) hx.2
      obtain ⟨r1, r2⟩ := hr _ rest hx.2
      refine ⟨_, fun _ => ⟨r1.trans g1, fun t => ?_, ?_⟩⟩
      · rw [← r2 t]
        have := g2 t
        rw [h.defining hF _ (hx.ne.2 t)] at this
        exact Except.ok.inj this
      · rw [g3 roots, List.map_map]
        rfl
    · exact ⟨[], fun h => absurd h hx⟩
  choose R hR using hex
  refine ⟨R, fun x hx => ⟨(hR x hx).1, (hR x hx).2.1⟩, fun count draws hd => ?_⟩
  obtain ⟨ptss, g1, g2⟩ := mapM_flatMap
    (fun x : (Fin (m + 1) → ℂ) × (Fin (m + 1) → ℂ) => solveIntersect roots cs ps (List.ofFn x.1, List.ofFn x.2))
    (fun x => ((R x).map (linePoint x)).map List.ofFn) draws fun x hx => (hR x (hd x hx)).2.2
  have g1' : (asLists draws).mapM (solveIntersect roots cs ps) = .ok ptss := by
    unfold asLists
    rw [← g1, List.mapM_map]
    rfl
  unfold sampleIntersect
  rw [h1]
  simp only
  rw [h2]
  simp only
  rw [g1']
  simp only
  rw [g2, List.map_take, List.map_flatMap]

/-- On a transversal line the roots are simple, and a sum over them is a sum over the intersections. -/
theorem sum_roots {F : MvPolynomial (Fin m) ℂ} {x : (Fin m → ℂ) × (Fin m → ℂ)} {R : List ℂ} {c : ℂ} (hc : c ≠ 0)
    (hfac : ∀ t, eval (linePoint x t) F = c * (R.map (t - ·)).prod)
    (htr : ∀ t, eval (linePoint x t) F = 0 → dirD F x.2 (linePoint x t) ≠ 0) :
    R.Nodup ∧ (∀ t, eval (linePoint x t) F = 0 ↔ t ∈ R) := by
  have hroot : ∀ t, eval (linePoint x t) F = 0 ↔ t ∈ R := by
    intro t
    rw [hfac t, mul_eq_zero, or_iff_right hc, List.prod_eq_zero_iff, List.mem_map]
    constructor
    · rintro ⟨r, hr, h0⟩
      rwa [sub_eq_zero.1 h0]
    · exact fun h => ⟨t, h, sub_self t⟩
  refine ⟨?_, hroot⟩
  rw [List.nodup_iff_sublist]
  intro r hsub
  obtain ⟨S, hS⟩ := hsub.exists_perm_append
  obtain ⟨H, hH, h1, h2⟩ := exists_quotient F
  have hr := (hroot r).2 (hsub.subset (by simp))
  apply htr r hr
  have hfac' : ∀ t, eval (linePoint x t) F = (t - r) * ((t - r) * (c * (S.map (t - ·)).prod)) := by
    intro t
    rw [hfac t, (hS.map _).prod_eq]
    simp only [List.cons_append, List.nil_append, List.map_cons, List.prod_cons]
    ring
  have hcS : Continuous fun t : ℂ => (S.map (t - ·)).prod := by
    clear hS hfac'
    induction S with
    | nil => exact continuous_const
    | cons s S ih =>
      simp only [List.map_cons, List.prod_cons]
      exact (continuous_id.sub continuous_const).mul ih
  have hcH : Continuous fun t : ℂ => H ((x.1, x.2), (t, r)) := hH.comp (by fun_prop)
  have hcg : Continuous fun t : ℂ => (t - r) * (c * (S.map (t - ·)).prod) :=
    (continuous_id.sub continuous_const).mul (continuous_const.mul hcS)
  have heq := Continuous.ext_on (dense_compl_singleton r) hcH hcg fun t ht => by
    have hq := h1 x.1 x.2 t r
    have e1 : eval (x.1 + t • x.2) F = eval (linePoint x t) F := rfl
    have e2 : eval (x.1 + r • x.2) F = eval (linePoint x r) F := rfl
    rw [e1, e2, hr, sub_zero, hfac' t] at hq
    exact (mul_left_cancel₀ (sub_ne_zero.2 ht) hq).symm
  have h3 := congrFun heq r
  simp only [sub_self, zero_mul] at h3
  rw [h2] at h3
  exact h3

/-- A sum over a list without repetitions. -/
theorem sum_list_eq_tsum {R : List ℂ} (hR : R.Nodup) {S : Set ℂ} (hS : ∀ t, t ∈ S ↔ t ∈ R) (φ : ℂ → ENNReal) :
    ∑' t, S.indicator φ t = (R.map φ).sum := by
  classical
  have hs : S = (R.toFinset : Set ℂ) := by
    ext t
    simp [hS t]
  rw [hs, ← tsum_subtype, Finset.tsum_subtype', List.sum_toFinset φ hR]

end Cyjax
