import Verif.Spec.Samplable
import Verif.Lemmas.AlgebraicMetric
import Verif.Lemmas.LineKinds
import Verif.Props.Projective

/-! # Points sampled on a hypersurface -/

namespace Cyjax

open Cyjax.Spec Cyjax.Polynomial Cyjax.Projective Cyjax.Variety MvPolynomial

variable {V : HomKind} {m d : ℕ} {ps : List ℂ}

theorem Spec.Samplable.line (h : Samplable V m d ps) {o : SymOrder} (ho : o.Valid) : ∃ e, LineCall V (m + 1) o e := by
  cases h with
  | generic P name m d ps h1 h2 h3 h4 h5 => exact lineCall_generic h1 h4 ho
  | dwork m f hf psi => exact lineCall_dwork (Nat.succ_pos m) hf
  | fermat m => exact lineCall_fermat (Nat.succ_pos m)

theorem Spec.Samplable.scales (h : Samplable V m d ps) : Scales V (m + 1) d := by
  cases h with
  | generic P name m d ps h1 h2 h3 h4 h5 => exact scales_generic h1 h2
  | dwork m f hf psi => exact scales_dwork f
  | fermat m => exact scales_fermat

theorem Spec.Samplable.restricts (h : Samplable V m d ps) : Restricts V m := by
  cases h with
  | generic P name m d ps h1 h2 h3 h4 h5 => exact restricts_generic h1 h3
  | dwork m f hf psi => exact restricts_dwork f
  | fermat m => exact restricts_fermat

theorem Spec.Samplable.params (h : Samplable V m d ps) : ps.length = V.md.params.length := by
  cases h with
  | generic P name m d ps h1 h2 h3 h4 h5 => exact h5
  | dwork m f hf psi => rfl
  | fermat m => rfl

/-- Every variety that can be sampled is a hypersurface. -/
theorem Spec.Samplable.hypersurface (h : Samplable V m d ps) : ∃ F, Hypersurface V (.vec ps) m d F := by
  cases h with
  | generic P name m d ps h1 h2 h3 h4 h5 => exact hypersurface_generic h1 h2 h3 ps h5
  | dwork m f hf psi => exact hypersurface_dwork m f psi []
  | fermat m => exact ⟨_, hypersurface_fermat m _⟩

/-- The defining function in homogeneous coordinates. -/
theorem Spec.Samplable.defining (h : Samplable V m d ps) {F : MvPolynomial (Fin (m + 1)) ℂ}
    (hF : Hypersurface V (.vec ps) m d F) (Z : Fin (m + 1) → ℂ) (hZ : Z ≠ 0) :
    Variety.defining V (List.ofFn Z) (.vec ps) none = .ok (eval Z F) := by
  obtain ⟨p, hp⟩ : ∃ p, Z p ≠ 0 := by
    by_contra hcon
    push Not at hcon
    exact hZ (funext hcon)
  have h1 := hF.defining p (homToAffine Z (p : ℕ))
  rw [h.restricts ps _ p h.params, C16_roundtrip Z p hp] at h1
  have h2 := h.scales ps _ (Z p) _ h.params h1
  have e1 : (fun i => Z p * (Z i / Z p)) = Z := funext fun i => by field_simp
  rw [e1] at h2
  rw [h2, ← eval_smul_homogeneous hF.homogeneous, e1]

theorem Spec.Admissible.ne {F : MvPolynomial (Fin (m + 1)) ℂ} {x : (Fin (m + 1) → ℂ) × (Fin (m + 1) → ℂ)}
    (h : Admissible F x) : x.2 ≠ 0 ∧ ∀ r : ℂ, (fun i => x.1 i + r * x.2 i) ≠ 0 := by
  refine ⟨h.1.ne_zero 1, fun r h0 => ?_⟩
  have := LinearIndependent.pair_iff.1 h.1 1 r (by
    funext i
    simpa using congrFun h0 i)
  exact one_ne_zero this.1

/-- The points returned by the sampler in homogeneous coordinates; point `k` lies on line `k / d`. -/
theorem sample_lines (h : Samplable V m d ps) {F : MvPolynomial (Fin (m + 1)) ℂ} (hF : Hypersurface V (.vec ps) m d F)
    {o : SymOrder} (ho : o.Valid) {roots : List ℂ → List ℂ} (hr : ExactRoots roots) (count : ℕ)
    (draws : List ((Fin (m + 1) → ℂ) × (Fin (m + 1) → ℂ))) (hd : ∀ x ∈ draws, Admissible F x) :
    ∃ Zs : List (Fin (m + 1) → ℂ), sampleIntersect V o roots ps count (asLists draws) = .ok (Zs.map List.ofFn) ∧
      Zs.length = min count (draws.length * d) ∧
      ∀ (k : ℕ) (Z : Fin (m + 1) → ℂ), Zs[k]? = some Z → Z ≠ 0 ∧ eval Z F = 0 ∧
        ∃ x, draws[k / d]? = some x ∧ ∃ r : ℂ, Z = fun i => x.1 i + r * x.2 i := by
  obtain ⟨e, he⟩ := h.line ho
  obtain ⟨zs, h1, h2, h3⟩ := sample_ok_lines ho he h.scales hr ps h.params count draws (by
    intro x hx h0
    rw [h.defining hF _ (hd x hx).ne.1] at h0
    exact (hd x hx).2 (Except.ok.inj h0))
  have key : ∀ z ∈ zs, ∃ Z : Fin (m + 1) → ℂ, List.ofFn Z = z := by
    intro z hz
    obtain ⟨k, hk⟩ := List.mem_iff_getElem?.1 hz
    obtain ⟨-, x, -, r, rfl⟩ := h3 k z hk
    exact ⟨_, rfl⟩
  choose! g g1 using key
  refine ⟨zs.map g, ?_, by rw [List.length_map, h2], ?_⟩
  · unfold asLists
    rw [h1, List.map_map]
    congr 1
    refine (List.map_id zs).symm.trans (List.map_congr_left fun z hz => (g1 z hz).symm)
  · intro k Z hZ
    rw [List.getElem?_map, Option.map_eq_some_iff] at hZ
    obtain ⟨z, hz, rfl⟩ := hZ
    obtain ⟨h4, x, hx, r, h5⟩ := h3 k z hz
    have hx' := hd x (List.mem_of_getElem? hx)
    have h6 : g z = fun i => x.1 i + r * x.2 i := List.ofFn_injective ((g1 z (List.mem_of_getElem? hz)).trans h5)
    rw [h6]
    refine ⟨hx'.ne.2 r, ?_, x, hx, r, rfl⟩
    rw [h5, h.defining hF _ (hx'.ne.2 r)] at h4
    exact Except.ok.inj h4

/-- The points returned by the sampler in homogeneous coordinates. -/
theorem sample_points (h : Samplable V m d ps) {F : MvPolynomial (Fin (m + 1)) ℂ} (hF : Hypersurface V (.vec ps) m d F)
    {o : SymOrder} (ho : o.Valid) {roots : List ℂ → List ℂ} (hr : ExactRoots roots) (count : ℕ)
    (draws : List ((Fin (m + 1) → ℂ) × (Fin (m + 1) → ℂ))) (hd : ∀ x ∈ draws, Admissible F x) :
    ∃ Zs : List (Fin (m + 1) → ℂ), sampleIntersect V o roots ps count (asLists draws) = .ok (Zs.map List.ofFn) ∧
      Zs.length = min count (draws.length * d) ∧
      ∀ Z ∈ Zs, Z ≠ 0 ∧ eval Z F = 0 ∧ ∃ x ∈ draws, ∃ r : ℂ, Z = fun i => x.1 i + r * x.2 i := by
  obtain ⟨Zs, h1, h2, h3⟩ := sample_lines h hF ho hr count draws hd
  refine ⟨Zs, h1, h2, fun Z hZ => ?_⟩
  obtain ⟨k, hk⟩ := List.mem_iff_getElem?.1 hZ
  obtain ⟨h4, h5, x, hx, h6⟩ := h3 k Z hk
  exact ⟨h4, h5, x, List.mem_of_getElem? hx, h6⟩

theorem toArr_ofFn' {n : ℕ} (f : Fin n → ℂ) : toArr n (List.ofFn f) = f := by
  funext i
  simp [toArr]

end Cyjax
