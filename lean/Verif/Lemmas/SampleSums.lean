import Verif.Lemmas.CyMeasure

/-! # The sums over a sample -/

namespace Cyjax

open MeasureTheory MvPolynomial Cyjax.Spec Cyjax.Polynomial Cyjax.Variety Set
open scoped ENNReal

variable {n e : ℕ} {F : MvPolynomial (Fin (n + 2)) ℂ}

theorem sum_flatMap' {α : Type*} (g : α → List ℝ) (l : List α) : (l.flatMap g).sum = (l.map fun a => (g a).sum).sum := by
  induction l with
  | nil => rfl
  | cons a l ih => rw [List.flatMap_cons, List.sum_append, List.map_cons, List.sum_cons, ih]

theorem transversal_smul (hom : F.IsHomogeneous e) {r s : ℂ} (hr : r ≠ 0) (hs : s ≠ 0) {P q : Fin (n + 2) → ℂ}
    (h : ∀ t, eval (linePoint (P, q) t) F = 0 → dirD F q (linePoint (P, q) t) ≠ 0) (t : ℂ)
    (ht : eval (linePoint (r • P, s • q) t) F = 0) : dirD F (s • q) (linePoint (r • P, s • q) t) ≠ 0 := by
  have hZ : linePoint (r • P, s • q) t = r • linePoint (P, q) (t * (s / r)) := by
    funext i
    simp only [linePoint, Pi.smul_apply, smul_eq_mul]
    field_simp
  rw [hZ, eval_smul_point hom, mul_eq_zero, pow_eq_zero_iff', or_iff_right (fun h => hr h.1)] at ht
  rw [hZ, dirD_smul hom]
  exact mul_ne_zero (mul_ne_zero hs (pow_ne_zero _ hr)) (h _ ht)

theorem ae_transversal_lines (hF : Irreducible F) (hom : F.IsHomogeneous e) (he : e ≠ 0) (L : ℕ) :
    ∀ᵐ x ∂normalsLaw (n + 2) L, ∀ j t, eval (linePoint (rawLines x j) t) F = 0 →
      dirD F (rawLines x j).2 (linePoint (rawLines x j) t) ≠ 0 := by
  have h1 : ∀ᵐ y ∂Measure.pi fun _ : Fin L => lineLaw (n + 2), ∀ j t, eval (linePoint (y j) t) F = 0 →
      dirD F (y j).2 (linePoint (y j) t) ≠ 0 := by
    rw [ae_all_iff]
    intro j
    exact (measurePreserving_eval (fun _ : Fin L => lineLaw (n + 2)) j).quasiMeasurePreserving.ae (ae_transversal hF hom he)
  exact (rawLines_preserving (n + 2) L).quasiMeasurePreserving.ae h1

variable {V : HomKind} {ps : List ℂ} (hS : Samplable V (n + 1) e ps) (hF : Hypersurface V (.vec ps) (n + 1) e F)
  (hsm : SmoothHypersurface F) (hirr : Irreducible F) {o : SymOrder} (ho : o.Valid) {roots : List ℂ → List ℂ}
  (hr : CompleteRoots roots)

include hS hF hsm hirr ho hr

/-- The points of a sample, and the sums over them. -/
theorem sample_sums (he : e ≠ 0) (L : ℕ) :
    ∃ pts : (Fin 2 → Fin L → Fin (2 * (n + 2)) → ℝ) → List (Fin (n + 2) → ℂ), ∀ᵐ x ∂normalsLaw (n + 2) L,
      (pts x).length = L * e ∧ (∀ Z ∈ pts x, Z ≠ 0 ∧ eval Z F = 0) ∧
      (∀ count, let Zs := (pts x).take count
        sampleIntersectOpt n V o roots ps count (asLists (lineDraws x)) false false = .ok (.hom (Zs.map List.ofFn)) ∧
        sampleIntersectOpt n V o roots ps count (asLists (lineDraws x)) false true =
          .ok (.homWeights (Zs.map List.ofFn) (Zs.map (pointWeight e F))) ∧
        sampleIntersectOpt n V o roots ps count (asLists (lineDraws x)) true false =
          .ok (.affine (Zs.map Projective.homToAffineAuto)) ∧
        sampleIntersectOpt n V o roots ps count (asLists (lineDraws x)) true true =
          .ok (.affineWeights (Zs.map Projective.homToAffineAuto) (Zs.map (pointWeight e F)))) ∧
      ∀ g : (Fin (n + 2) → ℂ) → ℝ, (∀ c : ℂ, c ≠ 0 → ∀ Z, g (c • Z) = g Z) →
        ((pts x).map g).sum = ∑ j, realSum F g (rawLines x j) := by
  obtain ⟨R, hR, hall⟩ := sample_all hS hF ho hr
  have hom := hF.homogeneous
  refine ⟨fun x => (lineDraws x).flatMap fun y => (R y).map (linePoint y), ?_⟩
  filter_upwards [ae_admissible (count := L) F (smooth_ne_zero hsm) hom, ae_transversal_lines hirr hom he L] with x hx htr
  have hlen : ((lineDraws x).flatMap fun y => (R y).map (linePoint y)).length = L * e := by
    rw [List.length_flatMap, List.map_congr_left (g := fun _ => e) fun y hy => by
      rw [List.length_map, (hR y (hx.2 y hy)).1]]
    rw [List.map_const', List.sum_replicate, lineDraws, List.length_ofFn, smul_eq_mul]
  have hout : ∀ count, ∃ Zs : List (Fin (n + 2) → ℂ),
      Zs = ((lineDraws x).flatMap fun y => (R y).map (linePoint y)).take count ∧
      (∀ Z ∈ Zs, Z ≠ 0 ∧ eval Z F = 0 ∧ 0 < pointWeight e F Z) ∧
      sampleIntersectOpt n V o roots ps count (asLists (lineDraws x)) false false = .ok (.hom (Zs.map List.ofFn)) ∧
      sampleIntersectOpt n V o roots ps count (asLists (lineDraws x)) false true =
        .ok (.homWeights (Zs.map List.ofFn) (Zs.map (pointWeight e F))) ∧
      sampleIntersectOpt n V o roots ps count (asLists (lineDraws x)) true false =
        .ok (.affine (Zs.map Projective.homToAffineAuto)) ∧
      sampleIntersectOpt n V o roots ps count (asLists (lineDraws x)) true true =
        .ok (.affineWeights (Zs.map Projective.homToAffineAuto) (Zs.map (pointWeight e F))) := by
    intro count
    obtain ⟨Zs, -, h2, h3, h4, h5, h6⟩ := C111_sample hS hF hsm ho hr.exact count (lineDraws x) hx.2
    refine ⟨Zs, ?_, h2, h3, h4, h5, h6⟩
    exact List.map_injective_iff.2 List.ofFn_injective
      (Except.ok.inj ((hom_of_weights h4).symm.trans (hall count (lineDraws x) hx.2)))
  refine ⟨hlen, fun Z hZ => ?_, fun count => ?_, fun g hg => ?_⟩
  · obtain ⟨Zs, rfl, h, -⟩ := hout (L * e)
    have := h Z (by rw [← hlen, List.take_length]; exact hZ)
    exact ⟨this.1, this.2.1⟩
  · obtain ⟨Zs, rfl, -, h⟩ := hout count
    exact h
  · rw [List.map_flatMap, sum_flatMap']
    simp only [List.map_map]
    rw [lineDraws, List.map_ofFn, List.sum_ofFn]
    refine Finset.sum_congr rfl fun j _ => ?_
    simp only [Function.comp_apply]
    obtain ⟨r, hr0, e1⟩ := complexSphere_eq (x 0 j) (by
      have := (hx.1 j).1.ne_zero 0
      simpa [rawLines] using this)
    obtain ⟨s, hs0, e2⟩ := complexSphere_eq (x 1 j) (by
      have := (hx.1 j).1.ne_zero 1
      simpa [rawLines] using this)
    have hadm := hx.2 (Random.complexSphere (x 0 j), Random.complexSphere (x 1 j)) (List.mem_ofFn.2 ⟨j, rfl⟩)
    have hy : (Random.complexSphere (x 0 j), Random.complexSphere (x 1 j)) =
        (r • (rawLines x j).1, s • (rawLines x j).2) := by
      rw [e1, e2]
      rfl
    rw [hy] at hadm ⊢
    have h := realSum_roots hadm.2 (hR _ hadm).2 (transversal_smul hom hr0 hs0 (htr j)) g
    rw [realSum_smul hom hg hr0 hs0] at h
    exact h.symm

end Cyjax
