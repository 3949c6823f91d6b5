import Verif.Spec.SampledRounding
import Verif.Lemmas.LossLimit
import Verif.Props.RoundingTraining
import Verif.Props.Accuracy

/-! # The accuracy and the loss computed from sampled points -/

namespace Cyjax

open MvPolynomial Cyjax.Spec Cyjax.Fl Cyjax.Donaldson Cyjax.Polynomial Cyjax.Variety Cyjax.Projective Cyjax.Ml Cyjax.Differential
open scoped ComplexOrder

theorem sigma_cast {a b : ℕ} (hab : a = b) (e : Fin b → ℂ) (w : Fin b → ℝ) (e' : Fin a → ℂ) (w' : Fin a → ℝ)
    (he : ∀ i, e' i = e (i.cast hab)) (hw : ∀ i, w' i = w (i.cast hab)) : sigmaAccuracy e' w' = sigmaAccuracy e w := by
  subst hab
  rw [show e' = e from funext he, show w' = w from funext hw]

/-- The affine points of a sample. -/
theorem affine_of_sample {n : ℕ} {V : HomKind} {o : SymOrder} {roots : List ℂ → List ℂ} {ps : List ℂ} {count : ℕ}
    {draws : List (List ℂ × List ℂ)} {Zs : List (Fin (n + 1) → ℂ)} (hZs : sampleIntersect V o roots ps count draws = .ok (Zs.map List.ofFn)) :
    sampleIntersectAffine n V o roots ps count draws = .ok (Zs.map homToAffineAuto) := by
  unfold sampleIntersectAffine
  rw [hZs]
  simp only [List.map_map]
  congr 1
  refine List.map_congr_left fun Z _ => ?_
  simp only [Function.comp_apply, toArr_ofFn']

variable {n : ℕ} {F : MvPolynomial (Fin (n + 2)) ℂ} {A : AlgebraicMetric (n + 1)} {ps : List ℂ} (hsm : SmoothHypersurface F)
  (hF : Hypersurface A.variety (.vec ps) (n + 1) (n + 2) F) (hB : SpansModulo F A.sections.degree A.sections.rows)
  (hk : A.sections.degree ≠ 0) (h : A.H) (hh : h.PosDef)

include hF in
/-- The polynomial vanishes at the affine coordinates of a point on the hypersurface. -/
theorem defining_auto (Z : Fin (n + 2) → ℂ) (hZ : Z ≠ 0) (h0 : eval Z F = 0) :
    defining A.variety (List.ofFn (homToAffineAuto Z).1) (.vec ps) (some (.index (homToAffineAuto Z).2)) = .ok 0 := by
  obtain ⟨-, -, h3⟩ := C17_patch Z
  have hp0 : Z (homToAffineAuto Z).2 ≠ 0 := (C17_bounded Z hZ 0).1
  rw [hF.defining, h3, C16_roundtrip Z _ hp0, show (fun i => Z i / Z (homToAffineAuto Z).2) = fun i => (Z (homToAffineAuto Z).2)⁻¹ * Z i from
      funext fun i => by ring, eval_smul_homogeneous hF.homogeneous, h0, mul_zero]

include hsm hF hB hk hh

/-- The accuracy of the points `Zs` in exact arithmetic. -/
theorem sigma_exact (o : SymOrder) (roots : List ℂ → List ℂ) (count : ℕ) (draws : List (List ℂ × List ℂ)) (Zs : List (Fin (n + 2) → ℂ))
    (hZs : sampleIntersect A.variety o roots ps count draws = .ok (Zs.map List.ofFn)) (hmem : ∀ Z ∈ Zs, Z ≠ 0 ∧ eval Z F = 0) :
    A.sigmaAccuracy h o roots ps count draws =
      .ok (sigmaAccuracy (fun i => (etaAt A h ps (Zs.get i) : ℂ)) fun i => pointWeight (n + 2) F (Zs.get i)) := by
  rw [sigma_points h o roots count draws Zs hZs (etaAt A h ps) (pointWeight (n + 2) F) ?_]
  · simp only
    congr 1
    refine sigma_cast (by simp) _ _ _ _ (fun i => ?_) fun i => ?_ <;> simp
  · intro Z hZ
    obtain ⟨hZ0, hz0⟩ := hmem Z hZ
    obtain ⟨η, w, -, -, k1, k2, G, k3, k4, k5⟩ := point_values hF h hh hB hk Z hZ0 hz0 (hsm Z hZ0 hz0)
    have e1 := Except.ok.inj (k1.symm.trans (etaAt_pos hF h hB hh hsm hk Z hZ0 hz0).2)
    have e2 := Except.ok.inj (k2.symm.trans (weight_auto hF Z hZ0 hz0 (hsm Z hZ0 hz0)))
    rw [← e1, ← e2]
    exact ⟨G, k3, k4, k5⟩

/-- The computed accuracy of points on the hypersurface is close to the exact one. -/
theorem computed_accuracy (k : ℕ) : ∃ C τ₀ : ℝ, 0 ≤ C ∧ 0 < τ₀ ∧ ∀ τ ≤ τ₀, ∀ Zs : List (Fin (n + 2) → ℂ),
    (∀ Z ∈ Zs, Z ≠ 0 ∧ eval Z F = 0) → ∀ s, ComputedAccuracy A h ps k τ (Zs.map homToAffineAuto) s →
      |s - sigmaAccuracy (fun i => (etaAt A h ps (Zs.get i) : ℂ)) fun i => pointWeight (n + 2) F (Zs.get i)| ≤ C * τ := by
  obtain ⟨C, τ₀, hC, hτ₀, H⟩ := C168_accuracy hF hsm h hh hB hk k
  refine ⟨C, τ₀, hC, hτ₀, fun τ hτ Zs hmem s hs => ?_⟩
  obtain ⟨Ar, D, c, t, hA, hD, hc, ht, htk, rfl⟩ := hs
  choose g hg hgc using hc
  have hlen : (Zs.map homToAffineAuto).length = Zs.length := List.length_map _
  have hget : ∀ j : Fin (Zs.map homToAffineAuto).length, (Zs.map homToAffineAuto).get j = homToAffineAuto (Zs.get (j.cast hlen)) := fun j => by simp
  have hpt : ∀ j : Fin (Zs.map homToAffineAuto).length, _ := fun j => hmem (Zs.get (j.cast hlen)) (List.get_mem _ _)
  obtain ⟨η, w, hη, hw, hle⟩ := H τ Ar D hτ hA hD _ (fun j => ((Zs.map homToAffineAuto).get j).2) (fun j => ((Zs.map homToAffineAuto).get j).1)
    (fun _ => 0) g (some 1) (fun j i => by
      rw [hget j]
      exact (C17_bounded _ (hpt j).1 i).2) (fun j => by
      rw [hget j]
      exact defining_auto hF _ (hpt j).1 (hpt j).2) (fun j => by simpa using hτ₀.le) hg c hgc t ht htk
  rwa [sigma_cast hlen _ _ _ _ (fun j => ?_) fun j => ?_] at hle
  · have h1 := hη j
    rw [hget j] at h1
    have h2 := (etaAt_pos hF h hB hh hsm hk _ (hpt j).1 (hpt j).2).2
    exact Except.ok.inj (h1.symm.trans ((C103_homogeneous A hF.dim h (.vec ps) none none _).2.2.1.symm.trans h2))
  · have h1 := hw j
    rw [hget j] at h1
    exact Except.ok.inj (h1.symm.trans (weight_auto hF _ (hpt j).1 (hpt j).2 (hsm _ (hpt j).1 (hpt j).2)))

omit hk hh hsm hB hF in
/-- The loss as a function of the number of points. -/
theorem loss_cast {a b : ℕ} (hab : a = b) (e w : Fin b → ℝ) (e' w' : Fin a → ℝ)
    (he : ∀ i, e' i = e (i.cast hab)) (hw : ∀ i, w' i = w (i.cast hab)) :
    varianceEtaLoss e' w' = varianceEtaLoss e w ∧ (∑ i, w' i) / (a : ℝ) = (∑ i, w i) / (b : ℝ) := by
  subst hab
  rw [show e' = e from funext he, show w' = w from funext hw]
  exact ⟨rfl, rfl⟩

/-- The computed loss of points on the hypersurface is close to the exact one. -/
theorem computed_loss (k : ℕ) : ∃ C τ₀ : ℝ, 0 ≤ C ∧ 0 < τ₀ ∧ ∀ τ ≤ τ₀, ∀ Zs : List (Fin (n + 2) → ℂ),
    (∀ Z ∈ Zs, Z ≠ 0 ∧ eval Z F = 0) → ∀ s, ComputedLoss A h ps k τ (Zs.map homToAffineAuto) s →
      |s - varianceEtaLoss (fun i => etaAt A h ps (Zs.get i)) fun i => pointWeight (n + 2) F (Zs.get i)| ≤ C * τ := by
  obtain ⟨C, τ₀, hC, hτ₀, H⟩ := C173_uniform hF hsm h hh hB hk k
  obtain ⟨M, hM⟩ := etaAt_bounded hF h hB hh hsm
  obtain ⟨m, hm, hlow⟩ := etaAt_lower hsm hF hB hk h hh
  obtain ⟨B, hB0, hBw⟩ := pointWeight_bounded hF.homogeneous hsm
  refine ⟨C * (B * (M ^ 2 / m ^ 2) + 4 * B), τ₀, by positivity, hτ₀, fun τ hτ Zs hmem s hs => ?_⟩
  obtain ⟨Ar, D, lg, c, t, hA, hD, h01, hlg, hc, ht, htk, rfl⟩ := hs
  choose g hg hgc using hc
  have hlen : (Zs.map homToAffineAuto).length = Zs.length := List.length_map _
  have hget : ∀ j : Fin (Zs.map homToAffineAuto).length, (Zs.map homToAffineAuto).get j = homToAffineAuto (Zs.get (j.cast hlen)) := fun j => by simp
  have hpt : ∀ j : Fin (Zs.map homToAffineAuto).length, _ := fun j => hmem (Zs.get (j.cast hlen)) (List.get_mem _ _)
  have hpt' : ∀ j : Fin Zs.length, _ := fun j => hmem (Zs.get j) (List.get_mem _ _)
  obtain ⟨η, w, hη, hw, -, hle⟩ := H τ Ar D lg hτ hA hD h01 hlg _ (fun j => ((Zs.map homToAffineAuto).get j).2)
    (fun j => ((Zs.map homToAffineAuto).get j).1) (fun _ => 0) g (some 1) (fun j i => by
      rw [hget j]
      exact (C17_bounded _ (hpt j).1 i).2) (fun j => by
      rw [hget j]
      exact defining_auto hF _ (hpt j).1 (hpt j).2) (fun j => by simpa using hτ₀.le) hg c hgc t ht htk
  obtain ⟨e1, e2⟩ := loss_cast hlen (fun i => etaAt A h ps (Zs.get i)) (fun i => pointWeight (n + 2) F (Zs.get i)) η w (fun j => by
    have h1 := hη j
    rw [hget j] at h1
    have h2 := (etaAt_pos hF h hB hh hsm hk _ (hpt j).1 (hpt j).2).2
    exact_mod_cast Except.ok.inj (h1.symm.trans ((C103_homogeneous A hF.dim h (.vec ps) none none _).2.2.1.symm.trans h2))) fun j => by
    have h1 := hw j
    rw [hget j] at h1
    exact Except.ok.inj (h1.symm.trans (weight_auto hF _ (hpt j).1 (hpt j).2 (hsm _ (hpt j).1 (hpt j).2)))
  rw [e1, e2] at hle
  refine hle.trans ?_
  have hpos : 0 < (Zs.map homToAffineAuto).length := ht.pos
  have hN : Zs.length ≠ 0 := by omega
  have hN' : (0 : ℝ) < Zs.length := by exact_mod_cast Nat.pos_of_ne_zero hN
  have hne : (Finset.univ : Finset (Fin Zs.length)).Nonempty := ⟨⟨0, Nat.pos_of_ne_zero hN⟩, Finset.mem_univ _⟩
  have hη0 : ∀ j : Fin Zs.length, 0 < etaAt A h ps (Zs.get j) := fun j => (etaAt_pos hF h hB hh hsm hk _ (hpt' j).1 (hpt' j).2).1
  have hw0 : ∀ j : Fin Zs.length, 0 < pointWeight (n + 2) F (Zs.get j) := fun j =>
    pointWeight_pos (e := n + 2) _ (hpt' j).1 (hsm _ (hpt' j).1 (hpt' j).2)
  have hW0 : 0 < (∑ i, pointWeight (n + 2) F (Zs.get i)) / (Zs.length : ℝ) := div_pos (Finset.sum_pos (fun i _ => hw0 i) hne) hN'
  have hWB : (∑ i, pointWeight (n + 2) F (Zs.get i)) / (Zs.length : ℝ) ≤ B := by
    rw [div_le_iff₀ hN']
    refine (Finset.sum_le_sum fun i _ => hBw _ (hpt' i).1 (hpt' i).2).trans ?_
    rw [Finset.sum_const, Finset.card_univ, Fintype.card_fin, nsmul_eq_mul, mul_comm]
  have hE : m * ((∑ i, pointWeight (n + 2) F (Zs.get i)) / (Zs.length : ℝ)) ≤
      (∑ i, etaAt A h ps (Zs.get i) * pointWeight (n + 2) F (Zs.get i)) / (Zs.length : ℝ) := by
    rw [← mul_div_assoc, Finset.mul_sum]
    exact div_le_div_of_nonneg_right (Finset.sum_le_sum fun i _ =>
      mul_le_mul_of_nonneg_right (hlow _ (hpt' i).1 (hpt' i).2) (hw0 i).le) hN'.le
  have hS : (∑ i, etaAt A h ps (Zs.get i) ^ 2 * pointWeight (n + 2) F (Zs.get i)) / (Zs.length : ℝ) ≤
      M ^ 2 * ((∑ i, pointWeight (n + 2) F (Zs.get i)) / (Zs.length : ℝ)) := by
    rw [← mul_div_assoc, Finset.mul_sum]
    refine div_le_div_of_nonneg_right (Finset.sum_le_sum fun i _ => mul_le_mul_of_nonneg_right ?_ (hw0 i).le) hN'.le
    rw [← sq_abs]
    exact pow_le_pow_left₀ (abs_nonneg _) (hM _ (hpt' i).1 (hpt' i).2) 2
  have hL := loss_means hN (fun i => etaAt A h ps (Zs.get i)) (fun i => pointWeight (n + 2) F (Zs.get i)) hη0 hw0
  rw [hL, mul_right_comm C (B * (M ^ 2 / m ^ 2) + 4 * B) τ]
  refine mul_le_mul_of_nonneg_left ?_ (mul_nonneg hC hA.nonneg)
  obtain ⟨W, hWd⟩ : ∃ W, W = (∑ i, pointWeight (n + 2) F (Zs.get i)) / (Zs.length : ℝ) := ⟨_, rfl⟩
  obtain ⟨E, hEd⟩ : ∃ E, E = (∑ i, etaAt A h ps (Zs.get i) * pointWeight (n + 2) F (Zs.get i)) / (Zs.length : ℝ) := ⟨_, rfl⟩
  obtain ⟨S, hSd⟩ : ∃ S, S = (∑ i, etaAt A h ps (Zs.get i) ^ 2 * pointWeight (n + 2) F (Zs.get i)) / (Zs.length : ℝ) := ⟨_, rfl⟩
  rw [← hWd] at hW0 hWB
  rw [← hWd, ← hEd] at hE
  rw [← hWd, ← hSd] at hS
  rw [← hWd, ← hEd, ← hSd]
  have hmW : 0 < m * W := mul_pos hm hW0
  have h1 : W ^ 2 * S / E ^ 2 ≤ W ^ 2 * (M ^ 2 * W) / (m * W) ^ 2 :=
    div_le_div₀ (by positivity) (mul_le_mul_of_nonneg_left hS (by positivity)) (by positivity) (pow_le_pow_left₀ hmW.le hE 2)
  have h2 : W ^ 2 * (M ^ 2 * W) / (m * W) ^ 2 = W * (M ^ 2 / m ^ 2) := by field_simp
  have h3 : W * (M ^ 2 / m ^ 2) ≤ B * (M ^ 2 / m ^ 2) := mul_le_mul_of_nonneg_right hWB (by positivity)
  linarith

end Cyjax
