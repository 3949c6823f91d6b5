import Verif.Lemmas.AllCounts
import Verif.Lemmas.LossNormal
import Verif.Props.LossLimit

/-! # The loss without the last points (C188, C191) -/

namespace Cyjax

open MeasureTheory ProbabilityTheory MvPolynomial Cyjax.Spec Cyjax.Polynomial Cyjax.Variety Cyjax.Donaldson Cyjax.Projective Cyjax.Ml Set
  Filter Topology
open scoped ENNReal NNReal ComplexOrder

variable {n : ℕ} {F : MvPolynomial (Fin (n + 2)) ℂ} {A : AlgebraicMetric (n + 1)} {ps : List ℂ} {o : SymOrder}
  (ho : o.Valid) {roots : List ℂ → List ℂ} (hr : CompleteRoots roots) (hsm : SmoothHypersurface F) (hn : n ≠ 0)
  (p : Fin (n + 2)) (d : Fin (n + 1)) (hS : Samplable A.variety (n + 1) (n + 2) ps)
  (hF : Hypersurface A.variety (.vec ps) (n + 1) (n + 2) F) (hB : SpansModulo F A.sections.degree A.sections.rows)
  (hk : A.sections.degree ≠ 0) (h : A.H) (hh : h.PosDef)

/-- The loss on `count` of the points of `L` lines. -/
noncomputable abbrev lossOf (A : AlgebraicMetric (n + 1)) (o : SymOrder) (roots : List ℂ → List ℂ) (ps : List ℂ) (h : A.H)
    (count : ℕ) {L : ℕ} (x : Fin 2 → Fin L → Fin (2 * (n + 2)) → ℝ) : ℝ :=
  resultOrZero (sampleRow n A.variety o roots (fun _ : Unit => asLists (lineDraws x)) count () ps >>= varianceEtaLossRow A h)

include ho hr hsm hn hS hF hB hk hh

/-- The points left out on the last line change the loss by little. -/
theorem loss_counts_close : ∃ C : ℝ, ∀ count : ℕ, count ≠ 0 → ∀ᵐ x ∂normalsLaw (n + 2) (sampleCount count (n + 2)),
    |lossOf A o roots ps h count x - lossOf A o roots ps h (sampleCount count (n + 2) * (n + 2)) x| ≤ C / count := by
  have hom := hF.homogeneous
  have he0 : n + 2 ≠ 0 := by omega
  have hirr := smooth_irreducible (by omega) hom he0 hsm
  obtain ⟨B, hB0, hle⟩ := pointWeight_bounded hom hsm
  obtain ⟨c, hc0, hge⟩ := pointWeight_lower hom hsm
  obtain ⟨M, hM⟩ := etaAt_bounded hF h hB hh hsm
  obtain ⟨μ, hμ, hlow⟩ := etaAt_lower hsm hF hB hk h hh
  obtain ⟨η, hη⟩ : ∃ η, η = etaAt A h ps := ⟨_, rfl⟩
  obtain ⟨w, hw⟩ : ∃ w, w = pointWeight (n + 2) F := ⟨_, rfl⟩
  refine ⟨2 * B * (n + 2 : ℕ) * (|M| ^ 2 / μ ^ 2 + 1) + B * (2 * |M| ^ 2 * (n + 2 : ℕ) * B / c / μ ^ 2 +
    |M| ^ 2 * (2 * |M| * (2 * |M| * (n + 2 : ℕ) * B / c)) / μ ^ 4), fun count hc => ?_⟩
  obtain ⟨pts, hpts⟩ := sample_sums hS hF hsm hirr ho hr he0 (sampleCount count (n + 2))
  obtain ⟨hL0, hc2, hc3⟩ := sampleCount_near n hc
  have hct : (0 : ℝ) < count := by exact_mod_cast Nat.pos_of_ne_zero hc
  filter_upwards [hpts] with x hx
  have hpt : ∀ Z ∈ pts x, 0 < w Z ∧ c ≤ w Z ∧ w Z ≤ B ∧ μ ≤ η Z ∧ |η Z| ≤ |M| := fun Z hZ => by
    obtain ⟨h1, h2⟩ := hx.2.1 Z hZ
    rw [hw, hη]
    exact ⟨hc0.trans_le (hge Z h1 h2), hge Z h1 h2, hle Z h1 h2, hlow Z h1 h2, (hM Z h1 h2).trans (le_abs_self M)⟩
  have hval : ∀ k : ℕ, k ≠ 0 → k ≤ (pts x).length → lossOf A o roots ps h k x =
      (((pts x).take k).map w).sum / k * ((((pts x).take k).map fun Z => η Z ^ 2 * w Z).sum / (((pts x).take k).map w).sum /
        ((((pts x).take k).map fun Z => η Z * w Z).sum / (((pts x).take k).map w).sum) ^ 2 - 1) ∧
      μ ≤ (((pts x).take k).map fun Z => η Z * w Z).sum / (((pts x).take k).map w).sum ∧
      (((pts x).take k).map fun Z => η Z * w Z).sum / (((pts x).take k).map w).sum ≤ |M| ∧
      |(((pts x).take k).map fun Z => η Z ^ 2 * w Z).sum / (((pts x).take k).map w).sum| ≤ |M| ^ 2 ∧
      |(((pts x).take k).map w).sum / k| ≤ B := by
    intro k hk0 hkl
    have hk1 : (0 : ℝ) < k := by exact_mod_cast Nat.pos_of_ne_zero hk0
    have hlen : ((pts x).take k).length = k := by rw [List.length_take, min_eq_left hkl]
    have hne : (pts x).take k ≠ [] := fun h0 => hk0 (by rw [← hlen, h0]; rfl)
    have hmem : ∀ Z ∈ (pts x).take k, 0 < w Z ∧ c ≤ w Z ∧ w Z ≤ B ∧ μ ≤ η Z ∧ |η Z| ≤ |M| := fun Z hZ =>
      hpt Z (List.mem_of_mem_take hZ)
    have hrow : sampleRow n A.variety o roots (fun _ : Unit => asLists (lineDraws x)) k () ps =
        .ok ⟨ps, ((pts x).take k).map homToAffineAuto, ((pts x).take k).map w⟩ := by
      unfold sampleRow
      rw [(hx.2.2.1 k).2.2.2, hw]
      rfl
    have hloss : lossOf A o roots ps h k x = ((((pts x).take k).map w).sum / k) ^ 2 *
        ((((pts x).take k).map fun Z => η Z ^ 2 * w Z).sum / k) / ((((pts x).take k).map fun Z => η Z * w Z).sum / k) ^ 2 -
        (((pts x).take k).map w).sum / k := by
      rw [lossOf, hrow]
      change resultOrZero (varianceEtaLossRow A h _) = _
      rw [row_loss hsm hF hB hk h hh _ hne (fun Z hZ => hx.2.1 Z (List.mem_of_mem_take hZ)) w fun Z hZ => (hmem Z hZ).1, hlen, hη]
      rfl
    have sums : ∀ u : List (Fin (n + 2) → ℂ), (∀ Z ∈ u, 0 < w Z ∧ c ≤ w Z ∧ w Z ≤ B ∧ μ ≤ η Z ∧ |η Z| ≤ |M|) →
        c * u.length ≤ (u.map w).sum ∧ (u.map w).sum ≤ B * u.length ∧
        μ * (u.map w).sum ≤ (u.map fun Z => η Z * w Z).sum ∧ (u.map fun Z => η Z * w Z).sum ≤ |M| * (u.map w).sum ∧
        0 ≤ (u.map fun Z => η Z ^ 2 * w Z).sum ∧ (u.map fun Z => η Z ^ 2 * w Z).sum ≤ |M| ^ 2 * (u.map w).sum := by
      intro u
      induction u with
      | nil => intro _; simp
      | cons Z u ih =>
        intro hu
        obtain ⟨i1, i2, i3, i4, i5, i6⟩ := ih fun Y hY => hu Y (List.mem_cons_of_mem _ hY)
        obtain ⟨a0, a1, a2, a3, a4⟩ := hu Z List.mem_cons_self
        have a5 : η Z ≤ |M| := (le_abs_self _).trans a4
        have a6 : η Z ^ 2 ≤ |M| ^ 2 := pow_le_pow_left₀ (hμ.le.trans a3) a5 2
        simp only [List.map_cons, List.sum_cons, List.length_cons]
        push_cast
        have p1 := mul_le_mul_of_nonneg_right a3 a0.le
        have p2 := mul_le_mul_of_nonneg_right a5 a0.le
        have p3 := mul_le_mul_of_nonneg_right a6 a0.le
        have p4 : 0 ≤ η Z ^ 2 * w Z := by positivity
        exact ⟨by linarith, by linarith, by linarith, by linarith, by linarith, by linarith⟩
    obtain ⟨s1, s2, s3, s4, s5, s6⟩ := sums _ hmem
    rw [hlen] at s1 s2
    rw [hloss]
    generalize (((pts x).take k).map w).sum = W at *
    generalize (((pts x).take k).map fun Z => η Z * w Z).sum = E at *
    generalize (((pts x).take k).map fun Z => η Z ^ 2 * w Z).sum = S at *
    have hW : 0 < W := (mul_pos hc0 hk1).trans_le s1
    have hE : 0 < E := (mul_pos hμ hW).trans_le s3
    refine ⟨?_, by rwa [le_div_iff₀ hW], by rwa [div_le_iff₀ hW], ?_, ?_⟩
    · field_simp
    · rw [abs_div, abs_of_nonneg s5, abs_of_pos hW]
      rwa [div_le_iff₀ hW]
    · rw [abs_of_pos (div_pos hW hk1)]
      rwa [div_le_iff₀ hk1]
  have h1 : count ≤ (pts x).length := by rw [hx.1]; exact hc2
  have h2 : (pts x).length ≤ count + (n + 2) := by rw [hx.1]; exact hc3
  obtain ⟨e1, r1, m1, q1, -⟩ := hval count hc h1
  obtain ⟨e2, r2, m2, q2, u2⟩ := hval (sampleCount count (n + 2) * (n + 2)) (by omega) (by rw [hx.1])
  rw [List.take_of_length_le (i := sampleCount count (n + 2) * (n + 2)) (by rw [hx.1])] at e2 r2 m2 q2 u2
  have t1 := mean_take (pts x) w (B := B) (fun Z hZ => ⟨(hpt Z hZ).1.le, (hpt Z hZ).2.2.1⟩) hc h1 h2
  rw [hx.1] at t1
  have t2 := average_take (pts x) (fun Z => η Z ^ 2) w hc0 (sq_nonneg |M|) (fun Z hZ => ⟨(hpt Z hZ).2.1, (hpt Z hZ).2.2.1, by
    rw [abs_pow]
    exact pow_le_pow_left₀ (abs_nonneg _) (hpt Z hZ).2.2.2.2 2⟩) hc h1 h2
  have t3 := average_take (pts x) η w hc0 (abs_nonneg M) (fun Z hZ => ⟨(hpt Z hZ).2.1, (hpt Z hZ).2.2.1, (hpt Z hZ).2.2.2.2⟩) hc h1 h2
  rw [e1, e2]
  refine (loss_lipschitz hμ r1 r2 m1 m2 q1 q2 u2 t1 t2 t3).trans (le_of_eq ?_)
  field_simp

end Cyjax
