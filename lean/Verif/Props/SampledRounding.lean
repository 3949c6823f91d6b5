import Verif.Lemmas.SampledRounding
import Verif.Props.AccuracyLimit
import Verif.Props.LossLimit

/-! # C175: the accuracy and the loss computed from random points in rounded arithmetic -/

namespace Cyjax

open MeasureTheory ProbabilityTheory MvPolynomial Cyjax.Spec Cyjax.Fl Cyjax.Polynomial Cyjax.Variety Cyjax.Donaldson Cyjax.Projective Cyjax.Ml
  Set Filter Topology
open scoped ENNReal ComplexOrder

/-- There are evaluations of every accuracy at all points where the gradient is defined, with at most `k` operations in sequence. -/
theorem evaluations_exist {n : ℕ} (A : AlgebraicMetric (n + 1)) (hN : A.sections.size ≠ 0) (h : A.H) (ps : List ℂ) (k : ℕ)
    (hk : 2 * A.sections.size ≤ k) (hk' : 2 * (n + 1) ≤ k) (τ : ℝ) (hτ : 0 ≤ τ) (pts : List ((Fin (n + 1) → ℂ) × Fin (n + 2)))
    (hg : ∀ x ∈ pts, ∃ g, gradDefining A.variety x.1 (.vec ps) (some (.index x.2)) = .ok g) :
    ∃ c, AccurateAt A h ps k τ pts c := by
  choose! g hg using hg
  have hl : List.finRange A.sections.size ≠ [] := by
    rw [← List.length_pos_iff, List.length_finRange]
    exact Nat.pos_of_ne_zero hN
  obtain ⟨t, ht, htd⟩ := exists_tree (List.finRange A.sections.size) hl
  obtain ⟨t', ht', htd'⟩ := exists_tree (List.finRange (n + 1)) (by rw [← List.length_pos_iff, List.length_finRange]; omega)
  rw [List.length_finRange] at htd htd'
  have hc : t.Covers := by unfold RTree.Covers; rw [ht]
  have hc' : t'.Covers := by unfold RTree.Covers; rw [ht']
  refine ⟨fun j => ⟨h, (sectionsJet A.sections ((pts.get j).2 : ℕ) (pts.get j).1).s, (sectionsJet A.sections ((pts.get j).2 : ℕ) (pts.get j).1).s1,
    g (pts.get j), Matrix.det, ⟨true, t, t⟩, ⟨true, t, t⟩, ⟨false, t, t⟩, ⟨true, t', t'⟩, t', t', t'⟩, fun j =>
    ⟨g (pts.get j), hg _ (List.get_mem _ _), ?_, ?_, ?_, ?_, ?_,
      ⟨hc, hc, by dsimp only; omega⟩, ⟨hc, hc, by dsimp only; omega⟩, ⟨hc, hc, by dsimp only; omega⟩,
      ⟨hc', hc', by dsimp only; omega⟩, ⟨hc', by dsimp only; omega⟩, hc', hc', by dsimp only; omega⟩⟩
  · intro i j
    rw [sub_self, norm_zero]
    exact hτ
  · intro i
    rw [RelErr, sub_self, norm_zero]
    positivity
  · intro i a
    rw [RelErr, sub_self, norm_zero]
    positivity
  · intro i
    rw [sub_self, norm_zero]
    exact hτ
  · intro X b hb
    exact ⟨0, fun i j => by
      rw [Matrix.zero_apply, norm_zero]
      exact mul_nonneg hτ ((norm_nonneg _).trans (hb i j)), by rw [add_zero]⟩

variable {n : ℕ} {F : MvPolynomial (Fin (n + 2)) ℂ} {A : AlgebraicMetric (n + 1)} {ps : List ℂ} {o : SymOrder}
  (ho : o.Valid) {roots : List ℂ → List ℂ} (hr : CompleteRoots roots) (hsm : SmoothHypersurface F) (hn : n ≠ 0)
  (p : Fin (n + 2)) (d : Fin (n + 1)) (hS : Samplable A.variety (n + 1) (n + 2) ps)
  (hF : Hypersurface A.variety (.vec ps) (n + 1) (n + 2) F) (hB : SpansModulo F A.sections.degree A.sections.rows)
  (hk : A.sections.degree ≠ 0) (h : A.H) (hh : h.PosDef)

include hsm hn hS hF hB hk hh ho hr

/-- **C175.** The accuracy computed from `count` sampled points, in any arithmetic of accuracy `τ` and with any evaluations that are accurate to
`τ` at these points, is within `ε + C τ` of the accuracy `1/V ∫ |1 - η V/K| |Ω|²` over the hypersurface, except with probability at most
`C' / (count ε²)`. The exceptions include draws for which the sampling fails. `C'` depends neither on the arithmetic nor on the number `k` of
operations in sequence, and `C` not on the number of points. -/
theorem C175_accuracy : ∃ C' : ℝ, ∀ k : ℕ, ∃ C τ₀ : ℝ, 0 ≤ C ∧ 0 < τ₀ ∧ ∀ τ ≤ τ₀, ∀ count : ℕ, count ≠ 0 → ∀ ε > 0,
    normalsLaw (n + 2) (sampleCount count (n + 2))
      {x | ¬ ∃ pts, sampleIntersectAffine (n + 1) A.variety o roots ps count (asLists (lineDraws x)) = .ok pts ∧ pts.length = count ∧
        ∀ s, ComputedAccuracy A h ps k τ pts s → |s - accuracy (cyMeasure p d F) (etaAt A h ps)| < ε + C * τ} ≤
      ENNReal.ofReal (C' / (count * ε ^ 2)) := by
  obtain ⟨C', hC'⟩ := (C133_error ho hr hsm hn p d hS hF hB hk h hh).1
  refine ⟨C', fun k => ?_⟩
  obtain ⟨C, τ₀, hC, hτ₀, H⟩ := computed_accuracy hsm hF hB hk h hh k
  refine ⟨C, τ₀, hC, hτ₀, fun τ hτ count hc ε hε => le_trans (measure_mono_ae ?_) (hC' count hc ε hε)⟩
  have he0 : n + 2 ≠ 0 := by omega
  obtain ⟨pts, hpts⟩ := sample_sums hS hF hsm (smooth_irreducible (by omega) hF.homogeneous he0 hsm) ho hr he0 (sampleCount count (n + 2))
  have hc2 := (sampleCount_mul count (n + 2) (by omega)).1
  filter_upwards [hpts] with x hx hbad
  obtain ⟨Zs, hZs⟩ : ∃ Zs, Zs = (pts x).take count := ⟨_, rfl⟩
  obtain ⟨-, hw, -, -⟩ := hx.2.2.1 count
  rw [← hZs] at hw
  have hlen : Zs.length = count := by rw [hZs, List.length_take, hx.1, min_eq_left hc2]
  have hmem : ∀ Z ∈ Zs, Z ≠ 0 ∧ eval Z F = 0 := fun Z hZ => hx.2.1 Z (List.mem_of_mem_take (by rw [← hZs]; exact hZ))
  have hsmp := hom_of_weights hw
  change ε ≤ |resultOrZero (A.sigmaAccuracy h o roots ps count (asLists (lineDraws x))) - accuracy (cyMeasure p d F) (etaAt A h ps)|
  rw [sigma_exact hsm hF hB hk h hh o roots count _ Zs hsmp hmem]
  by_contra hcon
  rw [not_le] at hcon
  refine hbad ⟨Zs.map homToAffineAuto, affine_of_sample hsmp, by rw [List.length_map, hlen], fun s hs => ?_⟩
  exact (abs_sub_le _ _ _).trans_lt (by
    have hcon' : |sigmaAccuracy (fun i => (etaAt A h ps (Zs.get i) : ℂ)) (fun i => pointWeight (n + 2) F (Zs.get i)) -
      accuracy (cyMeasure p d F) (etaAt A h ps)| < ε := hcon
    rw [add_comm ε]
    exact add_lt_add_of_le_of_lt (H τ hτ Zs hmem s hs) hcon')

/-- **C175.** The same for the training loss: computed from `count` sampled points it is within `ε + C τ` of `∫ (1 - η V/K)² |Ω|² / (n + 2)`
except with probability at most `C' / (count ε²)`. -/
theorem C175_loss : ∃ C' : ℝ, ∀ k : ℕ, ∃ C τ₀ : ℝ, 0 ≤ C ∧ 0 < τ₀ ∧ ∀ τ ≤ τ₀, ∀ count : ℕ, count ≠ 0 → ∀ ε > 0,
    normalsLaw (n + 2) (sampleCount count (n + 2))
      {x | ¬ ∃ row, sampleRow n A.variety o roots (fun _ : Unit => asLists (lineDraws x)) count () ps = .ok row ∧ row.pts.length = count ∧
        ∀ s, ComputedLoss A h ps k τ row.pts s → |s - etaVariance (cyMeasure p d F) (etaAt A h ps) / (n + 2)| < ε + C * τ} ≤
      ENNReal.ofReal (C' / (count * ε ^ 2)) := by
  obtain ⟨C', hC'⟩ := (C174_error ho hr hsm hn p d hS hF hB hk h hh).1
  refine ⟨C', fun k => ?_⟩
  obtain ⟨C, τ₀, hC, hτ₀, H⟩ := computed_loss hsm hF hB hk h hh k
  refine ⟨C, τ₀, hC, hτ₀, fun τ hτ count hc ε hε => le_trans (measure_mono_ae ?_) (hC' count hc ε hε)⟩
  have he0 : n + 2 ≠ 0 := by omega
  obtain ⟨pts, hpts⟩ := sample_sums hS hF hsm (smooth_irreducible (by omega) hF.homogeneous he0 hsm) ho hr he0 (sampleCount count (n + 2))
  have hc2 := (sampleCount_mul count (n + 2) (by omega)).1
  filter_upwards [hpts] with x hx hbad
  obtain ⟨Zs, hZs⟩ : ∃ Zs, Zs = (pts x).take count := ⟨_, rfl⟩
  obtain ⟨-, -, -, haff⟩ := hx.2.2.1 count
  rw [← hZs] at haff
  have hlen : Zs.length = count := by rw [hZs, List.length_take, hx.1, min_eq_left hc2]
  have hmem : ∀ Z ∈ Zs, Z ≠ 0 ∧ eval Z F = 0 := fun Z hZ => hx.2.1 Z (List.mem_of_mem_take (by rw [← hZs]; exact hZ))
  have hne : Zs ≠ [] := fun h0 => hc (by rw [← hlen, h0]; rfl)
  have hwpos : ∀ Z ∈ Zs, 0 < pointWeight (n + 2) F Z := fun Z hZ =>
    pointWeight_pos (e := n + 2) Z (hmem Z hZ).1 (hsm Z (hmem Z hZ).1 (hmem Z hZ).2)
  have hrow : sampleRow n A.variety o roots (fun _ : Unit => asLists (lineDraws x)) count () ps =
      .ok ⟨ps, Zs.map homToAffineAuto, Zs.map (pointWeight (n + 2) F)⟩ := by
    unfold sampleRow
    rw [haff]
    rfl
  change ε ≤ |resultOrZero (_ >>= _) - _|
  rw [hrow]
  change ε ≤ |resultOrZero (varianceEtaLossRow A h _) - _|
  rw [row_loss hsm hF hB hk h hh Zs hne hmem (pointWeight (n + 2) F) hwpos]
  have hL := loss_means (by rw [hlen]; exact hc) (fun i => etaAt A h ps (Zs.get i)) (fun i => pointWeight (n + 2) F (Zs.get i))
    (fun i => (etaAt_pos hF h hB hh hsm hk _ (hmem _ (List.get_mem _ _)).1 (hmem _ (List.get_mem _ _)).2).1)
    fun i => hwpos _ (List.get_mem _ _)
  rw [sum_get Zs (pointWeight (n + 2) F), sum_get Zs fun Z => etaAt A h ps Z ^ 2 * pointWeight (n + 2) F Z,
    sum_get Zs fun Z => etaAt A h ps Z * pointWeight (n + 2) F Z] at hL
  rw [← hL]
  by_contra hcon
  rw [not_le] at hcon
  refine hbad ⟨_, hrow, by rw [List.length_map, hlen], fun s hs => ?_⟩
  exact (abs_sub_le _ _ _).trans_lt (by
    have hcon' : |varianceEtaLoss (fun i => etaAt A h ps (Zs.get i)) (fun i => pointWeight (n + 2) F (Zs.get i)) -
      etaVariance (cyMeasure p d F) (etaAt A h ps) / (n + 2)| < ε := hcon
    rw [add_comm ε]
    exact add_lt_add_of_le_of_lt (H τ hτ Zs hmem s hs) hcon')

omit hsm hn hS hF hB hk hh ho hr in
/-- The Dwork quintic with `ψ = 2`, the sections of degree two and `h = 1`. At every non-empty list of points there are values computed in
double precision. -/
example : ∃ (A : AlgebraicMetric 4) (F : MvPolynomial (Fin 5) ℂ) (h : A.H), A = ⟨.dwork 5 (.flag true), monomialBasisFull 4 2⟩ ∧
    (∃ C' : ℝ, ∀ k : ℕ, ∃ C τ₀ : ℝ, 0 ≤ C ∧ 0 < τ₀ ∧ ∀ τ ≤ τ₀, ∀ count : ℕ, count ≠ 0 → ∀ ε > 0,
      normalsLaw 5 (sampleCount count 5)
        {x | ¬ ∃ pts, sampleIntersectAffine 4 A.variety someOrder someRoots [2] count (asLists (lineDraws x)) = .ok pts ∧ pts.length = count ∧
          ∀ s, ComputedAccuracy (n := 3) A h [2] k τ pts s →
            |s - accuracy (cyMeasure (n := 3) 0 0 F) (etaAt (n := 3) A h [2])| < ε + C * τ} ≤ ENNReal.ofReal (C' / (count * ε ^ 2))) ∧
    ∀ pts : List ((Fin 4 → ℂ) × Fin 5), pts ≠ [] → ∀ k, 30 ≤ k → pts.length ≤ k →
      (∃ s, ComputedAccuracy (n := 3) A h [2] k (4 * 2 ^ (-(53 : ℤ))) pts s) ∧ ∃ s, ComputedLoss (n := 3) A h [2] k (4 * 2 ^ (-(53 : ℤ))) pts s := by
  obtain ⟨F, hF, hsm⟩ := C114_quintic 2 []
  refine ⟨⟨.dwork 5 (.flag true), monomialBasisFull 4 2⟩, F, 1, rfl,
    C175_accuracy (n := 3) (A := ⟨.dwork 5 (.flag true), monomialBasisFull 4 2⟩) someOrder_valid someRoots_complete
      (hsm.2 (by norm_num)) (by norm_num) 0 0 (.dwork 4 (.flag true) (by simp [DworkFactor.value]) 2) hF
      (C105_sections F 2).1 two_ne_zero 1 Matrix.PosDef.one, fun pts hne k hk hlk => ?_⟩
  have hsize : (monomialBasisFull 4 2).size = 15 := (monomialBasis_length 4 2).trans (by decide)
  obtain ⟨c, hc⟩ := evaluations_exist (n := 3) ⟨.dwork 5 (.flag true), monomialBasisFull 4 2⟩ (by
    change (monomialBasisFull 4 2).size ≠ 0
    omega) 1 [2] k (by
    change 2 * (monomialBasisFull 4 2).size ≤ k
    omega) (by omega) (4 * 2 ^ (-(53 : ℤ))) (by positivity) pts fun x _ => ⟨_, hF.grad x.2 x.1⟩
  obtain ⟨t, ht, htd⟩ := exists_tree (List.finRange pts.length) (by
    rw [← List.length_pos_iff, List.length_finRange]
    exact List.length_pos_iff.2 hne)
  rw [List.length_finRange] at htd
  have htc : t.Covers := by unfold RTree.Covers; rw [ht]
  obtain ⟨f1, f2, f3, f4, f5⟩ := C173_floats 53 (by norm_num)
  refine ⟨⟨_, ofRounding (rnd 53), divAbsOfRounding (rnd 53), c, t, (C159_floats 53 (by norm_num)).2, C161_floats 53, hc, htc, by omega, rfl⟩,
    ⟨_, ofRounding (rnd 53), divAbsOfRounding (rnd 53), fun x => rnd 53 (Real.log x), c, t, (C159_floats 53 (by norm_num)).2, C161_floats 53, f5,
      fun x hx => (f4 x hx).trans ?_, hc, htc, by omega, rfl⟩⟩
  have : (0 : ℝ) ≤ 2 ^ (-(53 : ℤ)) := by positivity
  exact mul_le_mul_of_nonneg_right (le_mul_of_one_le_left this (by norm_num)) (abs_nonneg _)

end Cyjax
