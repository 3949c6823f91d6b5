import Verif.Lemmas.RicciScalar
import Verif.Props.RicciFlat

/-! # C151: the Ricci scalar detects Ricci-flatness -/

namespace Cyjax

open MeasureTheory ProbabilityTheory MvPolynomial Cyjax.Spec Cyjax.Polynomial Cyjax.Variety Cyjax.Donaldson Cyjax.Projective Set
  Filter Topology
open scoped ENNReal ComplexOrder

variable {n : ℕ} {F : MvPolynomial (Fin (n + 2)) ℂ} {A : AlgebraicMetric (n + 1)} {ps : List ℂ} {o : SymOrder}
  (ho : o.Valid) {roots : List ℂ → List ℂ} (hr : CompleteRoots roots) (hsm : SmoothHypersurface F) (hn : n ≠ 0)
  (p : Fin (n + 2)) (d : Fin (n + 1)) (hS : Samplable A.variety (n + 1) (n + 2) ps)
  (hF : Hypersurface A.variety (.vec ps) (n + 1) (n + 2) F) (hB : SpansModulo F A.sections.degree A.sections.rows)
  (hk : A.sections.degree ≠ 0) (h : A.H) (hh : h.PosDef)

include hsm hn hF hB hk hh

/-- **C151.** A metric whose Ricci scalar is zero at every point is Ricci-flat: the whole Ricci matrix is zero at every point,
although at a single point the scalar is only one number formed of the matrix. -/
theorem C151_flat :
    (∀ Z, Z ≠ 0 → eval Z F = 0 → A.ricciScalar h (List.ofFn Z) (.vec ps) none none none = .ok 0) ↔
      ∀ (q : Fin (n + 2)) (d' : Fin (n + 1)) (z G : Fin (n + 1) → ℂ),
        defining A.variety (List.ofFn z) (.vec ps) (some (.index q)) = .ok 0 →
        gradDefining A.variety z (.vec ps) (some (.index q)) = .ok G → G d' ≠ 0 →
        A.ricci h (List.ofFn z) (.vec ps) (some (q : ℕ)) (some (d' : ℕ)) none = .ok (0, (q : ℕ), ((d' : ℕ) : ℤ)) := by
  constructor
  · intro h0 q d' z G hz hG hd
    obtain ⟨c, hc⟩ := const_of_scalar hsm hF hB hk h hh hn 1 one_ne_zero fun Z hZ hZ0 c hc => by
      rw [h0 Z hZ hZ0] at hc
      rw [← Except.ok.inj hc]
      simp
    have h1 := Except.ok.inj ((hF.defining q z).symm.trans hz)
    have h2 := Except.ok.inj (hG.symm.trans (hF.grad q z))
    rw [h2] at hd
    exact flat_of_const hsm hF hB hk h hh hc q d' z h1 hd
  · intro hflat Z hZ h0
    obtain ⟨q, hq⟩ : ∃ q, Z q ≠ 0 := by
      by_contra! hcon
      exact hZ (funext hcon)
    obtain ⟨c, hc⟩ := const_of_flat hsm hF hB hk h hh hn fun q d' z h0 hd =>
      hflat q d' z _ (by rw [hF.defining, h0]) (hF.grad q z) hd
    have haff : eval (affineToHom (homToAffine Z (q : ℕ)) (q : ℕ)) F = 0 := by
      rw [C16_roundtrip Z q hq, show (fun i => Z i / Z q) = fun i => (Z q)⁻¹ * Z i from funext fun i => by ring,
        eval_smul_homogeneous hF.homogeneous, h0, mul_zero]
    obtain ⟨d', hd'⟩ := smooth_affine hF.homogeneous Z h0 (hsm Z hZ h0) q hq
    obtain ⟨φ, hch, hφ, -⟩ := exists_chart (homToAffine Z (q : ℕ)) haff hd'
    obtain ⟨v, h1, h2⟩ := C109_scalar hF h hh hB hk Z h0 (hsm Z hZ h0) hZ
    have h3 := h1 1 one_ne_zero
    simp only [one_mul] at h3
    have h4 := (h2 q hq).2 _ (hF.grad q _) d' hd'
    have h5 := hch.scalar hsm hF hB hk h hh
    rw [hφ, h4] at h5
    rw [h3, Except.ok.inj h5]
    refine congrArg Except.ok ?_
    rw [neg_eq_zero]
    refine Finset.sum_eq_zero fun r _ => Finset.sum_eq_zero fun s _ => ?_
    rw [levi_congr (g := fun _ => ((Real.log c : ℝ) : ℂ))]
    · simp [dz, dzbar]
    · filter_upwards [hch.eventually] with y hy
      rw [hc _ (affine_ne_zero _ _) hy.zero]

include hS

/-- **C151.** The accuracy is zero exactly if the Ricci scalar is zero at every point. -/
theorem C151_accuracy :
    accuracy (cyMeasure p d F) (etaAt A h ps) = 0 ↔
      ∀ Z, Z ≠ 0 → eval Z F = 0 → A.ricciScalar h (List.ofFn Z) (.vec ps) none none none = .ok 0 := by
  rw [C138_flat hsm hn p d hS hF hB hk h hh, C151_flat hsm hn hF hB hk h hh]

/-- **C151.** Unless the metric is Ricci-flat, its Ricci scalar is positive at some point and negative at another. -/
theorem C151_signs (hne : accuracy (cyMeasure p d F) (etaAt A h ps) ≠ 0) :
    (∃ (Z : Fin (n + 2) → ℂ) (c : ℝ), Z ≠ 0 ∧ eval Z F = 0 ∧
      A.ricciScalar h (List.ofFn Z) (.vec ps) none none none = .ok (c : ℂ) ∧ 0 < c) ∧
    ∃ (Z : Fin (n + 2) → ℂ) (c : ℝ), Z ≠ 0 ∧ eval Z F = 0 ∧
      A.ricciScalar h (List.ofFn Z) (.vec ps) none none none = .ok (c : ℂ) ∧ c < 0 := by
  have hreal : ∀ Z, Z ≠ 0 → eval Z F = 0 → ∃ c : ℝ, A.ricciScalar h (List.ofFn Z) (.vec ps) none none none = .ok (c : ℂ) := by
    intro Z hZ h0
    obtain ⟨q, d', K, g, η, R, c, -, -, -, -, -, -, -, -, -, -, hc, hci⟩ := C105_smooth hF h hh hB hk Z hZ h0 (hsm Z hZ h0)
    exact ⟨c.re, by rw [hc]; exact congrArg Except.ok (Complex.ext rfl (by simpa using hci))⟩
  have key : ∀ σ : ℝ, σ ≠ 0 → ∃ (Z : Fin (n + 2) → ℂ) (c : ℝ), Z ≠ 0 ∧ eval Z F = 0 ∧
      A.ricciScalar h (List.ofFn Z) (.vec ps) none none none = .ok (c : ℂ) ∧ 0 < σ * c := by
    intro σ hσ
    by_contra! hcon
    apply hne
    obtain ⟨c, hc⟩ := const_of_scalar hsm hF hB hk h hh hn σ hσ fun Z hZ h0 c hc => by
      obtain ⟨c', hc'⟩ := hreal Z hZ h0
      rw [hc] at hc'
      rw [Except.ok.inj hc', Complex.ofReal_re]
      exact hcon Z c' hZ h0 (by rw [hc, hc'])
    rw [C138_constant hsm hn p d hS hF hB hk h hh]
    exact ⟨(c : ℂ), fun Z hZ h0 => by rw [(etaAt_pos hF h hB hh hsm hk Z hZ h0).2, hc Z hZ h0]⟩
  obtain ⟨Z, c, h1, h2, h3, h4⟩ := key 1 one_ne_zero
  obtain ⟨Z', c', h1', h2', h3', h4'⟩ := key (-1) (by norm_num)
  exact ⟨⟨Z, c, h1, h2, h3, by linarith⟩, Z', c', h1', h2', h3', by linarith⟩

include ho hr

/-- **C151.** The result of `sigma_accuracy` converges to zero in probability, as the number of points grows, exactly if the
Ricci scalar is zero at every point. -/
theorem C151_sigma_accuracy :
    (∀ ε > 0, Tendsto (fun count : ℕ => normalsLaw (n + 2) (sampleCount count (n + 2))
      {x | ε ≤ |resultOrZero (A.sigmaAccuracy h o roots ps count (asLists (lineDraws x)))|}) atTop (𝓝 0)) ↔
      ∀ Z, Z ≠ 0 → eval Z F = 0 → A.ricciScalar h (List.ofFn Z) (.vec ps) none none none = .ok 0 := by
  rw [C138_sigma_accuracy ho hr hsm hn hS hF hB hk h hh, ← (C138_homogeneous hsm hn 0 0 hS hF hB hk h hh).1,
    C151_accuracy hsm hn 0 0 hS hF hB hk h hh]

omit hsm hn hS hF hB hk hh ho hr in
/-- The hypotheses of C151 hold for the Dwork quintic with `psi = 2`, all sections of degree 2 and `h = 1`. -/
example : ∃ (A : AlgebraicMetric 4) (F : MvPolynomial (Fin 5) ℂ) (h : A.H),
    A = ⟨.dwork 5 (.flag true), monomialBasisFull 4 2⟩ ∧
      (accuracy (cyMeasure (n := 3) 0 0 F) (etaAt (n := 3) A h [2]) = 0 ↔
        ∀ Z : Fin 5 → ℂ, Z ≠ 0 → eval Z F = 0 → A.ricciScalar h (List.ofFn Z) (.vec [2]) none none none = .ok 0) := by
  obtain ⟨F, hF, hsm⟩ := C114_quintic 2 []
  exact ⟨⟨.dwork 5 (.flag true), monomialBasisFull 4 2⟩, F, 1, rfl,
    C151_accuracy (n := 3) (A := ⟨.dwork 5 (.flag true), monomialBasisFull 4 2⟩)
      (hsm.2 (by norm_num)) (by norm_num) 0 0 (.dwork 4 (.flag true) (by simp [DworkFactor.value]) 2) hF
      (C105_sections F 2).1 two_ne_zero 1 Matrix.PosDef.one⟩

end Cyjax
