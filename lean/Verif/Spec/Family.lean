import Verif.Spec.Samplable
import Mathlib.MeasureTheory.Constructions.Pi
import Mathlib.MeasureTheory.Measure.Lebesgue.Basic

/-! # Specification: families of hypersurfaces and random moduli -/

namespace Cyjax.Spec

open Cyjax.Polynomial Cyjax.Variety MvPolynomial MeasureTheory

/-- The variety `V` with `k` parameters is a family of hypersurfaces of degree `e` in projective space of dimension `m`: the
coefficients of the form `Φ` are polynomials in the parameters, and for all values of these `V` is the hypersurface that one gets
by inserting them in `Φ`. -/
structure Family (V : HomKind) (k m e : ℕ) (Φ : MvPolynomial (Fin (m + 1)) (MvPolynomial (Fin k) ℂ)) : Prop where
  homogeneous : Φ.IsHomogeneous e
  member : ∀ ps : Fin k → ℂ, Hypersurface V (.vec (List.ofFn ps)) m e (map (eval ps) Φ)

/-- Uniform distribution on `[-1, 1)`. -/
noncomputable def unifSym : Measure ℝ := (2⁻¹ : ENNReal) • volume.restrict (Set.Ico (-1) 1)

/-- The law of the numbers drawn by `uniform_components(key, (rows, k))`: two arrays (real and imaginary parts) of independent
uniform numbers. -/
noncomputable def cubeLaw (rows k : ℕ) : Measure (Fin 2 → Fin rows → Fin k → ℝ) :=
  Measure.pi fun _ => Measure.pi fun _ => Measure.pi fun _ => unifSym

instance : IsProbabilityMeasure unifSym := ⟨by
  unfold unifSym
  rw [Measure.smul_apply, Measure.restrict_apply_univ, Real.volume_Ico, smul_eq_mul]
  norm_num
  exact ENNReal.inv_mul_cancel (by norm_num) (by norm_num)⟩

instance (rows k : ℕ) : IsProbabilityMeasure (cubeLaw rows k) := by unfold cubeLaw; infer_instance

end Cyjax.Spec
