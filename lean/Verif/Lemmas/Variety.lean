import Verif.Model.Variety
import Verif.Lemmas.Differential
import Verif.Lemmas.Argmax
import Verif.Props.Differential
import Verif.Props.FubiniStudy
import Mathlib.Analysis.Matrix.PosDef

namespace Cyjax.Variety

open Cyjax.Polynomial Cyjax.Util Cyjax.Projective Cyjax.Differential Matrix
open scoped ComplexOrder

theorem chooseDep_eq {n : ℕ} (g : Fin (n + 1) → ℂ) (dep : Option (Fin (n + 1))) :
    ∃ d : Fin (n + 1), chooseDep g (dep.map fun d => ((d : ℕ) : ℤ)) = ((d : ℕ) : ℤ) ∧
      (∀ d', dep = some d' → d = d') ∧ (dep = none → ∀ i, ‖g i‖ ≤ ‖g d‖) := by
  cases dep with
  | none => exact ⟨_, rfl, by simp, fun _ => (argmax_spec fun i => ‖g i‖).1⟩
  | some d => exact ⟨d, rfl, by simp, by simp⟩

theorem weightParts_eq {n : ℕ} (g zs : Fin (n + 1) → ℂ) (dep : Option ℤ) (d : Fin (n + 1))
    (hd : chooseDep g dep = ((d : ℕ) : ℤ)) (vol : Option ℝ) :
    weightParts g zs dep vol =
      match vol with
      | none => (1 / ‖g d‖ ^ 2, (inducedMetric (fsMetricAt zs) g (d : ℕ) none).det.re, ‖g d‖ ^ 2)
      | some v => (1 / ‖g d‖ ^ 2 * v, (inducedMetric (fsMetricAt zs) g (d : ℕ) none).det.re *
          (n.factorial / Real.pi ^ n), ‖g d‖ ^ 2) := by
  unfold weightParts
  simp only [hd]
  have hJ : insertCol1 (fun i j : Fin n => if i = j then (1 : ℂ) else 0)
      (fun i => -(pop g ((d : ℕ) : ℤ)).2 i / (pop g ((d : ℕ) : ℤ)).1) ((d : ℕ) : ℤ) =
      jacobianEmbed g ((d : ℕ) : ℤ) := rfl
  rw [hJ, C28_pullback, pop_fst]
  cases vol <;> rfl

theorem det_induced_pos {n : ℕ} (g zs : Fin (n + 1) → ℂ) (d : Fin (n + 1)) :
    0 < (inducedMetric (fsMetricAt zs) g (d : ℕ) none).det.re := by
  have := (C28_posDef (fsMetricAt zs) (C22_fs_posDef zs) g d).det_pos
  exact (Complex.lt_def.1 this).1

theorem det_induced_density {n : ℕ} (g zs : Fin (n + 1) → ℂ) (d d' : Fin (n + 1)) (hd : g d ≠ 0) (hd' : g d' ≠ 0) :
    (inducedMetric (fsMetricAt zs) g (d : ℕ) none).det.re * ‖g d‖ ^ 2 =
      (inducedMetric (fsMetricAt zs) g (d' : ℕ) none).det.re * ‖g d'‖ ^ 2 := by
  have h := congrArg Complex.re (C29_volume_density (fsMetricAt zs) g d d' hd hd')
  simpa [← Complex.ofReal_pow, Complex.mul_re] using h

end Cyjax.Variety
