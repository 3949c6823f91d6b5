import Verif.Spec.Poly

/-! # Specification vocabulary for the defaults of `from_coeffs_and_powers` -/

namespace Cyjax.Spec

/-- The alphabet. -/
def alphabet : List Char := "abcdefghijklmnopqrstuvwxyz".toList

/-- The polynomial of the documentation for variables with the names `ns` and entries numbered
from `0`: `∑ c, coeffs c * ∏ p, coeffs_params c p * ∏ v i, (v_i) ^ powers v c i`. -/
noncomputable def documentedSum {M n : ℕ} {d : Fin n → ℕ} (ns : Fin n → List Char) (coeffs : Fin M → ℂ)
    (cp : Fin M → List Polynomial.Sym) (p : (v : Fin n) → Fin M → Fin (d v) → ℕ)
    (ρ : Polynomial.Sym → ℂ) : ℂ :=
  ∑ c, coeffs c * ((cp c).map ρ).prod *
    ∏ v, ∏ i : Fin (d v), ρ (Polynomial.mergeSubscript (ns v) i) ^ p v c i

end Cyjax.Spec
