import Verif.Model.Geometry
import Verif.Spec.Wirtinger
import Mathlib.Analysis.Calculus.Deriv.Basic

/-! # Sections with their derivatives (for C64–C68) -/

namespace Cyjax.Spec

open Cyjax.Donaldson

/-- `S z` consists of the values at `z` of holomorphic functions and of their first and second derivatives, as computed
by `jacfwd` (`cyjax/donaldson.py:364-372`). -/
structure IsJet {N n : ℕ} (S : (Fin n → ℂ) → Jet N n) : Prop where
  first : ∀ z a i, HasDerivAt (fun t => (S (Function.update z i t)).s a) ((S z).s1 a i) (z i)
  second : ∀ z a i j, HasDerivAt (fun t => (S (Function.update z j t)).s1 a i) ((S z).s2 a i j) (z j)
  symm : ∀ z a i j, (S z).s2 a i j = (S z).s2 a j i
  third : ∀ z a i j k, DifferentiableAt ℂ (fun t => (S (Function.update z k t)).s2 a i j) (z k)

/-- `E z` consists of the gradient of the defining polynomial, a fixed dependent coordinate `d` and the holomorphic
derivative of the Jacobian of the embedding, as computed by `jacfwd` (`cyjax/donaldson.py:615-618`), wherever the
derivative in the dependent coordinate does not vanish. -/
structure IsEmb {n : ℕ} (d : Fin (n + 1)) (E : (Fin (n + 1) → ℂ) → Graph.Emb n) : Prop where
  dependent : ∀ z, (E z).dependent = ((d : ℕ) : ℤ)
  gradDef : ∀ z a, ContinuousAt (fun t => (E (Function.update z a t)).gradDef d) (z a)
  first : ∀ z, (E z).gradDef d ≠ 0 → ∀ r i a,
    HasDerivAt (fun t => Graph.jac (E (Function.update z a t)) r i) ((E z).jacH r i a) (z a)
  second : ∀ z, (E z).gradDef d ≠ 0 → ∀ r i a b,
    DifferentiableAt ℂ (fun t => (E (Function.update z b t)).jacH r i a) (z b)

end Cyjax.Spec
