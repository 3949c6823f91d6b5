import Verif.Lemmas.Levi
import Verif.Lemmas.RicciEta
import Verif.Props.Differential
import Mathlib.Analysis.Calculus.ImplicitContDiff
import Mathlib.Analysis.SpecialFunctions.Complex.LogDeriv
import Mathlib.Analysis.SpecialFunctions.Log.Deriv
import Mathlib.Analysis.InnerProductSpace.Calculus

/-! # Local holomorphic coordinates on a hypersurface (for C108) -/

namespace Cyjax.Donaldson

open Cyjax.Spec Cyjax.Differential MvPolynomial
open scoped ComplexConjugate Topology ContDiff

variable {n N : ℕ}

theorem eval_contDiff {m : ℕ} (P : MvPolynomial (Fin m) ℂ) (k : WithTop ℕ∞) : ContDiff ℂ k fun z => eval z P := by
  induction P using MvPolynomial.induction_on with
  | C a => simpa using contDiff_const
  | add p q hp hq => simpa using hp.add hq
  | mul_X p i hp => simpa using hp.mul (contDiff_apply ℂ ℂ i)

theorem eval_contDiffR {m : ℕ} (P : MvPolynomial (Fin m) ℂ) (k : WithTop ℕ∞) : ContDiff ℝ k fun z => eval z P :=
  (eval_contDiff P k).restrict_scalars ℝ

theorem fderiv_eval {m : ℕ} (P : MvPolynomial (Fin m) ℂ) (z : Fin m → ℂ) (i : Fin m) :
    fderiv ℂ (fun z => eval z P) z (Pi.single i 1) = eval z (pderiv i P) := by
  have h1 := ((eval_contDiff P 1).differentiable (by norm_num) z).hasFDerivAt
  have h2 : HasDerivAt (fun t => Function.update z i t) (Pi.single i (1 : ℂ)) (z i) := hasDerivAt_update z i (z i)
  have h3 : HasFDerivAt (fun z => eval z P) (fderiv ℂ (fun z => eval z P) z) (Function.update z i (z i)) := by
    rw [Function.update_eq_self]; exact h1
  exact (h3.comp_hasDerivAt (z i) h2).unique (eval_hasDerivAt P i z)

/-- `φ` parametrises `P = 0` near `x` by the coordinates other than `d`. -/
def Parametrises (P : MvPolynomial (Fin (n + 1)) ℂ) (d : Fin (n + 1)) (φ : (Fin n → ℂ) → Fin (n + 1) → ℂ)
    (x : Fin n → ℂ) : Prop :=
  ∀ᶠ y in 𝓝 x, DifferentiableAt ℂ φ y ∧ (∀ r, φ y (d.succAbove r) = y r) ∧ eval (φ y) P = 0

variable {P : MvPolynomial (Fin (n + 1)) ℂ} {d : Fin (n + 1)} {φ : (Fin n → ℂ) → Fin (n + 1) → ℂ} {x : Fin n → ℂ}

/-- The velocities are the rows of the Jacobian. -/
theorem Parametrises.velocity (h : Parametrises P d φ x) (hd : eval (φ x) (pderiv d P) ≠ 0) (r : Fin n) :
    dhol φ r x = jacobianEmbed (fun i => eval (φ x) (pderiv i P)) (d : ℕ) r := by
  obtain ⟨h1, h2, h3⟩ := h.self_of_nhds
  have hcont : Filter.Tendsto (fun t => Function.update x r t) (𝓝 (x r)) (𝓝 x) := by
    have : ContinuousAt (fun t => Function.update x r t) (x r) := (continuous_const.update r continuous_id).continuousAt
    simpa using this.tendsto
  have hev := hcont.eventually h
  have hderiv : HasDerivAt (fun t => φ (Function.update x r t)) (dhol φ r x) (x r) := by
    have h2 : HasDerivAt (fun t => Function.update x r t) (Pi.single r (1 : ℂ)) (x r) := hasDerivAt_update x r (x r)
    have h3 : HasFDerivAt φ (fderiv ℂ φ x) (Function.update x r (x r)) := by
      rw [Function.update_eq_self]; exact h1.hasFDerivAt
    exact h3.comp_hasDerivAt (x r) h2
  have key := C27_implicit_derivative (fun z => eval z P) (φ x) _
    ((eval_contDiff P 1).differentiable (by norm_num) (φ x)).hasFDerivAt d (by rwa [fderiv_eval]) r
    (fun t => φ (Function.update x r t)) _ (x r) (by simp) hderiv (by
      filter_upwards [hev] with t ht l
      rw [ht.2.1, h2]
      rcases eq_or_ne r l with rfl | hl
      · simp
      · simp [hl, Function.update_of_ne hl.symm]) (by
      filter_upwards [hev] with t ht
      exact ht.2.2)
  rw [key]
  simp only [fderiv_eval]

theorem Parametrises.eventually (h : Parametrises P d φ x) (hd : eval (φ x) (pderiv d P) ≠ 0) :
    ∀ᶠ y in 𝓝 x, Parametrises P d φ y ∧ eval (φ y) (pderiv d P) ≠ 0 := by
  have hc : ContinuousAt (fun y => eval (φ y) (pderiv d P)) x :=
    ((eval_contDiff (pderiv d P) 1).continuous.continuousAt).comp h.self_of_nhds.1.continuousAt
  filter_upwards [eventually_eventually_nhds.2 h, hc.eventually_ne hd] with y h1 h2
  exact ⟨h1, h2⟩

theorem Parametrises.dhol_differentiable (h : Parametrises P d φ x) (hd : eval (φ x) (pderiv d P) ≠ 0) (r : Fin n)
    (a : Fin (n + 1)) : DifferentiableAt ℂ (fun y => dhol φ r y a) x := by
  have hev : (fun y => dhol φ r y a) =ᶠ[𝓝 x] fun y => jacobianEmbed (fun i => eval (φ y) (pderiv i P)) (d : ℕ) r a := by
    filter_upwards [h.eventually hd] with y hy
    rw [hy.1.velocity hy.2]
  refine DifferentiableAt.congr_of_eventuallyEq ?_ hev
  have hφ := h.self_of_nhds.1
  have he : ∀ i, DifferentiableAt ℂ (fun y => eval (φ y) (pderiv i P)) x := fun i =>
    DifferentiableAt.comp (g := fun w => eval w (pderiv i P)) x
      ((eval_contDiff (pderiv i P) 1).differentiable (by norm_num) (φ x)) hφ
  rcases Fin.eq_self_or_eq_succAbove d a with rfl | ⟨k, rfl⟩
  · simp only [C27_dependent_column, div_eq_mul_inv]
    exact (he _).neg.mul ((he _).inv hd)
  · simp only [jacobianEmbed_indep]
    exact differentiableAt_const _

/-- The mixed second derivatives in local coordinates. -/
theorem Parametrises.levi (h : Parametrises P d φ x) (hd : eval (φ x) (pderiv d P) ≠ 0) {f : (Fin (n + 1) → ℂ) → ℂ}
    (hf : ContDiffAt ℝ 2 f (φ x)) (r s : Fin n) :
    dzbar (fun v => dz (fun y => f (φ y)) r v) s x =
      (jacobianEmbed (fun i => eval (φ x) (pderiv i P)) (d : ℕ) *
        (Matrix.of fun a b => dzbar (fun v => dz f a v) b (φ x)) *
        (jacobianEmbed (fun i => eval (φ x) (pderiv i P)) (d : ℕ)).conjTranspose) r s := by
  rw [levi_comp hf (h.mono fun y hy => hy.1) (h.dhol_differentiable hd) r s]
  simp only [h.velocity hd, Matrix.mul_apply, Matrix.conjTranspose_apply, Matrix.of_apply, Finset.sum_mul]
  rw [Finset.sum_comm]
  rfl

private theorem omega_ne_zero : (ω : WithTop ℕ∞) ≠ 0 := by simp

/-- The implicit function theorem: a parametrisation exists, and every nearby zero is on it. -/
theorem parametrises_analytic (P : MvPolynomial (Fin (n + 1)) ℂ) (d : Fin (n + 1)) (z : Fin (n + 1) → ℂ)
    (h0 : eval z P = 0) (hd : eval z (pderiv d P) ≠ 0) :
    ∃ φ, Parametrises P d φ (fun r => z (d.succAbove r)) ∧ ContDiffAt ℂ ω φ (fun r => z (d.succAbove r)) ∧
      φ (fun r => z (d.succAbove r)) = z ∧
      ∀ᶠ w in 𝓝 z, eval w P = 0 → φ (fun r => w (d.succAbove r)) = w := by
  let ι : (Fin n → ℂ) × ℂ → Fin (n + 1) → ℂ := fun u => d.insertNth u.2 u.1
  have hι : ContDiff ℂ ω ι := by
    rw [contDiff_pi]
    intro a
    rcases Fin.eq_self_or_eq_succAbove d a with rfl | ⟨k, rfl⟩
    · simpa [ι] using contDiff_snd
    · simpa [ι, Function.comp_def] using (contDiff_apply ℂ ℂ k).comp (contDiff_fst (𝕜 := ℂ) (E := Fin n → ℂ) (F := ℂ))
  let f : (Fin n → ℂ) × ℂ → ℂ := fun u => eval (ι u) P
  let u : (Fin n → ℂ) × ℂ := (fun r => z (d.succAbove r), z d)
  have hu : ι u = z := by
    funext a
    rcases Fin.eq_self_or_eq_succAbove d a with rfl | ⟨k, rfl⟩ <;> simp [ι, u]
  have hf : ContDiffAt ℂ ω f u := ((eval_contDiff P ω).comp hι).contDiffAt
  have hpart : ∀ c : ℂ, fderiv ℂ f u (0, c) = eval z (pderiv d P) * c := by
    intro c
    have h1 : HasDerivAt (fun t : ℂ => ((fun r => z (d.succAbove r), t) : (Fin n → ℂ) × ℂ)) (0, 1) (z d) :=
      (hasDerivAt_const _ _).prodMk (hasDerivAt_id _)
    have h2 := ((hf.differentiableAt (by simp)).hasFDerivAt : HasFDerivAt f _ u).comp_hasDerivAt (z d) h1
    have h3 : (f ∘ fun t : ℂ => ((fun r => z (d.succAbove r), t) : (Fin n → ℂ) × ℂ)) =
        fun t => eval (Function.update z d t) P := by
      funext t
      simp only [Function.comp, f, ι]
      congr 2
      funext a
      rcases Fin.eq_self_or_eq_succAbove d a with rfl | ⟨k, rfl⟩ <;> simp
    rw [h3] at h2
    have h4 := h2.unique (eval_hasDerivAt P d z)
    have : ((0, c) : (Fin n → ℂ) × ℂ) = c • (0, 1) := by simp
    rw [this, map_smul, h4, smul_eq_mul, mul_comm]
  have hinv : (fderiv ℂ f u ∘L .inr ℂ (Fin n → ℂ) ℂ).IsInvertible := by
    refine ⟨ContinuousLinearEquiv.unitsEquivAut ℂ (Units.mk0 _ hd), ?_⟩
    ext
    simp [hpart]
  refine ⟨fun y => ι (y, hf.implicitFunction omega_ne_zero hinv y), ?_, ?_, ?_, ?_⟩
  · have h1 := hf.eventually_apply_implicitFunction omega_ne_zero hinv
    have h2 : ∀ᶠ y in 𝓝 u.1, DifferentiableAt ℂ (hf.implicitFunction omega_ne_zero hinv) y := by
      filter_upwards [(hf.contDiffAt_implicitFunction omega_ne_zero hinv).eventually (by simp)] with y hy
      exact hy.differentiableAt (by simp)
    filter_upwards [h1, h2] with y hy hy2
    refine ⟨?_, fun r => by simp [ι], ?_⟩
    · exact (hι.differentiable (by simp) _).comp y (differentiableAt_id.prodMk hy2)
    · refine hy.trans ?_
      change eval (ι u) P = 0
      rw [hu, h0]
  · exact (hι.contDiffAt).comp u.1 (contDiffAt_id.prodMk (hf.contDiffAt_implicitFunction omega_ne_zero hinv))
  · change ι (u.1, hf.implicitFunction omega_ne_zero hinv u.1) = z
    rw [hf.implicitFunction_apply_self omega_ne_zero hinv]
    exact hu
  · have h1 := hf.eventually_apply_eq_iff_implicitFunction omega_ne_zero hinv
    have hproj : Continuous fun w : Fin (n + 1) → ℂ => ((fun r => w (d.succAbove r), w d) : (Fin n → ℂ) × ℂ) := by
      fun_prop
    have h2 := (hproj.tendsto z).eventually h1
    filter_upwards [h2] with w hw h0w
    have e : ι (fun r => w (d.succAbove r), w d) = w := by
      funext a
      rcases Fin.eq_self_or_eq_succAbove d a with rfl | ⟨k, rfl⟩ <;> simp [ι]
    have h3 : hf.implicitFunction omega_ne_zero hinv (fun r => w (d.succAbove r)) = w d := by
      refine hw.1 ?_
      change eval (ι _) P = eval (ι u) P
      rw [e, hu, h0, h0w]
    rw [h3, e]

theorem parametrises_exists (P : MvPolynomial (Fin (n + 1)) ℂ) (d : Fin (n + 1)) (z : Fin (n + 1) → ℂ)
    (h0 : eval z P = 0) (hd : eval z (pderiv d P) ≠ 0) :
    ∃ φ, Parametrises P d φ (fun r => z (d.succAbove r)) ∧ ContDiffAt ℂ 2 φ (fun r => z (d.succAbove r)) ∧
      φ (fun r => z (d.succAbove r)) = z ∧
      ∀ᶠ w in 𝓝 z, eval w P = 0 → φ (fun r => w (d.succAbove r)) = w := by
  obtain ⟨φ, h1, h2, h3⟩ := parametrises_analytic P d z h0 hd
  exact ⟨φ, h1, h2.of_le le_top, h3⟩

/-! ## Smoothness of the potentials -/

variable {H : Matrix (Fin N) (Fin N) ℂ} {B : Fin N → MvPolynomial (Fin (n + 1)) ℂ}
  {l : WithTop ℕ∞}

theorem conj_contDiff {f : (Fin (n + 1) → ℂ) → ℂ} {z : Fin (n + 1) → ℂ} {k : WithTop ℕ∞} (hf : ContDiffAt ℝ k f z) :
    ContDiffAt ℝ k (fun w => conj (f w)) z :=
  (Complex.conjCLE.contDiff.contDiffAt).comp z hf

theorem psi_contDiff (z : Fin (n + 1) → ℂ) : ContDiffAt ℝ l (fun w => Graph.psi (.full H) (polyJet B w)) z :=
  ContDiffAt.sum (s := Finset.univ) fun i _ => ContDiffAt.sum (s := Finset.univ) fun j _ =>
    (((eval_contDiffR (B i) l).contDiffAt).mul (contDiffAt_const (c := H i j))).mul (conj_contDiff (eval_contDiffR (B j) l).contDiffAt)

theorem psiH_contDiff (z : Fin (n + 1) → ℂ) (a : Fin (n + 1)) :
    ContDiffAt ℝ l (fun w => Graph.psiH (.full H) (polyJet B w) a) z :=
  ContDiffAt.sum (s := Finset.univ) fun i _ => ContDiffAt.sum (s := Finset.univ) fun j _ =>
    (((eval_contDiffR (pderiv a (B i)) l).contDiffAt).mul (contDiffAt_const (c := H i j))).mul
      (conj_contDiff (eval_contDiffR (B j) l).contDiffAt)

theorem psiHA_contDiff (z : Fin (n + 1) → ℂ) (a b : Fin (n + 1)) :
    ContDiffAt ℝ l (fun w => Graph.psiHA (.full H) (polyJet B w) a b) z :=
  ContDiffAt.sum (s := Finset.univ) fun i _ => ContDiffAt.sum (s := Finset.univ) fun j _ =>
    (((eval_contDiffR (pderiv a (B i)) l).contDiffAt).mul (contDiffAt_const (c := H i j))).mul
      (conj_contDiff (eval_contDiffR (pderiv b (B j)) l).contDiffAt)

theorem kahler_contDiff (degree : ℕ) (z : Fin (n + 1) → ℂ) (hz : Graph.psi (.full H) (polyJet B z) ∈ Complex.slitPlane) :
    ContDiffAt ℝ l (fun w => Graph.kahler (.full H) (polyJet B w) degree) z := by
  have h1 : ContDiffAt ℝ l Complex.log (Graph.psi (.full H) (polyJet B z)) := (Complex.contDiffAt_log hz).restrict_scalars ℝ
  simpa only [Graph.kahler, Donaldson.kahler, div_eq_mul_inv, Function.comp_def] using
    (h1.comp z (psi_contDiff z)).mul (contDiffAt_const (c := ((Real.pi * degree : ℂ)⁻¹)))

theorem gProj_contDiff (degree : ℕ) (z : Fin (n + 1) → ℂ) (hz : Graph.psi (.full H) (polyJet B z) ≠ 0)
    (a b : Fin (n + 1)) : ContDiffAt ℝ l (fun w => Graph.gProj (.full H) (polyJet B w) degree a b) z := by
  have h1 := (((psiHA_contDiff (l := l) (H := H) (B := B) z a b).mul ((psi_contDiff z).inv hz)).sub
    (((psiH_contDiff (H := H) (B := B) z a).mul (conj_contDiff (psiH_contDiff (H := H) (B := B) z b))).mul
      (((psi_contDiff z).pow 2).inv (pow_ne_zero 2 hz)))).mul (contDiffAt_const (c := ((degree * Real.pi : ℂ)⁻¹)))
  simpa only [Graph.gProj, Donaldson.gProj, Matrix.of_apply, div_eq_mul_inv, Pi.inv_apply, Graph.psiA, Donaldson.psiA] using h1

theorem jac_contDiff (P : MvPolynomial (Fin (n + 1)) ℂ) (d : Fin (n + 1)) (z : Fin (n + 1) → ℂ)
    (hd : eval z (pderiv d P) ≠ 0) (r : Fin n) (a : Fin (n + 1)) :
    ContDiffAt ℝ l (fun w => Graph.jac (polyEmb P d w) r a) z := by
  change ContDiffAt ℝ l (fun w => jacobianEmbed (fun i => eval w (pderiv i P)) (d : ℕ) r a) z
  rcases Fin.eq_self_or_eq_succAbove d a with rfl | ⟨k, rfl⟩
  · simp only [C27_dependent_column, div_eq_mul_inv]
    exact (eval_contDiffR _ l).contDiffAt.neg.mul ((eval_contDiffR _ l).contDiffAt.inv hd)
  · simp only [jacobianEmbed_indep]
    exact contDiffAt_const

theorem det_contDiff (degree : ℕ) (P : MvPolynomial (Fin (n + 1)) ℂ) (d : Fin (n + 1)) (z : Fin (n + 1) → ℂ)
    (hz : Graph.psi (.full H) (polyJet B z) ≠ 0) (hd : eval z (pderiv d P) ≠ 0) :
    ContDiffAt ℝ l (fun w => (Graph.gLoc (.full H) degree (polyJet B w) (polyEmb P d w)).det) z := by
  simp only [Matrix.det_apply]
  refine ContDiffAt.sum fun σ _ => ContDiffAt.const_smul _ (contDiffAt_prod fun i _ => ?_)
  exact ContDiffAt.sum (s := Finset.univ) fun a _ => ContDiffAt.sum (s := Finset.univ) fun b _ =>
    ((jac_contDiff P d z hd (σ i) a).mul (gProj_contDiff degree z hz a b)).mul (conj_contDiff (jac_contDiff P d z hd i b))

theorem logNorm_contDiff {f : (Fin (n + 1) → ℂ) → ℂ} {z : Fin (n + 1) → ℂ} (hf : ContDiffAt ℝ l f z) (h0 : f z ≠ 0) :
    ContDiffAt ℝ l (fun w => ((Real.log ‖f w‖ : ℝ) : ℂ)) z :=
  Complex.ofRealCLM.contDiff.contDiffAt.comp z ((hf.norm ℝ h0).log (norm_ne_zero_iff.2 h0))

end Cyjax.Donaldson
