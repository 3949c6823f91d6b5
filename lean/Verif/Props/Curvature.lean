import Verif.Lemmas.Ricci
import Verif.Props.MetricDerivatives
import Verif.Props.Differential
import Mathlib.Analysis.Matrix.PosDef

/-! # Induced metric, curvature and `eta` (C67–C72) -/

namespace Cyjax

open Cyjax.Donaldson Cyjax.Spec Cyjax.Differential
open Cyjax.Polynomial (PyErr)
open scoped ComplexConjugate ComplexOrder

variable {N n : ℕ}

private theorem regular_near {S : (Fin (n + 1) → ℂ) → Jet N (n + 1)} (hS : IsJet S) {d : Fin (n + 1)}
    {E : (Fin (n + 1) → ℂ) → Graph.Emb n} (hE : IsEmb d E) {H : Matrix (Fin N) (Fin N) ℂ} (hH : H.IsHermitian)
    {z : Fin (n + 1) → ℂ} (hz : Graph.psi (.full H) (S z) ≠ 0) (hG : (E z).gradDef d ≠ 0) (b : Fin (n + 1)) :
    ∀ᶠ t in nhds (z b), Graph.psi (.full H) (S (Function.update z b t)) ≠ 0 ∧
      (E (Function.update z b t)).gradDef d ≠ 0 := by
  have h1 := update_mem_of_continuousAt (P := fun w => Graph.psi (.full H) (S w)) (U := {x | x ≠ 0}) isOpen_ne
    (psi_wirt hS hH z b).continuousAt hz
  have h2 := update_mem_of_continuousAt (P := fun w => (E w).gradDef d) (U := {x | x ≠ 0}) isOpen_ne
    (hE.gradDef z b) hG
  filter_upwards [h1, h2] with t ht1 ht2
  exact ⟨ht1, ht2⟩

/-! ## C67 -/

/-- **C67.** `g_loc_h[a, r, s]` and `g_loc_a[a, r, s]` are the holomorphic and antiholomorphic derivatives of the induced
metric `g_loc[r, s] = (J g J†)[r, s]` in the ambient coordinate `a`. -/
theorem C67_first (S : (Fin (n + 1) → ℂ) → Jet N (n + 1)) (hS : IsJet S) (d : Fin (n + 1))
    (E : (Fin (n + 1) → ℂ) → Graph.Emb n) (hE : IsEmb d E) (H : Matrix (Fin N) (Fin N) ℂ) (hH : H.IsHermitian)
    (degree : ℕ) (z : Fin (n + 1) → ℂ) (hz : Graph.psi (.full H) (S z) ≠ 0) (hG : (E z).gradDef d ≠ 0) :
    ∃ gH gA, Graph.gLocH (.full H) degree (S z) (E z) = .ok gH ∧ Graph.gLocA (.full H) degree (S z) (E z) = .ok gA ∧
      ∀ a r s, HasWirtAt
        (fun t => Graph.gLoc (.full H) degree (S (Function.update z a t)) (E (Function.update z a t)) r s)
        (gH a r s) (gA a r s) (z a) :=
  ⟨_, _, gLocH_full _ _ _, rfl, fun a r s => gLoc_wirt hS hE hH degree z hz hG a r s⟩

/-- **C67.** `g_loc_ha[a, b, r, s]` is the mixed derivative `∂̄_b ∂_a g_loc[r, s]`. -/
theorem C67_second (S : (Fin (n + 1) → ℂ) → Jet N (n + 1)) (hS : IsJet S) (d : Fin (n + 1))
    (E : (Fin (n + 1) → ℂ) → Graph.Emb n) (hE : IsEmb d E) (H : Matrix (Fin N) (Fin N) ℂ) (hH : H.IsHermitian)
    (degree : ℕ) (z : Fin (n + 1) → ℂ) (hz : Graph.psi (.full H) (S z) ≠ 0) (hG : (E z).gradDef d ≠ 0) :
    Graph.gLocHA (.full H) degree (S z) (E z) = .ok fun a b r s =>
      dzbar (fun v => dz (fun w => Graph.gLoc (.full H) degree (S w) (E w) r s) a v) b z := by
  rw [gLocHA_full]
  congr 1
  funext a b r s
  obtain ⟨e, he⟩ := gLocH_wirt hS hE hH degree z hz hG a b r s
  symm
  refine HasWirtAt.dzbar_eq (a := e)
    (F := fun v => dz (fun w => Graph.gLoc (.full H) degree (S w) (E w) r s) a v) (he.congr_fun ?_)
  filter_upwards [regular_near hS hE hH hz hG b] with t ht
  exact HasWirtAt.dz_eq (F := fun w => Graph.gLoc (.full H) degree (S w) (E w) r s)
    (gLoc_wirt hS hE hH degree _ ht.1 ht.2 a r s)

/-- **C67.** `g_loc` is the pullback of the ambient metric along the embedding: `induced_metric` of
`cyjax/differential.py`. -/
theorem C67_pullback (h : HArg N) (degree : ℕ) (J : Jet N (n + 1)) (e : Graph.Emb n) :
    Graph.gLoc h degree J e = inducedMetric (Graph.gProj h J degree) e.gradDef e.dependent none := by
  ext r s
  simp only [Graph.gLoc, gLoc, Matrix.of_apply, inducedMetric, pullback, Graph.jacC, Graph.jac]
  refine Finset.sum_congr rfl fun i _ => Finset.sum_congr rfl fun j _ => ?_
  ring

/-! ## C68 -/

/-- **C68.** `ricci_proj[a, b] = -∂̄_b ∂_a log |det g_loc|` wherever `det g_loc ≠ 0`. -/
theorem C68_ricci (S : (Fin (n + 1) → ℂ) → Jet N (n + 1)) (hS : IsJet S) (d : Fin (n + 1))
    (E : (Fin (n + 1) → ℂ) → Graph.Emb n) (hE : IsEmb d E) (H : Matrix (Fin N) (Fin N) ℂ) (hH : H.IsHermitian)
    (degree : ℕ) (z : Fin (n + 1) → ℂ) (hz : Graph.psi (.full H) (S z) ≠ 0) (hG : (E z).gradDef d ≠ 0)
    (hdet : (Graph.gLoc (.full H) degree (S z) (E z)).det ≠ 0) :
    Graph.ricciProj (.full H) degree (S z) (E z) = .ok (Matrix.of fun a b =>
      -dzbar (fun v => dz (fun w => ((Real.log ‖(Graph.gLoc (.full H) degree (S w) (E w)).det‖ : ℝ) : ℂ)) a v) b z) := by
  change Except.ok (ricciProj (gLocHv H degree (S z) (E z)) (gLocA (gLocHv H degree (S z) (E z)))
    (gLocHAv H degree (S z) (E z)) (Graph.gLocInv (.full H) degree (S z) (E z))) = _
  congr 1
  ext a b
  obtain ⟨e, he⟩ := ricci_wirt hS hE hH degree z hz hG hdet a b
  rw [Matrix.of_apply, eq_comm, neg_eq_iff_eq_neg]
  refine HasWirtAt.dzbar_eq (a := e)
    (F := fun v => dz (fun w => logDet H degree (S w) (E w)) a v) (he.congr_fun ?_)
  have hcont : ContinuousAt (fun t => (Graph.gLoc (.full H) degree (S (Function.update z b t))
      (E (Function.update z b t))).det) (z b) :=
    (HasWirtAt.det (M := fun r s t =>
      Graph.gLoc (.full H) degree (S (Function.update z b t)) (E (Function.update z b t)) r s)
      (fun r s => gLoc_wirt hS hE hH degree z hz hG b r s)).continuousAt
  have hev := update_mem_of_continuousAt (P := fun w => (Graph.gLoc (.full H) degree (S w) (E w)).det)
    (U := {x | x ≠ 0}) isOpen_ne hcont hdet
  filter_upwards [regular_near hS hE hH hz hG b, hev] with t ht ht'
  obtain ⟨b', hb'⟩ := logDet_wirt hS hE hH degree (Function.update z b t) ht.1 ht.2 ht' a
  exact HasWirtAt.dz_eq (F := fun w => logDet H degree (S w) (E w)) hb'

/-- **C68.** The derivatives exist. -/
theorem C68_differentiable (S : (Fin (n + 1) → ℂ) → Jet N (n + 1)) (hS : IsJet S) (d : Fin (n + 1))
    (E : (Fin (n + 1) → ℂ) → Graph.Emb n) (hE : IsEmb d E) (H : Matrix (Fin N) (Fin N) ℂ) (hH : H.IsHermitian)
    (degree : ℕ) (z : Fin (n + 1) → ℂ) (hz : Graph.psi (.full H) (S z) ≠ 0) (hG : (E z).gradDef d ≠ 0)
    (hdet : (Graph.gLoc (.full H) degree (S z) (E z)).det ≠ 0) (a : Fin (n + 1)) :
    DifferentiableAt ℝ (fun t => ((Real.log ‖(Graph.gLoc (.full H) degree (S (Function.update z a t))
      (E (Function.update z a t))).det‖ : ℝ) : ℂ)) (z a) := by
  obtain ⟨b, hb⟩ := logDet_wirt hS hE hH degree z hz hG hdet a
  exact HasFDerivAt.differentiableAt hb

/-! ## C69 -/

/-- **C69.** The Ricci tensor is Hermitian and the Ricci scalar is real, for Hermitian `H` and sections with symmetric
second derivatives. -/
theorem C69_real (H : Matrix (Fin N) (Fin N) ℂ) (hH : H.IsHermitian) (degree : ℕ) (J : Jet N (n + 1))
    (hJ : ∀ a i j, J.s2 a i j = J.s2 a j i) (e : Graph.Emb n) :
    ∃ R c, Graph.ricciLoc (.full H) degree J e = .ok R ∧ Graph.ricciScalar (.full H) degree J e = .ok c ∧
      R.IsHermitian ∧ c.im = 0 := by
  refine ⟨_, _, rfl, rfl, ?_⟩
  set R := ricciProj (gLocHv H degree J e) (gLocA (gLocHv H degree J e)) (gLocHAv H degree J e)
      (Graph.gLocInv (.full H) degree J e) with hR
  have hRc : ∀ a b, conj (R b a) = R a b := ricciProj_conj hH J hJ degree e
  change (ricciLoc R (Graph.jac e) (Graph.jacC e)).IsHermitian ∧
    (ricciScalar (ricciLoc R (Graph.jac e) (Graph.jacC e)) (Graph.gLocInv (.full H) degree J e)).im = 0
  have hL : ∀ r s, conj (ricciLoc R (Graph.jac e) (Graph.jacC e) s r) = ricciLoc R (Graph.jac e) (Graph.jacC e) r s := by
    intro r s
    simp only [ricciLoc, Graph.jacC, Matrix.of_apply, map_sum, map_mul, hRc, Complex.conj_conj]
    rw [Finset.sum_comm]
    refine Finset.sum_congr rfl fun i _ => Finset.sum_congr rfl fun j _ => ?_
    ring
  have hh : (Graph.gLoc (.full H) degree J e).IsHermitian := by
    ext r s
    exact gLoc_conj hH degree J e r s
  have hW : ∀ r s, conj (Graph.gLocInv (.full H) degree J e s r) = Graph.gLocInv (.full H) degree J e r s :=
    fun r s => congrFun (congrFun hh.inv r) s
  refine ⟨?_, ?_⟩
  · ext r s
    exact hL r s
  · rw [← Complex.conj_eq_iff_im]
    simp only [ricciScalar, map_sum, map_mul, hL, hW]
    exact Finset.sum_comm

/-! ## C70 -/

private theorem jget_natCast {α : Type*} (v : Fin (n + 1) → α) (d : Fin (n + 1)) : jget v ((d : ℕ) : ℤ) = v d := by
  unfold jget
  have h := d.2
  simp only
  congr 1
  ext
  simp only
  omega

/-- **C70.** `eta` does not depend on the choice of the dependent coordinate. -/
theorem C70_dependent (h : HArg N) (degree : ℕ) (J : Jet N (n + 1)) (G : Fin (n + 1) → ℂ) (d d' : Fin (n + 1))
    (hd : G d ≠ 0) (hd' : G d' ≠ 0) (jH jH' : Fin n → Fin (n + 1) → Fin (n + 1) → ℂ) :
    Graph.eta h degree J ⟨G, (d : ℕ), jH⟩ = Graph.eta h degree J ⟨G, (d' : ℕ), jH'⟩ := by
  simp only [Graph.eta, eta, C67_pullback, jget_natCast]
  exact C29_volume_density _ G d d' hd hd'

/-- **C70.** `eta` is real for Hermitian `H`. -/
theorem C70_real (H : Matrix (Fin N) (Fin N) ℂ) (hH : H.IsHermitian) (degree : ℕ) (J : Jet N (n + 1))
    (e : Graph.Emb n) : (Graph.eta (.full H) degree J e).im = 0 := by
  have hh : (Graph.gLoc (.full H) degree J e).IsHermitian := by
    ext r s
    exact gLoc_conj hH degree J e r s
  have hd : conj (Graph.gLoc (.full H) degree J e).det = (Graph.gLoc (.full H) degree J e).det := by
    have h1 := congrArg Matrix.det hh
    rwa [Matrix.det_conjTranspose] at h1
  rw [← Complex.conj_eq_iff_im]
  simp only [Graph.eta, eta, map_mul, map_pow, hd, Complex.conj_ofReal]

/-- **C70.** `eta` is positive where the ambient metric is positive definite. -/
theorem C70_pos (h : HArg N) (degree : ℕ) (J : Jet N (n + 1)) (hg : (Graph.gProj h J degree).PosDef)
    (G : Fin (n + 1) → ℂ) (d : Fin (n + 1)) (hd : G d ≠ 0) (jH : Fin n → Fin (n + 1) → Fin (n + 1) → ℂ) :
    0 < Graph.eta h degree J ⟨G, (d : ℕ), jH⟩ := by
  simp only [Graph.eta, eta, C67_pullback, jget_natCast]
  refine mul_pos (C28_posDef _ hg G d).det_pos ?_
  have : 0 < ‖G d‖ := norm_pos_iff.2 hd
  exact_mod_cast pow_pos this 2

/-- All hypotheses of C67–C70 hold for the full basis of positive degree with positive definite `H` on any hypersurface,
at every point where the derivative of the polynomial in the dependent coordinate does not vanish. -/
theorem C68_full (n k : ℕ) (hk : k ≠ 0) (p : Fin (n + 2))
    (H : Matrix (Fin (monomialBasisFull (n + 1) k).size) (Fin (monomialBasisFull (n + 1) k).size) ℂ) (hH : H.PosDef)
    (P : MvPolynomial (Fin (n + 1)) ℂ) (d : Fin (n + 1)) :
    ∃ S : (Fin (n + 1) → ℂ) → Jet (monomialBasisFull (n + 1) k).size (n + 1), IsJet S ∧
      (∀ z, (S z).s = (monomialBasisFull (n + 1) k).call z (p : ℕ) true) ∧ IsEmb d (polyEmb P d) ∧
      ∀ z, MvPolynomial.eval z (MvPolynomial.pderiv d P) ≠ 0 → Graph.psi (.full H) (S z) ≠ 0 ∧
        (Graph.gLoc (.full H) k (S z) (polyEmb P d z)).PosDef ∧
        (Graph.gLoc (.full H) k (S z) (polyEmb P d z)).det ≠ 0 ∧ 0 < Graph.eta (.full H) k (S z) (polyEmb P d z) := by
  obtain ⟨S, hS, hs⟩ := C64_sections (monomialBasisFull (n + 1) k) (C60_bounded (n + 1) k) p
  refine ⟨S, hS, hs, polyEmb_isEmb P d, fun z hz => ?_⟩
  have hg := C63_full (n + 1) k hk p S hS hs H hH z
  have hloc : (Graph.gLoc (.full H) k (S z) (polyEmb P d z)).PosDef := by
    rw [C67_pullback]
    exact C28_posDef _ hg _ d
  refine ⟨?_, hloc, hloc.det_pos.ne', C70_pos (.full H) k (S z) hg _ d hz _⟩
  refine (C62_pos H hH _ ?_).ne'
  rw [hs]
  exact C61_full_nonzero (n + 1) k z p

/-- The curve `x^2 + y = 0` with dependent coordinate `y`. -/
example : ∀ z, MvPolynomial.eval z (MvPolynomial.pderiv 1
    (MvPolynomial.X 0 ^ 2 + MvPolynomial.X 1 : MvPolynomial (Fin 2) ℂ)) ≠ 0 := by
  intro z
  simp

/-! ## C71 -/

private theorem bil_smul_matrix (c : ℂ) (H : Matrix (Fin N) (Fin N) ℂ) (u v : Fin N → ℂ) :
    bil (c • H) u v = c * bil H u v := by
  simp only [bil, Matrix.smul_apply, smul_eq_mul, Finset.mul_sum]
  refine Finset.sum_congr rfl fun i _ => Finset.sum_congr rfl fun j _ => ?_
  ring

section Scale

variable (c : ℝ) (H : Matrix (Fin N) (Fin N) ℂ)

private theorem scale_psi (J : Jet N n) : Graph.psi (.full ((c : ℂ) • H)) J = c * Graph.psi (.full H) J :=
  bil_smul_matrix _ _ _ _

private theorem scale_psiH (J : Jet N n) (a : Fin n) :
    Graph.psiH (.full ((c : ℂ) • H)) J a = c * Graph.psiH (.full H) J a := bil_smul_matrix _ _ _ _

private theorem scale_psiA (J : Jet N n) (a : Fin n) :
    Graph.psiA (.full ((c : ℂ) • H)) J a = c * Graph.psiA (.full H) J a := by
  change conj (Graph.psiH (.full ((c : ℂ) • H)) J a) = c * conj (Graph.psiH (.full H) J a)
  rw [scale_psiH, map_mul, Complex.conj_ofReal]

private theorem scale_psiHA (J : Jet N n) (a b : Fin n) :
    Graph.psiHA (.full ((c : ℂ) • H)) J a b = c * Graph.psiHA (.full H) J a b := bil_smul_matrix _ _ _ _

private theorem scale_psiHH (J : Jet N n) (a b : Fin n) :
    psiHHv ((c : ℂ) • H) J a b = c * psiHHv H J a b := bil_smul_matrix _ _ _ _

private theorem scale_psiHHA (J : Jet N n) (a b d : Fin n) :
    Graph.psiHHA (.full ((c : ℂ) • H)) J a b d = c * Graph.psiHHA (.full H) J a b d := bil_smul_matrix _ _ _ _

private theorem scale_psiHHAA (J : Jet N n) (a b d e : Fin n) :
    Graph.psiHHAA (.full ((c : ℂ) • H)) J a b d e = c * Graph.psiHHAA (.full H) J a b d e := bil_smul_matrix _ _ _ _

variable (hc : c ≠ 0)
include hc

/-- **C71.** The ambient metric and its derivatives are invariant under rescaling of `H`. -/
theorem C71_metric (J : Jet N n) (degree : ℕ) (hz : Graph.psi (.full H) J ≠ 0) :
    Graph.gProj (.full ((c : ℂ) • H)) J degree = Graph.gProj (.full H) J degree ∧
    Graph.gProjH (.full ((c : ℂ) • H)) J degree = Graph.gProjH (.full H) J degree ∧
    Graph.gProjA (.full ((c : ℂ) • H)) J degree = Graph.gProjA (.full H) J degree ∧
    Graph.gProjHA (.full ((c : ℂ) • H)) J degree = Graph.gProjHA (.full H) J degree := by
  have hcc : (c : ℂ) ≠ 0 := Complex.ofReal_ne_zero.2 hc
  have hgH : gProjHv ((c : ℂ) • H) J degree = gProjHv H J degree := by
    funext a i j
    simp only [gProjHv, gProjH, twoHHA, threeHHA, psiHpsiHA, scale_psi, scale_psiH, scale_psiA, scale_psiHA,
      scale_psiHH, scale_psiHHA]
    field_simp
  refine ⟨?_, ?_, ?_, ?_⟩
  · ext i j
    simp only [Graph.gProj, gProj, Matrix.of_apply, scale_psi, scale_psiH, scale_psiA, scale_psiHA]
    field_simp
  · rw [gProjH_full, gProjH_full, hgH]
  · change Except.ok (gProjA (gProjHv _ J degree)) = Except.ok (gProjA (gProjHv _ J degree))
    rw [hgH]
  · rw [gProjHA_full, gProjHA_full]
    congr 1
    funext a b i j
    simp only [gProjHAv, gProjHA, twoHAHA, threeHAHA, fourHAHA, twoHHA, threeHHA, psiHpsiHA, psiHApsiHA, psiHHApsiA,
      psiAA, scale_psi, scale_psiH, scale_psiA, scale_psiHA, scale_psiHH, scale_psiHHA, scale_psiHHAA, map_mul,
      Complex.conj_ofReal]
    field_simp

/-- **C71.** Hence the induced metric, the Ricci tensor and scalar, and `eta` are invariant. -/
theorem C71_induced (J : Jet N (n + 1)) (e : Graph.Emb n) (degree : ℕ) (hz : Graph.psi (.full H) J ≠ 0) :
    Graph.gLoc (.full ((c : ℂ) • H)) degree J e = Graph.gLoc (.full H) degree J e ∧
    Graph.ricciLoc (.full ((c : ℂ) • H)) degree J e = Graph.ricciLoc (.full H) degree J e ∧
    Graph.ricciScalar (.full ((c : ℂ) • H)) degree J e = Graph.ricciScalar (.full H) degree J e ∧
    Graph.eta (.full ((c : ℂ) • H)) degree J e = Graph.eta (.full H) degree J e := by
  obtain ⟨h1, h2, h3, h4⟩ := C71_metric c H hc J degree hz
  simp only [Graph.gLoc, Graph.ricciLoc, Graph.ricciScalar, Graph.eta, Graph.ricciProj, Graph.gLocHA, Graph.gLocA,
    Graph.gLocH, Graph.gLocInv, h1, h2, h3, h4, and_self]

end Scale

/-- **C71.** The Kahler potential is shifted by `log c / (π k)`. -/
theorem C71_kahler (c : ℝ) (hc : 0 < c) (H : Matrix (Fin N) (Fin N) ℂ) (J : Jet N n) (degree : ℕ)
    (hz : Graph.psi (.full H) J ≠ 0) :
    Graph.kahler (.full ((c : ℂ) • H)) J degree =
      Graph.kahler (.full H) J degree + ((Real.log c / (Real.pi * degree) : ℝ) : ℂ) := by
  simp only [Graph.kahler, kahler, scale_psi]
  rw [Complex.log_ofReal_mul hc hz]
  push_cast
  ring

example : Graph.psi (.full (1 : Matrix (Fin 1) (Fin 1) ℂ)) (⟨fun _ => 1, fun _ _ => 0, fun _ _ _ => 0⟩ : Jet 1 1) ≠ 0 := by
  simp [Graph.psi, psi, conjS]

/-! ## C72 -/

/-- **C72.** For the quantities that need no `psi_hh`, the array of diagonal entries gives the same as the diagonal
matrix. Missing: the quantities that need `psi_hh`, for which the claim fails (`C72_violated`). -/
theorem C72_partial (h : Fin N → ℂ) (J : Jet N n) (degree : ℕ) :
    Graph.psi (.diag h) J = Graph.psi (.full (Matrix.diagonal h)) J ∧
    Graph.kahler (.diag h) J degree = Graph.kahler (.full (Matrix.diagonal h)) J degree ∧
    Graph.psiH (.diag h) J = Graph.psiH (.full (Matrix.diagonal h)) J ∧
    Graph.psiA (.diag h) J = Graph.psiA (.full (Matrix.diagonal h)) J ∧
    Graph.psiHA (.diag h) J = Graph.psiHA (.full (Matrix.diagonal h)) J ∧
    Graph.psiHHA (.diag h) J = Graph.psiHHA (.full (Matrix.diagonal h)) J ∧
    Graph.psiHHAA (.diag h) J = Graph.psiHHAA (.full (Matrix.diagonal h)) J ∧
    Graph.gProj (.diag h) J degree = Graph.gProj (.full (Matrix.diagonal h)) J degree := by
  have key : ∀ u v : Fin N → ℂ, ∑ i, u i * h i * v i = ∑ i, ∑ j, u i * Matrix.diagonal h i j * v j := by
    intro u v
    refine Finset.sum_congr rfl fun i _ => ?_
    rw [Finset.sum_eq_single i]
    · rw [Matrix.diagonal_apply_eq]
    · intro j _ hj
      rw [Matrix.diagonal_apply_ne _ (Ne.symm hj)]
      ring
    · simp
  have h1 : Graph.psi (.diag h) J = Graph.psi (.full (Matrix.diagonal h)) J := key _ _
  have h2 : Graph.psiH (.diag h) J = Graph.psiH (.full (Matrix.diagonal h)) J := by
    funext a
    exact key _ _
  have h3 : Graph.psiHA (.diag h) J = Graph.psiHA (.full (Matrix.diagonal h)) J := by
    funext a b
    exact key _ _
  have h4 : Graph.psiA (.diag h) J = Graph.psiA (.full (Matrix.diagonal h)) J := by
    simp only [Graph.psiA, h2]
  refine ⟨h1, ?_, h2, h4, h3, ?_, ?_, ?_⟩
  · simp only [Graph.kahler, h1]
  · funext a b c
    exact key _ _
  · funext a b c d
    exact key _ _
  · simp only [Graph.gProj, h1, h2, h3, h4]

/-- **C72.** The induced metric and `eta` agree as well. -/
theorem C72_eta_partial (h : Fin N → ℂ) (J : Jet N (n + 1)) (e : Graph.Emb n) (degree : ℕ) :
    Graph.gLoc (.diag h) degree J e = Graph.gLoc (.full (Matrix.diagonal h)) degree J e ∧
    Graph.eta (.diag h) degree J e = Graph.eta (.full (Matrix.diagonal h)) degree J e := by
  have hg := (C72_partial h J degree).2.2.2.2.2.2.2
  simp only [Graph.eta, Graph.gLoc, hg, and_self]

/-- **C72 violated.** With the array of diagonal entries, the derivatives of the metric and the curvature raise an
exception, whatever the data; with the diagonal matrix they are computed. -/
theorem C72_violated (h : Fin N → ℂ) (J : Jet N (n + 1)) (e : Graph.Emb n) (degree : ℕ) :
    Graph.gProjH (.diag h) J degree = .error .valueError ∧
    Graph.gProjHA (.diag h) J degree = .error .valueError ∧
    Graph.ricciLoc (.diag h) degree J e = .error .valueError ∧
    Graph.ricciScalar (.diag h) degree J e = .error .valueError ∧
    (∃ R, Graph.ricciLoc (.full (Matrix.diagonal h)) degree J e = .ok R) ∧
    ∃ r, Graph.ricciScalar (.full (Matrix.diagonal h)) degree J e = .ok r :=
  ⟨rfl, rfl, rfl, rfl, ⟨_, rfl⟩, ⟨_, rfl⟩⟩

end Cyjax
