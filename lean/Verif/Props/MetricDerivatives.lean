import Verif.Lemmas.Metric
import Verif.Lemmas.Jet
import Verif.Props.Geometry

/-! # Derivatives of the algebraic metric (C64–C66) -/

namespace Cyjax

open Cyjax.Donaldson Cyjax.Spec Cyjax.Projective
open scoped ComplexConjugate ComplexOrder

variable {N n : ℕ}

private theorem slit_of_pos {w : ℂ} (h : 0 < w) : w ∈ Complex.slitPlane :=
  Or.inl (Complex.pos_iff.1 h).1

/-- The sections of a monomial basis in a patch, together with their first and second derivatives, form a jet: the
hypothesis `IsJet` below is met by the code's own sections. -/
theorem C64_sections (M : MonomialSections n) (hM : ∀ a i, M.powers a i ≤ M.degree) (p : Fin (n + 1)) :
    ∃ S : (Fin n → ℂ) → Jet M.size n, IsJet S ∧ ∀ z, (S z).s = M.call z (p : ℕ) true := by
  refine ⟨polyJet fun a => ∏ i, MvPolynomial.X i ^ M.powers a (p.succAbove i), polyJet_isJet _, fun z => ?_⟩
  funext a
  rw [show M.call z (p : ℕ) true a = monomialsIndex z (p : ℕ) M.powers M.degree a from rfl,
    C60_affine z p _ _ hM a, Fin.prod_univ_succAbove _ p, affineToHom_same, one_pow, one_mul]
  simp only [affineToHom_succAbove]
  change MvPolynomial.eval z _ = _
  simp

/-- **C64.** `g_proj[i, j]` is `∂_i ∂̄_j` of the Kahler potential. -/
theorem C64_metric (S : (Fin n → ℂ) → Jet N n) (hS : IsJet S) (H : Matrix (Fin N) (Fin N) ℂ) (hH : H.IsHermitian)
    (degree : ℕ) (z : Fin n → ℂ) (hz : 0 < Graph.psi (.full H) (S z)) (i j : Fin n) :
    dz (fun w => dzbar (fun v => Graph.kahler (.full H) (S v) degree) j w) i z =
      Graph.gProj (.full H) (S z) degree i j := by
  have hslit := slit_of_pos hz
  have hev := update_mem_of_continuousAt (P := fun w => Graph.psi (.full H) (S w)) Complex.isOpen_slitPlane
    (psi_wirt hS hH z i).continuousAt hslit
  have h := ((psiA_wirt hS hH z j i).div (psi_wirt hS hH z i)
    (by rw [Function.update_eq_self]; exact hz.ne')).div_const (Real.pi * degree : ℂ)
  rw [Function.update_eq_self] at h
  refine (HasWirtAt.dz_eq
    (F := fun w => dzbar (fun v => Graph.kahler (.full H) (S v) degree) j w) (h.congr_fun ?_)).trans ?_
  · filter_upwards [hev] with t ht
    exact HasWirtAt.dzbar_eq (F := fun v => Graph.kahler (.full H) (S v) degree)
      (kahler_wirt hS hH degree _ j ht)
  · have hne := hz.ne'
    simp only [Graph.gProj, gProj, Matrix.of_apply]
    rw [mul_comm (degree : ℂ)]
    congr 1
    field_simp

/-- **C64.** The derivatives exist: the potential is real-differentiable in every coordinate, and so is its
antiholomorphic derivative. -/
theorem C64_differentiable (S : (Fin n → ℂ) → Jet N n) (hS : IsJet S) (H : Matrix (Fin N) (Fin N) ℂ) (hH : H.IsHermitian)
    (degree : ℕ) (z : Fin n → ℂ) (hz : 0 < Graph.psi (.full H) (S z)) (i j : Fin n) :
    DifferentiableAt ℝ (fun t => Graph.kahler (.full H) (S (Function.update z j t)) degree) (z j) ∧
      DifferentiableAt ℝ
        (fun t => dzbar (fun v => Graph.kahler (.full H) (S v) degree) j (Function.update z i t)) (z i) := by
  have hslit := slit_of_pos hz
  have hev := update_mem_of_continuousAt (P := fun w => Graph.psi (.full H) (S w)) Complex.isOpen_slitPlane
    (psi_wirt hS hH z i).continuousAt hslit
  have h := ((psiA_wirt hS hH z j i).div (psi_wirt hS hH z i)
    (by rw [Function.update_eq_self]; exact hz.ne')).div_const (Real.pi * degree : ℂ)
  refine ⟨HasFDerivAt.differentiableAt (kahler_wirt hS hH degree z j hslit), ?_⟩
  refine HasFDerivAt.differentiableAt (h.congr_fun ?_)
  filter_upwards [hev] with t ht
  exact HasWirtAt.dzbar_eq (F := fun v => Graph.kahler (.full H) (S v) degree)
      (kahler_wirt hS hH degree _ j ht)

/-- **C65.** `g_proj_h[a, i, j]` is the holomorphic and `g_proj_a[a, i, j]` the antiholomorphic derivative of
`g_proj[i, j]` in the coordinate `a`. -/
theorem C65_first (S : (Fin n → ℂ) → Jet N n) (hS : IsJet S) (H : Matrix (Fin N) (Fin N) ℂ) (hH : H.IsHermitian)
    (degree : ℕ) (z : Fin n → ℂ) (hz : Graph.psi (.full H) (S z) ≠ 0) :
    ∃ gH gA, Graph.gProjH (.full H) (S z) degree = .ok gH ∧ Graph.gProjA (.full H) (S z) degree = .ok gA ∧
      ∀ a i j, HasWirtAt (fun t => Graph.gProj (.full H) (S (Function.update z a t)) degree i j) (gH a i j) (gA a i j)
        (z a) := by
  refine ⟨_, _, gProjH_full _ _, rfl, fun a i j => ?_⟩
  exact gProj_wirt hS hH degree z a i j hz

/-- **C65.** In terms of the operators `∂` and `∂̄`. -/
theorem C65_dz (S : (Fin n → ℂ) → Jet N n) (hS : IsJet S) (H : Matrix (Fin N) (Fin N) ℂ) (hH : H.IsHermitian)
    (degree : ℕ) (z : Fin n → ℂ) (hz : Graph.psi (.full H) (S z) ≠ 0) :
    Graph.gProjH (.full H) (S z) degree = .ok (fun a i j => dz (fun w => Graph.gProj (.full H) (S w) degree i j) a z) ∧
    Graph.gProjA (.full H) (S z) degree =
      .ok (fun a i j => dzbar (fun w => Graph.gProj (.full H) (S w) degree i j) a z) := by
  obtain ⟨gH, gA, h1, h2, h3⟩ := C65_first S hS H hH degree z hz
  rw [h1, h2]
  constructor
  · congr 1
    funext a i j
    exact (HasWirtAt.dz_eq (F := fun w => Graph.gProj (.full H) (S w) degree i j) (h3 a i j)).symm
  · congr 1
    funext a i j
    exact (HasWirtAt.dzbar_eq (F := fun w => Graph.gProj (.full H) (S w) degree i j) (h3 a i j)).symm

/-- **C66.** `g_proj_ha[a, b, i, j]` is `∂_a ∂̄_b g_proj[i, j]`. -/
theorem C66_second (S : (Fin n → ℂ) → Jet N n) (hS : IsJet S) (H : Matrix (Fin N) (Fin N) ℂ) (hH : H.IsHermitian)
    (degree : ℕ) (z : Fin n → ℂ) (hz : Graph.psi (.full H) (S z) ≠ 0) :
    Graph.gProjHA (.full H) (S z) degree = .ok (fun a b i j =>
      dzbar (fun v => dz (fun w => Graph.gProj (.full H) (S w) degree i j) a v) b z) := by
  rw [gProjHA_full]
  congr 1
  funext a b i j
  obtain ⟨e, he⟩ := gProjH_wirt hS hH degree z a b i j hz
  symm
  refine HasWirtAt.dzbar_eq (a := e)
    (F := fun v => dz (fun w => Graph.gProj (.full H) (S w) degree i j) a v) (he.congr_fun ?_)
  have hev := update_mem_of_continuousAt (P := fun w => Graph.psi (.full H) (S w)) (U := {x | x ≠ 0}) isOpen_ne
    (psi_wirt hS hH z b).continuousAt hz
  filter_upwards [hev] with t ht
  exact HasWirtAt.dz_eq (F := fun w => Graph.gProj (.full H) (S w) degree i j)
    (gProj_wirt hS hH degree _ a i j ht)

/-- **C66.** The second derivative exists. -/
theorem C66_differentiable (S : (Fin n → ℂ) → Jet N n) (hS : IsJet S) (H : Matrix (Fin N) (Fin N) ℂ) (hH : H.IsHermitian)
    (degree : ℕ) (z : Fin n → ℂ) (hz : Graph.psi (.full H) (S z) ≠ 0) (a b i j : Fin n) :
    DifferentiableAt ℝ
      (fun t => dz (fun w => Graph.gProj (.full H) (S w) degree i j) a (Function.update z b t)) (z b) := by
  obtain ⟨e, he⟩ := gProjH_wirt hS hH degree z a b i j hz
  refine HasFDerivAt.differentiableAt (he.congr_fun ?_)
  have hev := update_mem_of_continuousAt (P := fun w => Graph.psi (.full H) (S w)) (U := {x | x ≠ 0}) isOpen_ne
    (psi_wirt hS hH z b).continuousAt hz
  filter_upwards [hev] with t ht
  exact HasWirtAt.dz_eq (F := fun w => Graph.gProj (.full H) (S w) degree i j)
    (gProj_wirt hS hH degree _ a i j ht)

/-- The full monomial basis with the identity matrix meets the hypotheses at every point of every patch. -/
example (n k : ℕ) (p : Fin (n + 1)) (z : Fin n → ℂ) (i j : Fin n) :
    ∃ S : (Fin n → ℂ) → Jet (monomialBasisFull n k).size n, (∀ w, (S w).s = (monomialBasisFull n k).call w (p : ℕ) true) ∧
      dz (fun w => dzbar (fun v => Graph.kahler (.full 1) (S v) k) j w) i z = Graph.gProj (.full 1) (S z) k i j := by
  obtain ⟨S, hS, hs⟩ := C64_sections (monomialBasisFull n k) (C60_bounded n k) p
  refine ⟨S, hs, C64_metric S hS 1 Matrix.isHermitian_one k z (C62_pos 1 Matrix.PosDef.one _ ?_) i j⟩
  rw [hs]
  exact C61_full_nonzero n k z p

private theorem full_section (n k : ℕ) (p : Fin (n + 1)) (m : Fin (n + 1) → ℕ) (hm : ∑ i, m i = k) :
    ∃ a, ∀ z, (monomialBasisFull n k).call z (p : ℕ) true a = ∏ i, z i ^ m (p.succAbove i) := by
  have hmem : m ∈ monomialBasis n k := (mem_monomialBasis n k m).2 hm
  obtain ⟨a, ha⟩ := List.get_of_mem hmem
  refine ⟨a, fun z => ?_⟩
  rw [show (monomialBasisFull n k).call z (p : ℕ) true a = monomialsIndex z (p : ℕ) (monomialBasisFull n k).powers
    (monomialBasisFull n k).degree a from rfl, C60_affine z p _ _ (C60_bounded n k) a, Fin.prod_univ_succAbove _ p,
    affineToHom_same, one_pow, one_mul]
  have hrow : (monomialBasisFull n k).powers a = m := ha
  simp only [affineToHom_succAbove, hrow]

/-- **C63.** For the full basis of positive degree and positive definite `H`, the ambient metric is positive definite at
every point of every patch. -/
theorem C63_full (n k : ℕ) (hk : k ≠ 0) (p : Fin (n + 1)) (S : (Fin n → ℂ) → Jet (monomialBasisFull n k).size n)
    (hS : IsJet S) (hs : ∀ z, (S z).s = (monomialBasisFull n k).call z (p : ℕ) true)
    (H : Matrix (Fin (monomialBasisFull n k).size) (Fin (monomialBasisFull n k).size) ℂ) (hH : H.PosDef)
    (z : Fin n → ℂ) : (Graph.gProj (.full H) (S z) k).PosDef := by
  refine C63_posDef H hH (S z) k hk ?_ ?_
  · rw [hs]
    exact C61_full_nonzero n k z p
  intro v c hv
  obtain ⟨a, ha⟩ := full_section n k p (Pi.single p k) (by simp)
  have ha' : ∀ w, (S w).s a = 1 := by
    intro w
    rw [hs, ha, Finset.prod_eq_one]
    intro i _
    rw [Pi.single_eq_of_ne (Fin.succAbove_ne p i), pow_zero]
  have ha1 : ∀ i, (S z).s1 a i = 0 := by
    intro i
    have h := hS.first z a i
    simp only [ha'] at h
    exact h.unique (hasDerivAt_const _ _)
  have hc : c = 0 := by
    have h := hv a
    simpa [ha1, ha'] using h.symm
  funext q
  obtain ⟨b, hb⟩ := full_section n k p (Pi.single p (k - 1) + Pi.single (p.succAbove q) 1) (by
    simp only [Pi.add_apply, Finset.sum_add_distrib]
    simp
    omega)
  have hb' : ∀ w, (S w).s b = w q := by
    intro w
    rw [hs, hb, Finset.prod_eq_single q]
    · simp [Fin.succAbove_ne]
    · intro i _ hi
      have h1 : p.succAbove i ≠ p.succAbove q := fun h => hi (Fin.succAbove_right_injective h)
      simp [Fin.succAbove_ne, h1]
    · simp
  have hb1 : ∀ i, (S z).s1 b i = if i = q then 1 else 0 := by
    intro i
    have h := hS.first z b i
    simp only [hb'] at h
    refine h.unique ?_
    by_cases hi : i = q
    · subst hi
      simpa using hasDerivAt_id' (z i)
    · simpa [Function.update_of_ne (Ne.symm hi), hi] using hasDerivAt_const (z i) (z q)
  have h := hv b
  simpa [hb1, hc] using h

end Cyjax
