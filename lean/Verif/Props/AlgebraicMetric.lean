import Verif.Lemmas.SectionsOnVariety
import Verif.Lemmas.RicciEta
import Verif.Props.Global
import Verif.Props.CurvatureDependent
import Verif.Props.DonaldsonBasis

/-! # Properties C103–C107: the methods of `AlgebraicMetric` -/

namespace Cyjax

open Cyjax.Donaldson Cyjax.Spec Cyjax.Projective Cyjax.Variety Cyjax.Differential
open Cyjax.Polynomial (PyErr Val PolyObj DworkFactor)
open MvPolynomial (eval pderiv)
open scoped ComplexConjugate ComplexOrder

variable {n : ℕ}

/-! ## C103 -/

section Coordinates

variable (A : AlgebraicMetric (n + 1)) (hV : dimComplex A.variety = .ok (n + 2)) (h : A.H) (params : Val)
  (dep : Option ℤ) (g : Option (Fin (n + 1) → ℂ))

include hV

/-- **C103.** Homogeneous coordinates without a patch: every method returns what it returns for the affine coordinates
and the patch chosen by `hom_to_affine`. -/
theorem C103_homogeneous (Z : Fin (n + 2) → ℂ) :
    let z := (homToAffineAuto Z).1
    let p : ℕ := (homToAffineAuto Z).2
    A.kahlerPotential h (List.ofFn Z) none = A.kahlerPotential h (List.ofFn z) (some p) ∧
    A.metric h (List.ofFn Z) params none dep g = A.metric h (List.ofFn z) params (some p) dep g ∧
    A.eta h (List.ofFn Z) params none dep g = A.eta h (List.ofFn z) params (some p) dep g ∧
    A.ricci h (List.ofFn Z) params none dep g = A.ricci h (List.ofFn z) params (some p) dep g ∧
    A.ricciScalar h (List.ofFn Z) params none dep g = A.ricciScalar h (List.ofFn z) params (some p) dep g := by
  intro z p
  have e : initCoords A.variety (List.ofFn Z) none = initCoords A.variety (List.ofFn z) (some p) := by
    rw [initCoords_hom hV, initCoords_affine hV]
  refine ⟨?_, ?_, ?_, ?_, ?_⟩
  · unfold AlgebraicMetric.kahlerPotential; rw [e]
  · unfold AlgebraicMetric.metric; rw [e]
  · unfold AlgebraicMetric.eta; rw [e]
  · unfold AlgebraicMetric.ricci; rw [e]
  · unfold AlgebraicMetric.ricciScalar; rw [e]

/-- **C103.** Rescaling the homogeneous coordinates changes no result. -/
theorem C103_scale (Z : Fin (n + 2) → ℂ) (c : ℂ) (hc : c ≠ 0) :
    A.kahlerPotential h (List.ofFn fun i => c * Z i) none = A.kahlerPotential h (List.ofFn Z) none ∧
    A.metric h (List.ofFn fun i => c * Z i) params none dep g = A.metric h (List.ofFn Z) params none dep g ∧
    A.eta h (List.ofFn fun i => c * Z i) params none dep g = A.eta h (List.ofFn Z) params none dep g ∧
    A.ricci h (List.ofFn fun i => c * Z i) params none dep g = A.ricci h (List.ofFn Z) params none dep g ∧
    A.ricciScalar h (List.ofFn fun i => c * Z i) params none dep g = A.ricciScalar h (List.ofFn Z) params none dep g := by
  have h1 := C103_homogeneous A hV h params dep g fun i => c * Z i
  have h2 := C103_homogeneous A hV h params dep g Z
  simp only [C18_auto Z c hc] at h1
  exact ⟨h1.1.trans h2.1.symm, h1.2.1.trans h2.2.1.symm, h1.2.2.1.trans h2.2.2.1.symm,
    h1.2.2.2.1.trans h2.2.2.2.1.symm, h1.2.2.2.2.trans h2.2.2.2.2.symm⟩

/-- **C103.** A wrong number of coordinates is rejected: in particular affine coordinates without a patch and homogeneous
coordinates with a patch. -/
theorem C103_rejected (zs : List ℂ) (patch : Option ℕ) (hz : zs.length ≠ if patch.isNone then n + 2 else n + 1) :
    ∃ e : PyErr, (zs ≠ [] → e = .assertionError) ∧ A.kahlerPotential h zs patch = .error e ∧
      A.metric h zs params patch dep g = .error e ∧ A.eta h zs params patch dep g = .error e ∧
      A.ricci h zs params patch dep g = .error e ∧ A.ricciScalar h zs params patch dep g = .error e := by
  have e := initCoords_length hV zs patch hz
  refine ⟨if patch.isNone ∧ zs = [] then .valueError else .assertionError, fun h0 => ?_, ?_, ?_, ?_, ?_, ?_⟩
  · rw [if_neg fun h => h0 h.2]
  · unfold AlgebraicMetric.kahlerPotential; rw [e]; rfl
  · unfold AlgebraicMetric.metric; rw [e]; rfl
  · unfold AlgebraicMetric.eta; rw [e]; rfl
  · unfold AlgebraicMetric.ricci; rw [e]; rfl
  · unfold AlgebraicMetric.ricciScalar; rw [e]; rfl

end Coordinates

/-- The dimension hypothesis of C103 holds for the quintic. -/
example : dimComplex (.fermat 5) = .ok (3 + 2) := rfl

/-! ## C104 -/

section Optional

variable (A : AlgebraicMetric (n + 1)) (hV : dimComplex A.variety = .ok (n + 2)) (h : A.H) (params : Val)
  (p : Fin (n + 2)) (z : Fin (n + 1) → ℂ) (G : Fin (n + 1) → ℂ)
  (hG : gradDefining A.variety z params (some (.index p)) = .ok G)

include hV hG

/-- **C104.** Passing the gradient computed by `variety.grad_defining` changes nothing. -/
theorem C104_grad (dep : Option ℤ) :
    A.metric h (List.ofFn z) params (some (p : ℕ)) dep (some G) = A.metric h (List.ofFn z) params (some (p : ℕ)) dep none ∧
    A.eta h (List.ofFn z) params (some (p : ℕ)) dep (some G) = A.eta h (List.ofFn z) params (some (p : ℕ)) dep none ∧
    A.ricci h (List.ofFn z) params (some (p : ℕ)) dep (some G) = A.ricci h (List.ofFn z) params (some (p : ℕ)) dep none ∧
    A.ricciScalar h (List.ofFn z) params (some (p : ℕ)) dep (some G) =
      A.ricciScalar h (List.ofFn z) params (some (p : ℕ)) dep none := by
  refine ⟨?_, ?_, ?_, ?_⟩
  · unfold AlgebraicMetric.metric embFirst nodeGrad
    simp only [initCoords_affine hV, bind, Except.bind, asArray_ofFn, hG]
  · unfold AlgebraicMetric.eta embFirst nodeGrad
    simp only [initCoords_affine hV, bind, Except.bind, asArray_ofFn, hG]
  · unfold AlgebraicMetric.ricci embAll nodeGrad
    simp only [initCoords_affine hV, bind, Except.bind, asArray_ofFn, hG]
  · unfold AlgebraicMetric.ricciScalar embAll nodeGrad
    simp only [initCoords_affine hV, bind, Except.bind, asArray_ofFn, hG]

/-- **C104.** Without `dependent` the coordinate with the largest derivative is used and returned: passing it explicitly
changes nothing. -/
theorem C104_default : ∃ d : Fin (n + 1), (∀ i, ‖G i‖ ≤ ‖G d‖) ∧
    (∃ g, A.metric h (List.ofFn z) params (some (p : ℕ)) none none = .ok (g, (p : ℕ), ((d : ℕ) : ℤ))) ∧
    A.metric h (List.ofFn z) params (some (p : ℕ)) (some (d : ℕ)) none = A.metric h (List.ofFn z) params (some (p : ℕ)) none none ∧
    A.eta h (List.ofFn z) params (some (p : ℕ)) (some (d : ℕ)) none = A.eta h (List.ofFn z) params (some (p : ℕ)) none none ∧
    A.ricci h (List.ofFn z) params (some (p : ℕ)) (some (d : ℕ)) none = A.ricci h (List.ofFn z) params (some (p : ℕ)) none none ∧
    A.ricciScalar h (List.ofFn z) params (some (p : ℕ)) (some (d : ℕ)) none =
      A.ricciScalar h (List.ofFn z) params (some (p : ℕ)) none none := by
  refine ⟨argmax fun i => ‖G i‖, (argmax_spec fun i => ‖G i‖).1,
    ⟨Graph.gLoc (.full h) A.degree (sectionsJet A.sections (p : ℕ) z)
      ⟨G, ((argmax fun i => ‖G i‖ : Fin (n + 1)) : ℕ), fun _ _ _ => 0⟩, ?_⟩, ?_, ?_, ?_, ?_⟩
  · unfold AlgebraicMetric.metric embFirst nodeGrad
    simp only [initCoords_affine hV, bind, Except.bind, asArray_ofFn, hG, chooseDep, pure, Except.pure]
  · unfold AlgebraicMetric.metric embFirst nodeGrad
    simp only [initCoords_affine hV, bind, Except.bind, asArray_ofFn, hG, chooseDep]
  · unfold AlgebraicMetric.eta embFirst nodeGrad
    simp only [initCoords_affine hV, bind, Except.bind, asArray_ofFn, hG, chooseDep]
  · unfold AlgebraicMetric.ricci embAll nodeGrad
    simp only [initCoords_affine hV, bind, Except.bind, asArray_ofFn, hG, chooseDep]
  · unfold AlgebraicMetric.ricciScalar embAll nodeGrad
    simp only [initCoords_affine hV, bind, Except.bind, asArray_ofFn, hG, chooseDep]

end Optional

theorem argmax_ne {G : Fin (n + 1) → ℂ} {d : Fin (n + 1)} (hd : G d ≠ 0) : G (argmax fun i => ‖G i‖) ≠ 0 := by
  intro h0
  have := (argmax_spec fun i => ‖G i‖).1 d
  simp only [h0, norm_zero] at this
  exact hd (norm_le_zero_iff.1 this)

section Hyper

variable {A : AlgebraicMetric (n + 1)} {params : Val} {e : ℕ} {F : MvPolynomial (Fin (n + 2)) ℂ}
  (hV : Hypersurface A.variety params (n + 1) e F) (h : A.H) (p : Fin (n + 2)) (z : Fin (n + 1) → ℂ) (d : Fin (n + 1))
  (G : Fin (n + 1) → ℂ) (hG : gradDefining A.variety z params (some (.index p)) = .ok G) (hd : G d ≠ 0)

include hV hG hd

/-- **C104.** `eta` is the same for every dependent coordinate in which the derivative does not vanish. -/
theorem C104_eta : A.eta h (List.ofFn z) params (some (p : ℕ)) (some (d : ℕ)) none =
    A.eta h (List.ofFn z) params (some (p : ℕ)) none none := by
  have hGe : G = fun k => eval z (pderiv k (dehom p F)) := by
    have := hG.symm.trans (hV.grad p z)
    injection this
  subst hGe
  have h1 := eta_val hV h p z (some (d : ℕ))
  have h2 := eta_val hV h p z none
  exact h1.trans ((congrArg Except.ok (C70_dependent (.full h) A.degree (sectionsJet A.sections (p : ℕ) z)
    (fun k => eval z (pderiv k (dehom p F))) d _ hd (argmax_ne (G := fun k => eval z (pderiv k (dehom p F))) hd) _ _)).trans h2.symm)

/-- **C104.** So is the Ricci scalar, where the induced metric is non-degenerate. -/
theorem C104_ricci_scalar (hh : h.IsHermitian) (hB : ∀ a i, A.sections.powers a i ≤ A.sections.degree)
    (hpsi : Graph.psi (.full h) (sectionsJet A.sections (p : ℕ) z) ≠ 0)
    (hdet : ∀ g i j, A.metric h (List.ofFn z) params (some (p : ℕ)) (some (d : ℕ)) none = .ok (g, i, j) → g.det ≠ 0) :
    A.ricciScalar h (List.ofFn z) params (some (p : ℕ)) (some (d : ℕ)) none =
      A.ricciScalar h (List.ofFn z) params (some (p : ℕ)) none none := by
  have hGe : G = fun k => eval z (pderiv k (dehom p F)) := by
    have := hG.symm.trans (hV.grad p z)
    injection this
  subst hGe
  obtain ⟨R, c, -, h1, -, h2⟩ := ricci_val hV h p z d (some (d : ℕ)) rfl hd
  obtain ⟨R', c', -, h1', -, h2'⟩ := ricci_val hV h p z (argmax fun i => ‖eval z (pderiv i (dehom p F))‖) none rfl
    (argmax_ne (G := fun k => eval z (pderiv k (dehom p F))) hd)
  rw [h2, h2', ← h1, ← h1']
  refine (C100_curvature (sectionsJet A.sections (p : ℕ)) (sectionsJet_isJet _ hB p) h hh A.degree (dehom p F) d _ z hpsi hd
    (argmax_ne (G := fun k => eval z (pderiv k (dehom p F))) hd) ?_).2.1
  exact hdet _ _ _ (metric_val hV h p z (some (d : ℕ)))

end Hyper

/-! ## C105 -/

section Smooth

variable {A : AlgebraicMetric (n + 1)} {params : Val} {e : ℕ} {F : MvPolynomial (Fin (n + 2)) ℂ}
  (hV : Hypersurface A.variety params (n + 1) e F) (h : A.H) (hh : h.PosDef)
  (hB : SpansModulo F A.sections.degree A.sections.rows)

include hB in
theorem spans_le (a : Fin A.sections.size) (i : Fin (n + 2)) : A.sections.powers a i ≤ A.sections.degree := by
  rw [← hB.1 _ (List.get_mem _ a)]
  exact Finset.single_le_sum (f := fun i => A.sections.powers a i) (fun _ _ => Nat.zero_le _) (Finset.mem_univ i)

include hh hB in
theorem psi_pos (p : Fin (n + 2)) (z : Fin (n + 1) → ℂ) (h0 : eval (affineToHom z (p : ℕ)) F = 0) :
    0 < Graph.psi (.full h) (sectionsJet A.sections (p : ℕ) z) := by
  rw [sectionsJet_eq _ (spans_le hB) p]
  exact C62_pos h hh _ (span_immersion A.sections F hB p z (by rw [eval_dehom, h0])).1

include hV hh hB in
/-- **C105.** Let `h` be positive definite and let the sections of positive degree span the coordinate ring of the
hypersurface. At every point of the affine patch `p` that lies on the hypersurface, with any coordinate `d` as dependent
one in which the derivative does not vanish (or the default choice), all methods succeed: the Kahler potential is real,
the metric is positive definite, `eta` is positive, the Ricci tensor is Hermitian and the Ricci scalar real. -/
theorem C105_affine (hk : A.sections.degree ≠ 0) (p : Fin (n + 2)) (z : Fin (n + 1) → ℂ) (d : Fin (n + 1)) (dep : Option ℤ)
    (G : Fin (n + 1) → ℂ) (hG : gradDefining A.variety z params (some (.index p)) = .ok G)
    (h0 : defining A.variety (List.ofFn z) params (some (.index p)) = .ok 0) (hd : G d ≠ 0)
    (hdep : dep = some ((d : ℕ) : ℤ) ∨ dep = none ∧ d = argmax fun i => ‖G i‖) :
    ∃ K g η R c,
      A.kahlerPotential h (List.ofFn z) (some (p : ℕ)) = .ok K ∧ K.im = 0 ∧
      A.metric h (List.ofFn z) params (some (p : ℕ)) dep none = .ok (g, (p : ℕ), ((d : ℕ) : ℤ)) ∧ g.PosDef ∧
      A.eta h (List.ofFn z) params (some (p : ℕ)) dep none = .ok η ∧ 0 < η ∧
      A.ricci h (List.ofFn z) params (some (p : ℕ)) dep none = .ok (R, (p : ℕ), ((d : ℕ) : ℤ)) ∧ R.IsHermitian ∧
      A.ricciScalar h (List.ofFn z) params (some (p : ℕ)) dep none = .ok c ∧ c.im = 0 := by
  have hGe : G = fun k => eval z (pderiv k (dehom p F)) := by
    have := hG.symm.trans (hV.grad p z)
    injection this
  subst hGe
  have h0' : eval (affineToHom z (p : ℕ)) F = 0 := by
    have := (hV.defining p z).symm.trans h0
    injection this
  have hch : chooseDep (fun k => eval z (pderiv k (dehom p F))) dep = ((d : ℕ) : ℤ) := by
    rcases hdep with rfl | ⟨rfl, rfl⟩ <;> rfl
  have hψ := psi_pos h hh hB p z h0'
  obtain ⟨hs, himm⟩ := span_immersion A.sections F hB p z (by rw [eval_dehom, h0'])
  have hg : ∀ jH, (Graph.gLoc (.full h) A.degree (sectionsJet A.sections (p : ℕ) z)
      ⟨fun k => eval z (pderiv k (dehom p F)), ((d : ℕ) : ℤ), jH⟩).PosDef := by
    intro jH
    rw [sectionsJet_eq _ (spans_le hB) p]
    exact gLoc_posDef h hh _ _ hk hs _ d hd jH (himm hk)
  obtain ⟨R, c, hR, hc, hR', hc'⟩ := ricci_val hV h p z d dep hch hd
  obtain ⟨R1, c1, hR1, hc1, hRh, hci⟩ := C69_real h hh.isHermitian A.degree (sectionsJet A.sections (p : ℕ) z)
    ((sectionsJet_isJet _ (spans_le hB) p).symm z) (polyEmb (dehom p F) d z)
  have hm := metric_val hV h p z dep
  have he := eta_val hV h p z dep
  simp only [hch] at hm he
  refine ⟨_, _, _, R, c, kahler_val hV h p z, ?_, hm, hg _, he, ?_, hR', ?_, hc', ?_⟩
  · obtain ⟨r, hr⟩ : ∃ r : ℝ, Graph.psi (.full h) (sectionsJet A.sections (p : ℕ) z) = r := ⟨_, (Complex.ext rfl (by
      simpa using (Complex.lt_def.1 hψ).2.symm))⟩
    rw [hr] at hψ
    have hr0 : 0 < r := by exact_mod_cast hψ
    have : Graph.kahler (.full h) (sectionsJet A.sections (p : ℕ) z) A.degree =
        ((Real.log r / (Real.pi * A.degree) : ℝ) : ℂ) := by
      unfold Graph.kahler Donaldson.kahler
      rw [hr, ← Complex.ofReal_log hr0.le]
      push_cast
      rfl
    rw [this]
    exact Complex.ofReal_im _
  · refine mul_pos (hg _).det_pos ?_
    have : 0 < ‖eval z (pderiv d (dehom p F))‖ := norm_pos_iff.2 hd
    rw [jget_nat]
    exact_mod_cast pow_pos this 2
  · rw [hR] at hR1
    injection hR1 with hR1
    rw [hR1]
    exact hRh
  · rw [hc] at hc1
    injection hc1 with hc1
    rw [hc1]
    exact hci

include hV hh hB in
/-- **C105.** The same at every smooth point of the hypersurface in homogeneous coordinates; the patch that is used and
returned is that of the largest coordinate, and the dependent coordinate that of the largest derivative. -/
theorem C105_smooth (hk : A.sections.degree ≠ 0) (Z : Fin (n + 2) → ℂ) (hZ : Z ≠ 0) (h0 : eval Z F = 0)
    (hs : ∃ i, eval Z (pderiv i F) ≠ 0) :
    ∃ (p : Fin (n + 2)) (d : Fin (n + 1)) (K : ℂ) (g : Matrix (Fin n) (Fin n) ℂ) (η : ℂ) (R : Matrix (Fin n) (Fin n) ℂ)
      (c : ℂ), (∀ i, ‖Z i‖ ≤ ‖Z p‖) ∧ (∀ k, ‖eval Z (pderiv (p.succAbove k) F)‖ ≤ ‖eval Z (pderiv (p.succAbove d) F)‖) ∧
      A.kahlerPotential h (List.ofFn Z) none = .ok K ∧ K.im = 0 ∧
      A.metric h (List.ofFn Z) params none none none = .ok (g, (p : ℕ), ((d : ℕ) : ℤ)) ∧ g.PosDef ∧
      A.eta h (List.ofFn Z) params none none none = .ok η ∧ 0 < η ∧
      A.ricci h (List.ofFn Z) params none none none = .ok (R, (p : ℕ), ((d : ℕ) : ℤ)) ∧ R.IsHermitian ∧
      A.ricciScalar h (List.ofFn Z) params none none none = .ok c ∧ c.im = 0 := by
  obtain ⟨h1, -, h3⟩ := C17_patch Z
  set p := (homToAffineAuto Z).2 with hp
  have hp0 : Z p ≠ 0 := by
    intro hz
    apply hZ
    funext i
    have := h1 i
    rw [hz, norm_zero] at this
    simpa using this
  set z := homToAffine Z (p : ℕ) with hz
  have hgr : ∀ k, eval z (pderiv k (dehom p F)) = (Z p)⁻¹ ^ (e - 1) * eval Z (pderiv (p.succAbove k) F) := by
    intro k
    rw [eval_pderiv_dehom, hz, C16_roundtrip Z p hp0,
      ← eval_smul_homogeneous (hV.homogeneous.pderiv (i := p.succAbove k)) (Z p)⁻¹ Z]
    congr 2
    funext i
    ring
  obtain ⟨k, hk0⟩ := smooth_affine hV.homogeneous Z h0 hs p hp0
  have hmax := (argmax_spec fun i => ‖eval z (pderiv i (dehom p F))‖).1
  have hd0 : eval z (pderiv (argmax fun i => ‖eval z (pderiv i (dehom p F))‖) (dehom p F)) ≠ 0 :=
    argmax_ne (G := fun k => eval z (pderiv k (dehom p F))) hk0
  set d := argmax fun i => ‖eval z (pderiv i (dehom p F))‖ with hd
  have hdef : defining A.variety (List.ofFn z) params (some (.index p)) = .ok 0 := by
    rw [hV.defining p z, hz, C16_roundtrip Z p hp0, show (fun i => Z i / Z p) = fun i => (Z p)⁻¹ * Z i from
      funext fun i => by ring, eval_smul_homogeneous hV.homogeneous, h0, mul_zero]
  obtain ⟨K, g, η, R, c, r1, r2, r3, r4, r5, r6, r7, r8, r9, r10⟩ := C105_affine hV h hh hB hk p z d none _ (hV.grad p z)
    hdef hd0 (Or.inr ⟨rfl, rfl⟩)
  obtain ⟨e1, e2, e3, e4, e5⟩ := C103_homogeneous A hV.dim h params none none Z
  rw [h3] at e1 e2 e3 e4 e5
  refine ⟨p, d, K, g, η, R, c, h1, fun k => ?_, e1.trans r1, r2, e2.trans r3, r4, e3.trans r5, r6, e4.trans r7, r8,
    e5.trans r9, r10⟩
  have := hmax k
  rw [hgr, hgr, norm_mul, norm_mul] at this
  exact le_of_mul_le_mul_left this (norm_pos_iff.2 (pow_ne_zero _ (inv_ne_zero hp0)))

end Smooth

/-- **C105.** The hypotheses on the sections hold for `MonomialBasisFull` on every hypersurface and for
`MonomialBasisReduced` whenever every coordinate occurs in the defining polynomial. -/
theorem C105_sections (F : MvPolynomial (Fin (n + 2)) ℂ) (k : ℕ) :
    SpansModulo F k (monomialBasisFull (n + 1) k).rows ∧
    ∀ e, F.IsHomogeneous e → F.vars = Finset.univ →
      ∃ rows, monomialBasisReduced F k = .ok ⟨n + 1, rows⟩ ∧ SpansModulo F k rows := by
  refine ⟨spans_full F k, fun e hF hv => ?_⟩
  obtain ⟨rows, h1, h2⟩ := C97_basis_partial F e k hF hv
  exact ⟨rows, h1, spans_of_basis h2⟩

/-- All hypotheses of C105 together: the Fermat cubic, full basis of degree 2, `h = 1`, the point `(1 : -1 : 0)`. -/
example : ∃ (A : AlgebraicMetric 2) (F : MvPolynomial (Fin 3) ℂ) (Z : Fin 3 → ℂ),
    Hypersurface A.variety (.vec []) 2 3 F ∧ (1 : A.H).PosDef ∧ SpansModulo F A.sections.degree A.sections.rows ∧
    A.sections.degree ≠ 0 ∧ Z ≠ 0 ∧ eval Z F = 0 ∧ ∃ i, eval Z (pderiv i F) ≠ 0 := by
  refine ⟨⟨.fermat 3, monomialBasisFull 2 2⟩, ∑ j, MvPolynomial.X j ^ (2 + 1), ![1, -1, 0], hypersurface_fermat 2 _,
    Matrix.PosDef.one, (C105_sections _ 2).1, two_ne_zero, fun h => by simpa using congrFun h 0, ?_, 0, ?_⟩
  · simp [Fin.sum_univ_three]
    norm_num
  · simp [Fin.sum_univ_three, MvPolynomial.pderiv_X]

/-! ## C106 -/

section Global

variable {A : AlgebraicMetric (n + 1)} {params : Val} {e : ℕ} {F : MvPolynomial (Fin (n + 2)) ℂ}
  (hV : Hypersurface A.variety params (n + 1) e F) (h : A.H) (hh : h.PosDef)
  (hB : SpansModulo F A.sections.degree A.sections.rows) (Z : Fin (n + 2) → ℂ) (h0 : eval Z F = 0)
  (hs : ∃ i, eval Z (pderiv i F) ≠ 0)

include hV hh hB h0 hs

/-- **C106.** Between two affine patches containing a smooth point of the hypersurface, `eta` changes by the power
`|Z_q / Z_p|^(2 (e - n - 2))`, `e` the degree of the hypersurface. -/
theorem C106_patches (p q : Fin (n + 2)) (hp : Z p ≠ 0) (hq : Z q ≠ 0) :
    ∃ x y, A.eta h (List.ofFn (homToAffine Z (p : ℕ))) params (some (p : ℕ)) none none = .ok x ∧
      A.eta h (List.ofFn (homToAffine Z (q : ℕ))) params (some (q : ℕ)) none none = .ok y ∧
      x * (‖Z q / Z p‖ : ℂ) ^ (2 * (n + 2)) = y * (‖Z q / Z p‖ : ℂ) ^ (2 * e) := by
  refine ⟨_, _, eta_val hV h p _ none, eta_val hV h q _ none, ?_⟩
  have hpt : ∀ r, Z r ≠ 0 → eval (affineToHom (homToAffine Z ((r : Fin (n + 2)) : ℕ)) (r : ℕ)) F = 0 := by
    intro r hr
    rw [C16_roundtrip Z r hr, show (fun i => Z i / Z r) = fun i => (Z r)⁻¹ * Z i from funext fun i => by ring,
      eval_smul_homogeneous hV.homogeneous, h0, mul_zero]
  rcases eq_or_ne p q with rfl | hpq
  · rw [div_self hp, norm_one]
    simp
  obtain ⟨k, hk⟩ := smooth_affine hV.homogeneous Z h0 hs p hp
  obtain ⟨l, hl⟩ := smooth_affine hV.homogeneous Z h0 hs q hq
  have hc : affineToHom (homToAffine Z (p : ℕ)) (p : ℕ) q = Z q / Z p := by rw [C16_roundtrip Z p hp]
  have hcc : changeChart (homToAffine Z (p : ℕ)) (p : ℕ) (q : ℕ) = homToAffine Z (q : ℕ) := by
    rw [C19_change_chart _ p q hpq, C16_roundtrip Z p hp,
      show (fun i => Z i / Z p) = fun i => (Z p)⁻¹ * Z i from funext fun i => by ring,
      C18_fixed_patch Z q _ (inv_ne_zero hp)]
  have key := eta_core hV.homogeneous p q hpq (hV.represents p) (hV.represents q) (homToAffine Z (p : ℕ))
    (by rw [hc]; exact div_ne_zero hq hp) (by rw [hV.defining, hpt p hp]) _ _ (hV.grad p _) (hV.grad q _) A.sections
    (fun a => hB.1 _ (List.get_mem _ a)) _ _ (sectionsJet_isJet _ (spans_le hB) p) (sectionsJet_isJet _ (spans_le hB) q)
    (fun _ => rfl) (fun _ => rfl) h hh.isHermitian (psi_pos h hh hB p _ (hpt p hp)).ne' _ _
    (argmax_ne (G := fun k => eval (homToAffine Z (p : ℕ)) (pderiv k (dehom p F))) hk)
    (argmax_ne (G := fun k => eval (changeChart (homToAffine Z (p : ℕ)) (p : ℕ) (q : ℕ)) (pderiv k (dehom q F)))
      (by rw [hcc]; exact hl))
    (fun _ _ _ => 0) (fun _ _ _ => 0)
  rw [hc, hcc] at key
  exact key

/-- **C106.** On a Calabi-Yau hypersurface `eta` is a function on the variety: homogeneous coordinates of the point at any
scale, and affine coordinates in any patch that contains it with any admissible dependent coordinate, give the same
value. -/
theorem C106_calabi_yau (he : e = n + 2) (hZ : Z ≠ 0) :
    ∃ x, (∀ c : ℂ, c ≠ 0 → A.eta h (List.ofFn fun i => c * Z i) params none none none = .ok x) ∧
      ∀ p : Fin (n + 2), Z p ≠ 0 →
        A.eta h (List.ofFn (homToAffine Z (p : ℕ))) params (some (p : ℕ)) none none = .ok x ∧
        ∀ G, gradDefining A.variety (homToAffine Z (p : ℕ)) params (some (.index p)) = .ok G → ∀ d : Fin (n + 1), G d ≠ 0 →
          A.eta h (List.ofFn (homToAffine Z (p : ℕ))) params (some (p : ℕ)) (some (d : ℕ)) none = .ok x := by
  subst he
  obtain ⟨-, -, h3⟩ := C17_patch Z
  have hp0 : Z (homToAffineAuto Z).2 ≠ 0 := (C17_bounded Z hZ 0).1
  obtain ⟨x, -, hx, -, -⟩ := C106_patches hV h hh hB Z h0 hs _ _ hp0 hp0
  have hall : ∀ p : Fin (n + 2), Z p ≠ 0 →
      A.eta h (List.ofFn (homToAffine Z (p : ℕ))) params (some (p : ℕ)) none none = .ok x := by
    intro p hp
    obtain ⟨x', y, hx', hy, hxy⟩ := C106_patches hV h hh hB Z h0 hs _ p hp0 hp
    rw [hy]
    rw [hx] at hx'
    injection hx' with hx'
    rw [hx']
    refine congrArg Except.ok (mul_right_cancel₀ (pow_ne_zero _ ?_) hxy).symm
    simpa using ⟨hp, hp0⟩
  refine ⟨x, fun c hc => ?_, fun p hp => ⟨hall p hp, fun G hG d hd => ?_⟩⟩
  · rw [(C103_scale A hV.dim h params none none Z c hc).2.2.1, (C103_homogeneous A hV.dim h params none none Z).2.2.1, h3]
    exact hx
  · rw [C104_eta hV h p _ d G hG hd]
    exact hall p hp

end Global

/-! ## C107 -/

section Ricci

variable {A : AlgebraicMetric (n + 1)} {params : Val} {e : ℕ} {F : MvPolynomial (Fin (n + 2)) ℂ}
  (hV : Hypersurface A.variety params (n + 1) e F) (h : A.H) (hh : h.PosDef)
  (hB : SpansModulo F A.sections.degree A.sections.rows) (hk : A.sections.degree ≠ 0) (p : Fin (n + 2))
  (z : Fin (n + 1) → ℂ) (d : Fin (n + 1)) (G : Fin (n + 1) → ℂ)
  (hG : gradDefining A.variety z params (some (.index p)) = .ok G)
  (h0 : defining A.variety (List.ofFn z) params (some (.index p)) = .ok 0) (hd : G d ≠ 0)

include hV hh hB hk hG h0 hd

omit hh hB hk h0 in
theorem ricci_core (f : (Fin (n + 1) → ℂ) → ℂ)
    (hf : ∀ a b, ricciProjV h A.degree (sectionsJet A.sections (p : ℕ) z) (polyEmb (dehom p F) d z) a b =
      -dzbar (fun v => dz f a v) b z) :
    ∃ R, A.ricci h (List.ofFn z) params (some (p : ℕ)) (some (d : ℕ)) none = .ok (R, (p : ℕ), ((d : ℕ) : ℤ)) ∧
      R = jacobianEmbed G (d : ℕ) * (Matrix.of fun a b => -dzbar (fun v => dz f a v) b z) *
        (jacobianEmbed G (d : ℕ)).conjTranspose := by
  have hGe : G = fun k => eval z (pderiv k (dehom p F)) := by
    have := hG.symm.trans (hV.grad p z)
    injection this
  subst hGe
  obtain ⟨R, c, hR, hc, hR', -⟩ := ricci_val hV h p z d (some (d : ℕ)) rfl hd
  refine ⟨R, hR', ?_⟩
  rw [ricciLoc_full] at hR
  injection hR with hR
  rw [← hR, ricciLoc_eq_mul]
  have : ricciProjV h A.degree (sectionsJet A.sections (p : ℕ) z) (polyEmb (dehom p F) d z) =
      Matrix.of fun a b => -dzbar (fun v => dz f a v) b z := by
    ext a b
    exact hf a b
  rw [this]
  rfl

theorem regular : Graph.psi (.full h) (sectionsJet A.sections (p : ℕ) z) ≠ 0 ∧
    eval z (pderiv d (dehom p F)) ≠ 0 ∧
    (Graph.gLoc (.full h) A.degree (sectionsJet A.sections (p : ℕ) z) (polyEmb (dehom p F) d z)).det ≠ 0 := by
  have hGe : G = fun k => eval z (pderiv k (dehom p F)) := by
    have := hG.symm.trans (hV.grad p z)
    injection this
  have h0' : eval (affineToHom z (p : ℕ)) F = 0 := by
    have := (hV.defining p z).symm.trans h0
    injection this
  refine ⟨(psi_pos h hh hB p z h0').ne', by rw [hGe] at hd; exact hd, ?_⟩
  obtain ⟨K, g, -, -, -, -, -, hm, hg, -⟩ := C105_affine hV h hh hB hk p z d (some (d : ℕ)) G hG h0 hd (Or.inl rfl)
  have hm' := metric_val hV h p z (some (d : ℕ))
  rw [hm] at hm'
  injection hm' with hm'
  rw [Prod.ext_iff] at hm'
  intro hz
  refine hg.det_pos.ne' ?_
  exact (congrArg Matrix.det hm'.1).trans hz

/-- **C107.** The Ricci tensor returned by `ricci` is `-∂_a ∂̄_b log |det g|` with `g` the matrix returned by `metric` in
the same patch and for the same dependent coordinate, pulled back along the tangent frame `jacobian_embed`. -/
theorem C107_metric :
    ∃ R, A.ricci h (List.ofFn z) params (some (p : ℕ)) (some (d : ℕ)) none = .ok (R, (p : ℕ), ((d : ℕ) : ℤ)) ∧
      R = jacobianEmbed G (d : ℕ) * (Matrix.of fun a b => -dzbar (fun v => dz (fun w =>
          onOk (fun r => ((Real.log ‖r.1.det‖ : ℝ) : ℂ)) (A.metric h (List.ofFn w) params (some (p : ℕ)) (some (d : ℕ)) none)) a v) b z) *
        (jacobianEmbed G (d : ℕ)).conjTranspose := by
  obtain ⟨r1, r2, r3⟩ := regular hV h hh hB hk p z d G hG h0 hd
  refine ricci_core hV h p z d G hG hd _ fun a b => ?_
  have key := C68_ricci _ (sectionsJet_isJet A.sections (spans_le hB) p) d _ (polyEmb_isEmb (dehom p F) d) h
    hh.isHermitian A.degree z r1 r2 r3
  rw [ricciProj_full] at key
  injection key with key
  rw [key, Matrix.of_apply]
  congr 3
  funext v
  congr 1
  funext w
  rw [metric_val hV h p w (some (d : ℕ))]
  rfl

/-- **C107.** The same with `eta` in place of the determinant: the Ricci tensor is `-∂_a ∂̄_b log |eta|` on the
variety. -/
theorem C107_eta :
    ∃ R, A.ricci h (List.ofFn z) params (some (p : ℕ)) (some (d : ℕ)) none = .ok (R, (p : ℕ), ((d : ℕ) : ℤ)) ∧
      R = jacobianEmbed G (d : ℕ) * (Matrix.of fun a b => -dzbar (fun v => dz (fun w =>
          onOk (fun η => ((Real.log ‖η‖ : ℝ) : ℂ)) (A.eta h (List.ofFn w) params (some (p : ℕ)) (some (d : ℕ)) none)) a v) b z) *
        (jacobianEmbed G (d : ℕ)).conjTranspose := by
  obtain ⟨r1, r2, r3⟩ := regular hV h hh hB hk p z d G hG h0 hd
  refine ricci_core hV h p z d G hG hd _ fun a b => ?_
  rw [ricciProj_eta (sectionsJet_isJet A.sections (spans_le hB) p) hh.isHermitian A.degree (dehom p F) d z r1 r2 r3]
  congr 3
  funext v
  congr 1
  funext w
  rw [eta_val hV h p w (some (d : ℕ))]
  rfl

end Ricci

end Cyjax
