import Verif.Spec.Hypersurface
import Verif.Lemmas.Represents
import Verif.Lemmas.RicciDependent
import Verif.Props.MetricDerivatives

/-! # The graph of `GeometricObjects` for a hypersurface -/

namespace Cyjax

open Cyjax.Donaldson Cyjax.Spec Cyjax.Projective Cyjax.Variety Cyjax.Differential MvPolynomial
open Cyjax.Polynomial (PyErr Val PolyObj DworkFactor dworkMeta)

variable {n : ℕ}

/-- The sections as polynomials in the affine coordinates. -/
noncomputable def affineSection (B : MonomialSections n) (p : Fin (n + 1)) (a : Fin B.size) : MvPolynomial (Fin n) ℂ :=
  ∏ i, X i ^ B.powers a (p.succAbove i)

theorem call_affine (B : MonomialSections n) (hB : ∀ a i, B.powers a i ≤ B.degree) (p : Fin (n + 1)) (z : Fin n → ℂ)
    (a : Fin B.size) : B.call z (p : ℕ) true a = eval z (affineSection B p a) := by
  rw [show B.call z (p : ℕ) true a = monomialsIndex z (p : ℕ) B.powers B.degree a from rfl,
    C60_affine z p _ _ hB a, Fin.prod_univ_succAbove _ p, affineToHom_same, one_pow, one_mul]
  simp [affineSection, affineToHom_succAbove]

/-- The derivatives by automatic differentiation are the derivatives of the polynomials. -/
theorem sectionsJet_eq (B : MonomialSections n) (hB : ∀ a i, B.powers a i ≤ B.degree) (p : Fin (n + 1)) :
    sectionsJet B (p : ℕ) = polyJet (affineSection B p) := by
  have h1 : ∀ (z : Fin n → ℂ) a i, deriv (fun t => B.call (Function.update z i t) (p : ℕ) true a) (z i) =
      eval z (pderiv i (affineSection B p a)) := by
    intro z a i
    simp only [call_affine B hB p]
    exact (eval_hasDerivAt (affineSection B p a) i z).deriv
  funext z
  have e1 : (sectionsJet B (p : ℕ) z).s = (polyJet (affineSection B p) z).s := funext fun a => call_affine B hB p z a
  have e2 : (sectionsJet B (p : ℕ) z).s1 = (polyJet (affineSection B p) z).s1 := by
    funext a i
    exact h1 z a i
  have e3 : (sectionsJet B (p : ℕ) z).s2 = (polyJet (affineSection B p) z).s2 := by
    funext a i j
    change deriv (fun u => deriv (fun t => B.call (Function.update (Function.update z j u) i t) (p : ℕ) true a)
      (Function.update z j u i)) (z j) = _
    simp only [h1]
    exact (eval_hasDerivAt (pderiv i (affineSection B p a)) j z).deriv
  calc sectionsJet B (p : ℕ) z
      = ⟨(sectionsJet B (p : ℕ) z).s, (sectionsJet B (p : ℕ) z).s1, (sectionsJet B (p : ℕ) z).s2⟩ := rfl
    _ = polyJet (affineSection B p) z := by rw [e1, e2, e3]

theorem sectionsJet_isJet (B : MonomialSections n) (hB : ∀ a i, B.powers a i ≤ B.degree) (p : Fin (n + 1)) :
    IsJet (sectionsJet B (p : ℕ)) := by
  rw [sectionsJet_eq B hB p]
  exact polyJet_isJet _

/-- The polynomial in the affine coordinates of a patch. -/
noncomputable def dehom (p : Fin (n + 1)) (F : MvPolynomial (Fin (n + 1)) ℂ) : MvPolynomial (Fin n) ℂ :=
  bind₁ (p.insertNth 1 X) F

theorem eval_dehom (p : Fin (n + 1)) (F : MvPolynomial (Fin (n + 1)) ℂ) (z : Fin n → ℂ) :
    eval z (dehom p F) = eval (affineToHom z (p : ℕ)) F := by
  unfold dehom
  refine (eval₂Hom_bind₁ (RingHom.id ℂ) z _ F).trans ?_
  change eval _ F = _
  congr 2
  funext i
  rcases Fin.eq_self_or_eq_succAbove p i with rfl | ⟨k, rfl⟩
  · simp [affineToHom_same]
  · simp [affineToHom_succAbove]

theorem eval_pderiv_dehom (p : Fin (n + 1)) (F : MvPolynomial (Fin (n + 1)) ℂ) (z : Fin n → ℂ) (k : Fin n) :
    eval z (pderiv k (dehom p F)) = eval (affineToHom z (p : ℕ)) (pderiv (p.succAbove k) F) := by
  have h1 := eval_hasDerivAt (dehom p F) k z
  have h2 := eval_hasDerivAt F (p.succAbove k) (affineToHom z (p : ℕ))
  rw [affineToHom_succAbove] at h2
  simp only [eval_dehom, affineToHom_update] at h1
  exact h1.unique h2

theorem Spec.Hypersurface.represents {V : HomKind} {params : Val} {m e : ℕ} {F : MvPolynomial (Fin (m + 1)) ℂ}
    (h : Hypersurface V params m e F) (p : Fin (m + 1)) : Represents V params p F := h.defining p

/-- The gradient of the defining function. -/
theorem Spec.Hypersurface.grad {V : HomKind} {params : Val} {m e : ℕ} {F : MvPolynomial (Fin (m + 1)) ℂ}
    (h : Hypersurface V params m e F) (p : Fin (m + 1)) (z : Fin m → ℂ) :
    gradDefining V z params (some (.index p)) = .ok fun k => eval z (pderiv k (dehom p F)) := by
  rw [(h.represents p).grad]
  simp only [eval_pderiv_dehom]

section Emb

variable {V : HomKind} {params : Val} {e : ℕ} {F : MvPolynomial (Fin (n + 2)) ℂ}

theorem Spec.Hypersurface.jacobian (h : Hypersurface V params (n + 1) e F) (p : Fin (n + 2)) (z : Fin (n + 1) → ℂ)
    (d : Fin (n + 1)) : jacobianEmbedAt V z params (some (.index p)) (some ((d : ℕ) : ℤ)) =
      .ok (Graph.jac (polyEmb (dehom p F) d z), ((d : ℕ) : ℤ)) := by
  unfold jacobianEmbedAt
  rw [h.grad p z]
  rfl

/-- `jac_h` is the derivative of the Jacobian. -/
theorem Spec.Hypersurface.jacH (h : Hypersurface V params (n + 1) e F) (p : Fin (n + 2)) (z : Fin (n + 1) → ℂ)
    (d : Fin (n + 1)) (hd : eval z (pderiv d (dehom p F)) ≠ 0) :
    nodeJacH V z params p ((d : ℕ) : ℤ) = .ok (polyEmb (dehom p F) d z).jacH := by
  unfold nodeJacH
  rw [h.jacobian p z d]
  simp only [Except.ok.injEq]
  funext r i a
  simp only [h.jacobian p _ d]
  exact ((polyEmb_isEmb (dehom p F) d).first z hd r i a).deriv

end Emb

/-! ## Coordinates -/

theorem homToAffineList_ofFn {m : ℕ} (Z : Fin (m + 1) → ℂ) :
    homToAffineList (List.ofFn Z) = .ok (List.ofFn (homToAffineAuto Z).1, ((homToAffineAuto Z).2 : ℕ)) := by
  obtain ⟨l, hl⟩ : ∃ l, l = List.ofFn Z := ⟨_, rfl⟩
  rw [← hl]
  have hlen : l.length = m + 1 := by rw [hl]; simp
  match l, hlen, hl with
  | z :: zs, hlen, hl =>
    have hm : zs.length = m := by simpa using hlen
    subst hm
    have : Z = fun i => (z :: zs).get i := by
      funext i
      simp only [List.get_eq_getElem, hl, List.getElem_ofFn]
    rw [this]
    rfl

theorem asArray_ofFn {m : ℕ} (z : Fin m → ℂ) : asArray m (List.ofFn z) = .ok z := by
  unfold asArray
  rw [dif_pos (by simp)]
  congr 1
  funext i
  simp

theorem initCoords_affine {V : HomKind} {m : ℕ} (hV : dimComplex V = .ok (m + 1)) (z : Fin m → ℂ) (p : ℕ) :
    initCoords V (List.ofFn z) (some p) = .ok (List.ofFn z, p) := by
  simp [initCoords, hV, bind, Except.bind]

theorem initCoords_hom {V : HomKind} {m : ℕ} (hV : dimComplex V = .ok (m + 1)) (Z : Fin (m + 1) → ℂ) :
    initCoords V (List.ofFn Z) none = .ok (List.ofFn (homToAffineAuto Z).1, ((homToAffineAuto Z).2 : ℕ)) := by
  simp [initCoords, hV, bind, Except.bind, -List.ofFn_succ, homToAffineList_ofFn]

/-- Only the number of coordinates is checked. -/
theorem initCoords_length {V : HomKind} {m : ℕ} (hV : dimComplex V = .ok (m + 1)) (zs : List ℂ) (patch : Option ℕ)
    (h : zs.length ≠ if patch.isNone then m + 1 else m) :
    initCoords V zs patch = .error (if patch.isNone ∧ zs = [] then .valueError else .assertionError) := by
  cases patch with
  | some p =>
    simp only [Option.isNone_some, Bool.false_eq_true, if_false] at h
    simp [initCoords, hV, bind, Except.bind, h]
  | none =>
    simp only [Option.isNone_none, if_true] at h
    match zs, h with
    | [], _ => simp [initCoords, homToAffineList, bind, Except.bind]
    | z :: zs, h =>
      have : zs.length ≠ m := by simpa using h
      simp [initCoords, homToAffineList, hV, bind, Except.bind, this]

/-! ## The values for a hypersurface -/

section Values

variable {A : AlgebraicMetric (n + 1)} {params : Val} {e : ℕ} {F : MvPolynomial (Fin (n + 2)) ℂ}

/-- The dependent coordinate used, as an index. -/
theorem dep_index (G : Fin (n + 1) → ℂ) (dep : Option (Fin (n + 1))) :
    chooseDep G (dep.map fun d => ((d : ℕ) : ℤ)) =
      ((dep.getD (argmax fun i => ‖G i‖) : Fin (n + 1)) : ℕ) := by
  cases dep <;> rfl

variable (hV : Hypersurface A.variety params (n + 1) e F)

include hV

theorem kahler_val (h : A.H) (p : Fin (n + 2)) (z : Fin (n + 1) → ℂ) :
    A.kahlerPotential h (List.ofFn z) (some (p : ℕ)) =
      .ok (Graph.kahler (.full h) (sectionsJet A.sections p z) A.degree) := by
  unfold AlgebraicMetric.kahlerPotential
  rw [initCoords_affine hV.dim]
  simp only [bind, Except.bind, asArray_ofFn, pure, Except.pure]

theorem metric_val (h : A.H) (p : Fin (n + 2)) (z : Fin (n + 1) → ℂ) (dep : Option ℤ) :
    let G := fun k => eval z (pderiv k (dehom p F))
    A.metric h (List.ofFn z) params (some (p : ℕ)) dep none =
      .ok (Graph.gLoc (.full h) A.degree (sectionsJet A.sections p z) ⟨G, chooseDep G dep, fun _ _ _ => 0⟩, (p : ℕ),
        chooseDep G dep) := by
  intro G
  unfold AlgebraicMetric.metric embFirst nodeGrad
  rw [initCoords_affine hV.dim]
  simp only [bind, Except.bind, asArray_ofFn, pure, Except.pure, hV.grad p z]
  rfl

theorem eta_val (h : A.H) (p : Fin (n + 2)) (z : Fin (n + 1) → ℂ) (dep : Option ℤ) :
    let G := fun k => eval z (pderiv k (dehom p F))
    A.eta h (List.ofFn z) params (some (p : ℕ)) dep none =
      .ok (Graph.eta (.full h) A.degree (sectionsJet A.sections p z) ⟨G, chooseDep G dep, fun _ _ _ => 0⟩) := by
  intro G
  unfold AlgebraicMetric.eta embFirst nodeGrad
  rw [initCoords_affine hV.dim]
  simp only [bind, Except.bind, asArray_ofFn, pure, Except.pure, hV.grad p z]
  rfl

theorem ricci_val (h : A.H) (p : Fin (n + 2)) (z : Fin (n + 1) → ℂ) (d : Fin (n + 1)) (dep : Option ℤ)
    (hdep : chooseDep (fun k => eval z (pderiv k (dehom p F))) dep = ((d : ℕ) : ℤ))
    (hd : eval z (pderiv d (dehom p F)) ≠ 0) :
    ∃ R c, Graph.ricciLoc (.full h) A.degree (sectionsJet A.sections p z) (polyEmb (dehom p F) d z) = .ok R ∧
      Graph.ricciScalar (.full h) A.degree (sectionsJet A.sections p z) (polyEmb (dehom p F) d z) = .ok c ∧
      A.ricci h (List.ofFn z) params (some (p : ℕ)) dep none = .ok (R, (p : ℕ), ((d : ℕ) : ℤ)) ∧
      A.ricciScalar h (List.ofFn z) params (some (p : ℕ)) dep none = .ok c := by
  have hE : embAll A.variety z params (p : ℕ) dep none = .ok (polyEmb (dehom p F) d z) := by
    unfold embAll nodeGrad
    simp only [bind, Except.bind, pure, Except.pure, hV.grad p z, hdep, hV.jacH p z d hd]
    rfl
  obtain ⟨R, hR⟩ : ∃ R, Graph.ricciLoc (.full h) A.degree (sectionsJet A.sections p z) (polyEmb (dehom p F) d z) = .ok R :=
    ⟨_, rfl⟩
  obtain ⟨c, hc⟩ : ∃ c, Graph.ricciScalar (.full h) A.degree (sectionsJet A.sections p z) (polyEmb (dehom p F) d z) =
      .ok c := ⟨_, rfl⟩
  refine ⟨R, c, hR, hc, ?_, ?_⟩
  · unfold AlgebraicMetric.ricci
    rw [initCoords_affine hV.dim]
    simp only [bind, Except.bind, asArray_ofFn, hE, hR, pure, Except.pure]
    rfl
  · unfold AlgebraicMetric.ricciScalar
    rw [initCoords_affine hV.dim]
    simp only [bind, Except.bind, asArray_ofFn, hE, hc]

end Values

/-! ## Hypersurfaces -/

theorem hypersurface_generic {P : PolyObj} {name : List Char} {m d : ℕ} (h : Proper P name m)
    (hh : HomogeneousIn P.poly name m d) (hp : ∀ p : Fin (m + 1), HasPatch P name p) (ps : List ℂ)
    (hps : ps.length = P.md.params.length) :
    ∃ F, Hypersurface (.generic P) (.vec ps) m d F := by
  obtain ⟨F, hF, hr⟩ := represents_generic h hh ps hps
  refine ⟨F, ?_, hF, fun p => hr p (hp p)⟩
  simp [dimComplex, HomKind.md, h.vars]

theorem hypersurface_dwork (m : ℕ) (f : DworkFactor) (psi : ℂ) (rest : List ℂ) :
    ∃ F, Hypersurface (.dwork (m + 1) f) (.vec (psi :: rest)) m (m + 1) F := by
  obtain ⟨F, hF, hr⟩ := represents_dwork (m := m) f psi rest
  refine ⟨F, ?_, hF, hr⟩
  simp [dimComplex, HomKind.md, dworkMeta]

theorem hypersurface_fermat (m : ℕ) (v : Val) :
    Hypersurface (.fermat (m + 1)) v m (m + 1) (∑ j, X j ^ (m + 1)) := by
  refine ⟨by simp [dimComplex, HomKind.md], IsHomogeneous.sum _ _ _ fun j _ => isHomogeneous_X_pow j _, fun p zs => ?_⟩
  rw [defining_fermat_patch]
  congr 1
  simp only [map_sum, map_pow, eval_X]
  rw [Fin.sum_univ_succAbove _ p]
  simp only [affineToHom_same, affineToHom_succAbove]
  ring

/-- At a smooth point the affine gradient does not vanish, in every patch that contains the point. -/
theorem smooth_affine {e : ℕ} {F : MvPolynomial (Fin (n + 1)) ℂ} (hF : F.IsHomogeneous e) (Z : Fin (n + 1) → ℂ)
    (h0 : eval Z F = 0) (hs : ∃ i, eval Z (pderiv i F) ≠ 0) (p : Fin (n + 1)) (hp : Z p ≠ 0) :
    ∃ k, eval (homToAffine Z (p : ℕ)) (pderiv k (dehom p F)) ≠ 0 := by
  by_contra hcon
  push Not at hcon
  obtain ⟨i, hi⟩ := hs
  have hk : ∀ k, eval Z (pderiv (p.succAbove k) F) = 0 := by
    intro k
    have h1 := hcon k
    rw [eval_pderiv_dehom, C16_roundtrip Z p hp] at h1
    have h2 := eval_smul_homogeneous (hF.pderiv (i := p.succAbove k)) (Z p)⁻¹ Z
    rw [show (fun i => (Z p)⁻¹ * Z i) = fun i => Z i / Z p from funext fun i => by ring, h1] at h2
    exact (mul_eq_zero.1 h2.symm).resolve_left (pow_ne_zero _ (inv_ne_zero hp))
  have hE : ∑ j, Z j * eval Z (pderiv j F) = e * eval Z F := by
    have := congrArg (eval Z) hF.sum_X_mul_pderiv
    simpa using this
  rw [Fin.sum_univ_succAbove _ p, h0] at hE
  simp only [hk, mul_zero, Finset.sum_const_zero, add_zero] at hE
  have hpp := (mul_eq_zero.1 hE).resolve_left hp
  rcases Fin.eq_self_or_eq_succAbove p i with rfl | ⟨k, rfl⟩
  · exact hi hpp
  · exact hi (hk k)

end Cyjax
