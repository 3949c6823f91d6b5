import Verif.Spec.PolyArith
import Verif.Props.PolyScalar

/-! # C181: nested expressions of polynomial objects -/

namespace Cyjax

open Cyjax.Polynomial MvPolynomial

/-- The kinds of the merged variables are those of the variables before. -/
private theorem mergeVars_kind (ws vars vars' : List Var) (h : mergeVars vars ws = .ok vars') :
    ∀ v ∈ vars', ∃ w, (w ∈ vars ∨ w ∈ ws) ∧ w.1 = v.1 ∧ w.2.isSome = v.2.isSome := by
  induction ws generalizing vars with
  | nil =>
    rw [mergeVars] at h
    cases h
    exact fun v hv => ⟨v, Or.inl hv, rfl, rfl⟩
  | cons w ws ih =>
    rw [mergeVars] at h
    have key : ∀ vars'', mergeVar vars w = .ok vars'' →
        ∀ v ∈ vars'', ∃ u, (u ∈ vars ∨ u ∈ w :: ws) ∧ u.1 = v.1 ∧ u.2.isSome = v.2.isSome := by
      intro vars'' h'' v hv
      rcases mergeVar_cases vars w with ⟨_, h'⟩ | ⟨l, u, r, rfl, hu, hl, h'⟩
      · rw [h'] at h''
        cases h''
        rcases List.mem_append.1 hv with hv | hv
        · exact ⟨v, Or.inl hv, rfl, rfl⟩
        · rw [List.mem_singleton] at hv
          subst hv
          exact ⟨v, Or.inr (by simp), rfl, rfl⟩
      · rcases h' with ⟨_, _, h'⟩ | ⟨a, b, ha, hb, h'⟩ | ⟨_, h'⟩ <;> rw [h'] at h'' <;> cases h''
        · exact ⟨v, Or.inl hv, rfl, rfl⟩
        · rcases List.mem_append.1 hv with hv | hv
          · exact ⟨v, Or.inl (by simp [hv]), rfl, rfl⟩
          · rcases List.mem_cons.1 hv with rfl | hv
            · exact ⟨w, Or.inr (by simp), rfl, by simp [hb]⟩
            · exact ⟨v, Or.inl (by simp [hv]), rfl, rfl⟩
    cases h1 : mergeVar vars w with
    | error e => rw [h1] at h; cases h
    | ok vars'' =>
      rw [h1] at h
      intro v hv
      obtain ⟨u, hu, h2, h3⟩ := ih vars'' h v hv
      rcases hu with hu | hu
      · obtain ⟨x, hx, h4, h5⟩ := key vars'' h1 u hu
        exact ⟨x, hx, h4.trans h2, h5.trans h3⟩
      · exact ⟨u, Or.inr (List.mem_cons_of_mem w hu), h2, h3⟩

/-- What is known about the result of an expression. -/
private structure Result (L : List PolyObj) (R : PolyObj) : Prop where
  wf : R.md.WF
  declared : R.Declared
  real : RealCoeffs R.poly
  kinds : ∀ v ∈ R.md.vars, ∃ P ∈ L, ∃ w ∈ P.md.vars, w.1 = v.1 ∧ w.2.isSome = v.2.isSome
  params : ∀ s, s ∈ R.md.params ↔ ∃ P ∈ L, s ∈ P.md.params
  syms : ∀ s, s ∈ R.md.varSyms ↔ ∃ P ∈ L, s ∈ P.md.varSyms
  gens : ∀ s, s ∈ R.gens ↔ ∃ P ∈ L, s ∈ P.gens

private theorem mem_combineGens (g g' : List Sym) (s : Sym) : s ∈ combineGens g g' ↔ s ∈ g ∨ s ∈ g' := by
  unfold combineGens
  rw [List.mem_append, List.mem_filter]
  by_cases h : s ∈ g <;> simp [h]

private theorem Result.combine {L L' : List PolyObj} {P Q : PolyObj} (hP : Result L P) (hQ : Result L' Q)
    (hk : ∀ A ∈ L, ∀ B ∈ L', SameKind A.md B.md ∧ NoClash A.md B.md) :
    ∃ md, combineMeta P.md Q.md = .ok md ∧ ∀ p, RealCoeffs p →
      (∀ S : Subalgebra ℂ (MvPolynomial Sym ℂ), P.poly ∈ S → Q.poly ∈ S → p ∈ S) →
      Result (L ++ L') ⟨md, p, combineGens P.gens Q.gens⟩ := by
  have hsame : SameKind P.md Q.md := by
    intro v hv w hw hvw
    obtain ⟨A, hA, v', hv', h1, h2⟩ := hP.kinds v hv
    obtain ⟨B, hB, w', hw', h3, h4⟩ := hQ.kinds w hw
    rw [← h2, ← h4]
    exact (hk A hA B hB).1 v' hv' w' hw' (h1.trans (hvw.trans h3.symm))
  have hnames : ∀ {L : List PolyObj} {R : PolyObj}, Result L R → ∀ n ∈ R.md.names, ∃ A ∈ L, n ∈ A.md.names := by
    intro L R hR n hn
    obtain ⟨v, hv, rfl⟩ := List.mem_map.1 hn
    obtain ⟨A, hA, w, hw, h1, -⟩ := hR.kinds v hv
    exact ⟨A, hA, List.mem_map.2 ⟨w, hw, h1⟩⟩
  have hclash : NoClash P.md Q.md := by
    constructor
    · intro s hs name ix he hn
      obtain ⟨A, hA, hs⟩ := (hP.params s).1 hs
      obtain ⟨B, hB, hn⟩ := hnames hQ name hn
      exact (hk A hA B hB).2.1 s hs name ix he hn
    · intro s hs name ix he hn
      obtain ⟨B, hB, hs⟩ := (hQ.params s).1 hs
      obtain ⟨A, hA, hn⟩ := hnames hP name hn
      exact (hk A hA B hB).2.2 s hs name ix he hn
  obtain ⟨vars, hv⟩ := mergeVars_succeeds Q.md.vars P.md.vars hsame hQ.wf.namesNodup
  obtain ⟨md, hmd⟩ : ∃ md, combineMeta P.md Q.md = .ok md := by
    unfold combineMeta; rw [hv]; exact ⟨_, rfl⟩
  have hvars : md.vars = vars := by
    unfold combineMeta at hmd; rw [hv] at hmd; cases hmd; rfl
  obtain ⟨h1, h2, h3, h4⟩ := combineMeta_ok P.md Q.md md hP.wf hQ.wf hclash hmd
  have hs := combineMeta_allSymbols P.md Q.md md hP.wf hQ.wf hclash hmd
  refine ⟨md, hmd, fun p hr hp => ⟨h1, ?_, hr, ?_, ?_, ?_, ?_⟩⟩
  · refine (declared_iff _).2 ?_
    exact hp _ (polysIn_mono (fun s h => (hs s).2 (Or.inl h)) ((declared_iff P).1 hP.declared))
      (polysIn_mono (fun s h => (hs s).2 (Or.inr h)) ((declared_iff Q).1 hQ.declared))
  · intro v hv'
    rw [hvars] at hv'
    obtain ⟨w, hw, h5, h6⟩ := mergeVars_kind _ _ _ hv v hv'
    rcases hw with hw | hw
    · obtain ⟨A, hA, u, hu, h7, h8⟩ := hP.kinds w hw
      exact ⟨A, List.mem_append.2 (Or.inl hA), u, hu, h7.trans h5, h8.trans h6⟩
    · obtain ⟨A, hA, u, hu, h7, h8⟩ := hQ.kinds w hw
      exact ⟨A, List.mem_append.2 (Or.inr hA), u, hu, h7.trans h5, h8.trans h6⟩
  · intro s
    change s ∈ md.params ↔ _
    rw [h3, List.mem_append, List.mem_filter]
    have e : (s ∈ P.md.params ∨ s ∈ Q.md.params ∧ decide (s ∉ P.md.params) = true) ↔ s ∈ P.md.params ∨ s ∈ Q.md.params := by
      by_cases h : s ∈ P.md.params <;> simp [h]
    rw [e, hP.params, hQ.params]
    simp only [List.mem_append, or_and_right, exists_or]
  · intro s
    change s ∈ md.varSyms ↔ _
    rw [h4, hP.syms, hQ.syms]
    simp only [List.mem_append, or_and_right, exists_or]
  · intro s
    change s ∈ combineGens _ _ ↔ _
    rw [mem_combineGens, hP.gens, hQ.gens]
    simp only [List.mem_append, or_and_right, exists_or]

/-- The polynomial an operator builds. -/
private noncomputable def opPoly : PolyOp → MvPolynomial Sym ℂ → MvPolynomial Sym ℂ → MvPolynomial Sym ℂ
  | .add, p, q => p + q
  | .sub, p, q => p - q
  | .mul, p, q => p * q

private theorem opPoly_real (o : PolyOp) {p q : MvPolynomial Sym ℂ} (hp : RealCoeffs p) (hq : RealCoeffs q) :
    RealCoeffs (opPoly o p q) := by
  cases o
  · exact hp.add hq
  · exact hp.sub hq
  · exact hp.mul hq

private theorem opPoly_mem (o : PolyOp) {p q : MvPolynomial Sym ℂ} (S : Subalgebra ℂ (MvPolynomial Sym ℂ)) (hp : p ∈ S)
    (hq : q ∈ S) : opPoly o p q ∈ S := by
  cases o
  · exact S.add_mem hp hq
  · exact S.sub_mem hp hq
  · exact S.mul_mem hp hq

private theorem opPoly_eval (o : PolyOp) (p q : MvPolynomial Sym ℂ) (ρ : Sym → ℂ) :
    eval ρ (opPoly o p q) = o.apply (eval ρ p) (eval ρ q) := by
  cases o
  · exact map_add _ _ _
  · exact map_sub _ _ _
  · exact map_mul _ _ _

private theorem expression (a : PolyTree) (hfit : a.Fits)
    (hleaf : ∀ P ∈ a.leaves, P.md.WF ∧ P.Declared ∧ RealCoeffs P.poly)
    (hk : ∀ A ∈ a.leaves, ∀ B ∈ a.leaves, SameKind A.md B.md ∧ NoClash A.md B.md) :
    ∃ R, a.run = .ok R ∧ Result a.leaves R ∧ ∀ ρ, a.value ρ = eval ρ R.poly := by
  classical
  induction a with
  | leaf P =>
    obtain ⟨h1, h2, h3⟩ := hleaf P (by simp [PolyTree.leaves])
    refine ⟨P, rfl, ⟨h1, h2, h3, fun v hv => ⟨P, by simp [PolyTree.leaves], v, hv, rfl, rfl⟩, ?_, ?_, ?_⟩, fun ρ => ?_⟩
    · simp [PolyTree.leaves]
    · simp [PolyTree.leaves]
    · simp [PolyTree.leaves]
    · rw [PolyTree.value, callAt_ok P h1 h2 h3]
  | op o a b iha ihb =>
    obtain ⟨P, hP, hPr, hPv⟩ := iha hfit.1 (fun A hA => hleaf A (List.mem_append.2 (Or.inl hA)))
      fun A hA B hB => hk A (List.mem_append.2 (Or.inl hA)) B (List.mem_append.2 (Or.inl hB))
    obtain ⟨Q, hQ, hQr, hQv⟩ := ihb hfit.2 (fun A hA => hleaf A (List.mem_append.2 (Or.inr hA)))
      fun A hA B hB => hk A (List.mem_append.2 (Or.inr hA)) B (List.mem_append.2 (Or.inr hB))
    obtain ⟨md, hmd, hres⟩ := hPr.combine hQr fun A hA B hB =>
      hk A (List.mem_append.2 (Or.inl hA)) B (List.mem_append.2 (Or.inr hB))
    refine ⟨⟨md, opPoly o P.poly Q.poly, combineGens P.gens Q.gens⟩, ?_,
      hres _ (opPoly_real o hPr.real hQr.real) fun S h1 h2 => opPoly_mem o S h1 h2, fun ρ => ?_⟩
    · simp only [PolyTree.run, hP, hQ, bind, Except.bind]
      cases o <;> simp only [PolyOp.run, PolyObj.add, PolyObj.sub, PolyObj.mul, hmd, opPoly]
    · rw [PolyTree.value, opPoly_eval, hPv, hQv]
  | num o a c iha =>
    obtain ⟨P, hP, hPr, hPv⟩ := iha hfit.1 hleaf hk
    refine ⟨⟨P.md, opPoly o P.poly (C c), combineGens P.gens []⟩, ?_, ⟨hPr.wf, ?_, ?_, hPr.kinds, hPr.params, hPr.syms, ?_⟩, fun ρ => ?_⟩
    · simp only [PolyTree.run, hP, bind, Except.bind]
      cases o <;>
        simp only [PolyOp.runNum, PolyObj.addOperand, PolyObj.subOperand, PolyObj.mulOperand, combineOperand, Operand.poly, opPoly]
    · exact (declared_iff _).2 (opPoly_mem o _ ((declared_iff P).1 hPr.declared) (C_mem_polysIn _ _))
    · exact opPoly_real o hPr.real (realCoeffs_C c hfit.2)
    · intro s
      change s ∈ combineGens _ _ ↔ _
      rw [mem_combineGens, hPr.gens]
      simp [PolyTree.leaves]
    · rw [PolyTree.value, opPoly_eval, hPv, eval_C]
  | diff a s iha =>
    obtain ⟨P, hP, hPr, hPv⟩ := iha hfit.1 hleaf hk
    have hs : s ∈ P.gens := (hPr.gens s).2 hfit.2
    refine ⟨⟨P.md, pderiv s P.poly, P.gens⟩, ?_, ⟨hPr.wf, ?_, realCoeffs_pderiv _ _ hPr.real, hPr.kinds, hPr.params, hPr.syms,
      hPr.gens⟩, fun ρ => ?_⟩
    · simp only [PolyTree.run, hP, bind, Except.bind, PolyObj.diff, if_pos hs]
    · exact (mem_polysIn _ _).1 (pderiv_mem_polysIn _ s _ ((declared_iff P).1 hPr.declared))
    · rw [PolyTree.value]
      simp only [hPv]
      exact (hasDerivAt_eval P.poly s ρ).deriv

/-- **C181.** Expressions nested at will, of operators between polynomial objects, operators with real numbers and
derivatives, are evaluated without error. Calling the result gives the number the expression stands for, at all values of
the symbols. The result has the variables and parameters of all objects in the expression. -/
theorem C181_expressions (a : PolyTree) (hfit : a.Fits)
    (hleaf : ∀ P ∈ a.leaves, P.md.WF ∧ P.Declared ∧ RealCoeffs P.poly)
    (hk : ∀ A ∈ a.leaves, ∀ B ∈ a.leaves, SameKind A.md B.md ∧ NoClash A.md B.md) :
    ∃ R, a.run = .ok R ∧ (∀ ρ, R.callAt ρ = .ok (a.value ρ)) ∧ R.md.WF ∧
      (∀ s, s ∈ R.md.varSyms ↔ ∃ P ∈ a.leaves, s ∈ P.md.varSyms) ∧
      ∀ s, s ∈ R.md.params ↔ ∃ P ∈ a.leaves, s ∈ P.md.params := by
  obtain ⟨R, h1, h2, h3⟩ := expression a hfit hleaf hk
  exact ⟨R, h1, fun ρ => by rw [h3, callAt_ok R h2.wf h2.declared h2.real], h2.wf, h2.syms, h2.params⟩

/-- **C181.** The derivatives that expressions stand for exist: the value is differentiable in every symbol. -/
theorem C181_differentiable (a : PolyTree) (hfit : a.Fits)
    (hleaf : ∀ P ∈ a.leaves, P.md.WF ∧ P.Declared ∧ RealCoeffs P.poly)
    (hk : ∀ A ∈ a.leaves, ∀ B ∈ a.leaves, SameKind A.md B.md ∧ NoClash A.md B.md) (ρ : Sym → ℂ) (s : Sym) :
    DifferentiableAt ℂ (fun t => a.value (Function.update ρ s t)) (ρ s) := by
  obtain ⟨R, h1, h2, h3⟩ := expression a hfit hleaf hk
  simp only [h3]
  exact (hasDerivAt_eval R.poly s ρ).differentiableAt

/-- **C181.** A derivative of an expression with respect to a symbol that is no generator of any of its objects raises. -/
theorem C181_not_a_generator (a : PolyTree) (hfit : a.Fits)
    (hleaf : ∀ P ∈ a.leaves, P.md.WF ∧ P.Declared ∧ RealCoeffs P.poly)
    (hk : ∀ A ∈ a.leaves, ∀ B ∈ a.leaves, SameKind A.md B.md ∧ NoClash A.md B.md) (s : Sym)
    (hs : ∀ P ∈ a.leaves, s ∉ P.gens) : (PolyTree.diff a s).run = .error .polynomialError := by
  obtain ⟨R, h1, h2, h3⟩ := expression a hfit hleaf hk
  have : s ∉ R.gens := fun h => by
    obtain ⟨P, hP, h⟩ := (h2.gens s).1 h
    exact hs P hP h
  simp only [PolyTree.run, h1, bind, Except.bind, PolyObj.diff, if_neg this]

/-- **C181.** Splitting the result of an expression into coefficients and powers and building it again gives the same values, if the
parameters occur linearly in it and some variable occurs. -/
theorem C181_split (a : PolyTree) (hfit : a.Fits)
    (hleaf : ∀ P ∈ a.leaves, P.md.WF ∧ P.Declared ∧ RealCoeffs P.poly)
    (hk : ∀ A ∈ a.leaves, ∀ B ∈ a.leaves, SameKind A.md B.md ∧ NoClash A.md B.md)
    (hg : ∀ P ∈ a.leaves, ∀ s ∈ P.md.varSyms, s ∈ P.gens) (R : PolyObj) (hR : a.run = .ok R) (hl : LinearParams R)
    (hv : ∃ s ∈ R.poly.vars, s ∉ R.md.params) :
    ∃ M coeffs ps powers R', toCoeffs R = .ok ⟨M, coeffs, ps, powers⟩ ∧ fromCoeffs coeffs powers ps R.md = .ok R' ∧
      R'.md = R.md ∧ ∀ ρ, R'.callAt ρ = .ok (a.value ρ) := by
  obtain ⟨R₁, h1, h2, h3⟩ := expression a hfit hleaf hk
  rw [hR] at h1
  cases h1
  obtain ⟨M, coeffs, ps, powers, R', h4, h5, h6, -, h7⟩ := C44_roundtrip_partial R h2.wf h2.declared h2.real hl (by
    intro s hs hsp
    rcases List.mem_append.1 (h2.declared s hs) with h | h
    · obtain ⟨P, hP, h⟩ := (h2.syms s).1 h
      exact (h2.gens s).2 ⟨P, hP, hg P hP s h⟩
    · exact absurd h hsp) hv
  exact ⟨M, coeffs, ps, powers, R', h4, h5, h6, fun ρ => by rw [h7, h3, callAt_ok R h2.wf h2.declared h2.real]⟩

/-- The derivative of `(P + Q) * P - 3` with respect to `z5`, for `P = psi * z5**2 + 3` and `Q = z3 + a*y`. -/
noncomputable def exampleTree : PolyTree :=
  .diff (.num .sub (.op .mul (.op .add (.leaf examplePoly) (.leaf examplePoly2)) (.leaf examplePoly)) 3) (mergeSubscript "z".toList 5)

private theorem exampleTree_ok : exampleTree.Fits ∧ (∀ P ∈ exampleTree.leaves, P.md.WF ∧ P.Declared ∧ RealCoeffs P.poly) ∧
    ∀ A ∈ exampleTree.leaves, ∀ B ∈ exampleTree.leaves, SameKind A.md B.md ∧ NoClash A.md B.md := by
  have hl : exampleTree.leaves = [examplePoly, examplePoly2, examplePoly] := rfl
  have hclash : ∀ A ∈ [examplePoly, examplePoly2], ∀ B ∈ [examplePoly, examplePoly2], ∀ s ∈ A.md.params, ∀ name ix,
      splitSubscript s = .ok (name, ix) → name ∉ B.md.names := by
    intro A hA B hB s hs name ix he
    simp only [List.mem_cons, List.not_mem_nil, or_false] at hA hB
    have hs' : s = "psi".toList ∨ s = "a".toList := by
      rcases hA with rfl | rfl
      · simpa [examplePoly, exampleMeta] using hs
      · exact Or.inr (by simpa [examplePoly2] using hs)
    have hn : name = "psi".toList ∨ name = "a".toList := by
      rcases hs' with rfl | rfl
      · rw [splitSubscript_good _ (by decide)] at he
        cases he
        exact Or.inl rfl
      · rw [splitSubscript_good _ (by decide)] at he
        cases he
        exact Or.inr rfl
    rcases hn with rfl | rfl <;> rcases hB with rfl | rfl <;> decide
  refine ⟨⟨⟨⟨⟨trivial, trivial⟩, trivial⟩, by simp⟩, examplePoly, by simp [PolyTree.leaves], by decide⟩, ?_, ?_⟩
  · rw [hl]
    intro P hP
    simp only [List.mem_cons, List.not_mem_nil, or_false] at hP
    rcases hP with rfl | rfl | rfl
    · exact ⟨exampleMeta_wf, examplePoly_declared, examplePoly_real⟩
    · exact ⟨examplePoly2_wf, examplePoly2_declared, (realCoeffs_X _).add ((realCoeffs_X _).mul (realCoeffs_X _))⟩
    · exact ⟨exampleMeta_wf, examplePoly_declared, examplePoly_real⟩
  · rw [hl]
    intro A hA B hB
    have hA' : A ∈ [examplePoly, examplePoly2] := by
      simp only [List.mem_cons, List.not_mem_nil, or_false] at hA ⊢
      tauto
    have hB' : B ∈ [examplePoly, examplePoly2] := by
      simp only [List.mem_cons, List.not_mem_nil, or_false] at hB ⊢
      tauto
    refine ⟨?_, hclash A hA' B hB', fun s hs => hclash B hB' A hA' s hs⟩
    simp only [List.mem_cons, List.not_mem_nil, or_false] at hA' hB'
    rcases hA' with rfl | rfl <;> rcases hB' with rfl | rfl <;> (unfold SameKind; decide)

example : ∃ R, exampleTree.run = .ok R ∧ ∀ ρ : Sym → ℂ, R.callAt ρ = .ok (2 * ρ "psi".toList * ρ (mergeSubscript "z".toList 5) *
    (2 * (ρ "psi".toList * ρ (mergeSubscript "z".toList 5) ^ 2 + 3) +
      (ρ (mergeSubscript "z".toList 3) + ρ "a".toList * ρ "y".toList))) := by
  obtain ⟨h1, h2, h3⟩ := exampleTree_ok
  obtain ⟨R, hR, hv, -⟩ := C181_expressions exampleTree h1 h2 h3
  refine ⟨R, hR, fun ρ => ?_⟩
  rw [hv]
  congr 1
  have e1 : ∀ ρ, (PolyTree.leaf examplePoly).value ρ = ρ "psi".toList * ρ (mergeSubscript "z".toList 5) ^ 2 + 3 := by
    intro ρ
    rw [PolyTree.value, callAt_ok _ exampleMeta_wf examplePoly_declared examplePoly_real]
    simp [examplePoly]
  have e2 : ∀ ρ, (PolyTree.leaf examplePoly2).value ρ =
      ρ (mergeSubscript "z".toList 3) + ρ "a".toList * ρ "y".toList := by
    intro ρ
    rw [PolyTree.value, callAt_ok _ examplePoly2_wf examplePoly2_declared
      ((realCoeffs_X _).add ((realCoeffs_X _).mul (realCoeffs_X _)))]
    simp [examplePoly2]
  have n1 : "psi".toList ≠ mergeSubscript "z".toList 5 := by decide
  have n2 : mergeSubscript "z".toList 3 ≠ mergeSubscript "z".toList 5 := by decide
  have n3 : "a".toList ≠ mergeSubscript "z".toList 5 := by decide
  have n4 : "y".toList ≠ mergeSubscript "z".toList 5 := by decide
  simp only [exampleTree, PolyTree.value.eq_def (.diff _ _), PolyTree.value.eq_def (.num _ _ _), PolyTree.value.eq_def (.op _ _ _), e1,
    e2, PolyOp.apply, Function.update_self, Function.update_of_ne n1, Function.update_of_ne n2, Function.update_of_ne n3,
    Function.update_of_ne n4]
  obtain ⟨x, hx⟩ : ∃ x, x = ρ (mergeSubscript "z".toList 5) := ⟨_, rfl⟩
  rw [← hx]
  have hd : HasDerivAt (fun t : ℂ => ρ "psi".toList * t ^ 2 + 3) (ρ "psi".toList * (2 * x)) x := by
    simpa using ((hasDerivAt_pow 2 x).const_mul (ρ "psi".toList)).add_const 3
  have := ((hd.add_const (ρ (mergeSubscript "z".toList 3) + ρ "a".toList * ρ "y".toList)).mul hd).sub_const 3
  refine this.deriv.trans ?_
  ring

/-- All variables of these objects are generators, as `C181_split` asks (for its other hypotheses see `C44`), and the parameter `psi` is
none, as `C181_not_a_generator` asks. -/
example : (∀ P ∈ exampleTree.leaves, ∀ s ∈ P.md.varSyms, s ∈ P.gens) ∧ ∀ P ∈ exampleTree.leaves, "psi".toList ∉ P.gens := by
  have hl : exampleTree.leaves = [examplePoly, examplePoly2, examplePoly] := rfl
  rw [hl]
  simp only [List.forall_mem_cons]
  decide +revert

end Cyjax
