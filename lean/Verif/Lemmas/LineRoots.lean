import Verif.Lemmas.Sampling
import Mathlib.Algebra.Polynomial.Reverse
import Mathlib.Algebra.Polynomial.Roots
import Mathlib.Analysis.Complex.Polynomial.Basic

/-! # Intersection of a line with a hypersurface -/

namespace Cyjax.Variety

open Cyjax.Polynomial MvPolynomial

theorem reverse_bound (g g' : _root_.Polynomial ℂ) (d : ℕ)
    (h : ∀ r : ℂ, r ≠ 0 → g.eval r = r ^ d * g'.eval r⁻¹) : g.natDegree ≤ d ∧ g.coeff d = g'.eval 0 := by
  set N := g'.natDegree with hN
  have key : (_root_.Polynomial.X : _root_.Polynomial ℂ) ^ (N + 1) * g =
      _root_.Polynomial.X ^ (d + 1) * g'.reverse := by
    apply _root_.Polynomial.funext
    intro r
    rw [_root_.Polynomial.eval_mul, _root_.Polynomial.eval_mul, _root_.Polynomial.eval_pow,
      _root_.Polynomial.eval_pow, _root_.Polynomial.eval_X]
    by_cases hr : r = 0
    · simp [hr]
    · have : Invertible r⁻¹ := invertibleOfNonzero (inv_ne_zero hr)
      have h1 := _root_.Polynomial.eval₂_reverse_mul_pow (RingHom.id ℂ) r⁻¹ g'
      rw [← _root_.Polynomial.eval, ← _root_.Polynomial.eval, invOf_eq_inv, inv_inv, ← hN] at h1
      rw [h r hr, ← h1]
      have : r ^ N * (r⁻¹) ^ N = 1 := by rw [← mul_pow, mul_inv_cancel₀ hr, one_pow]
      calc r ^ (N + 1) * (r ^ d * (_root_.Polynomial.eval r g'.reverse * r⁻¹ ^ N))
          = r ^ (d + 1) * _root_.Polynomial.eval r g'.reverse * (r ^ N * (r⁻¹) ^ N) := by ring
        _ = _ := by rw [this, mul_one]
  have hcoeff : ∀ k, g.coeff (d + k) = g'.reverse.coeff (N + k) := by
    intro k
    have h1 := congrArg (fun p => _root_.Polynomial.coeff p (d + k + (N + 1))) key
    rw [_root_.Polynomial.coeff_X_pow_mul, show d + k + (N + 1) = N + k + (d + 1) by omega,
      _root_.Polynomial.coeff_X_pow_mul] at h1
    exact h1
  constructor
  · rw [_root_.Polynomial.natDegree_le_iff_coeff_eq_zero]
    intro m hm
    have := hcoeff (m - d)
    rw [show d + (m - d) = m by omega] at this
    rw [this]
    apply _root_.Polynomial.coeff_eq_zero_of_natDegree_lt
    have := g'.reverse_natDegree_le
    omega
  · have := hcoeff 0
    rw [add_zero, add_zero] at this
    rw [this, _root_.Polynomial.coeff_reverse, ← hN, _root_.Polynomial.revAt_le le_rfl, Nat.sub_self,
      _root_.Polynomial.coeff_zero_eq_eval_zero]

/-- The polynomial with the coefficients `cs`, highest order first. -/
noncomputable def toPoly (cs : List ℂ) : _root_.Polynomial ℂ :=
  ∑ k ∈ Finset.range cs.length, _root_.Polynomial.C (cs.getD (cs.length - 1 - k) 0) * _root_.Polynomial.X ^ k

theorem toPoly_eval (cs : List ℂ) (x : ℂ) : (toPoly cs).eval x = polyval cs x := by
  unfold toPoly polyval
  rw [_root_.Polynomial.eval_finsetSum]
  simp

theorem toPoly_coeff (cs : List ℂ) (k : ℕ) (hk : k < cs.length) :
    (toPoly cs).coeff k = cs.getD (cs.length - 1 - k) 0 := by
  unfold toPoly
  rw [_root_.Polynomial.finsetSum_coeff, Finset.sum_eq_single k]
  · simp
  · intro j _ hj
    simp [_root_.Polynomial.coeff_X_pow, hj.symm]
  · intro h
    exact absurd (Finset.mem_range.2 hk) h

theorem toPoly_coeff_ge (cs : List ℂ) (k : ℕ) (hk : cs.length ≤ k) : (toPoly cs).coeff k = 0 := by
  unfold toPoly
  rw [_root_.Polynomial.finsetSum_coeff]
  apply Finset.sum_eq_zero
  intro j hj
  rw [Finset.mem_range] at hj
  have : k ≠ j := by omega
  simp [_root_.Polynomial.coeff_X_pow, this]

theorem mapM_of_forall₂ {α β : Type*} (f : α → Except PyErr β) :
    ∀ (l : List α) (l' : List β), List.Forall₂ (fun u v => f u = .ok v) l l' → l.mapM f = .ok l'
  | [], _, .nil => rfl
  | _ :: l, _, .cons h hs => by
    rw [List.mapM_cons, h, mapM_of_forall₂ f l _ hs]
    rfl

theorem forall₂_unique {α β : Type*} {f : α → Except PyErr β} :
    ∀ {l : List α} {l₁ l₂ : List β}, List.Forall₂ (fun u v => f u = .ok v) l l₁ →
      List.Forall₂ (fun u v => f u = .ok v) l l₂ → l₁ = l₂
  | [], _, _, .nil, .nil => rfl
  | _ :: _, _, _, .cons h hs, .cons h' hs' => by
    rw [forall₂_unique hs hs']
    rw [h] at h'
    rw [Except.ok.inj h']

theorem univariate_md {P : PolyObj} {x : Sym} {cs : List UCoeff} (h : univariateCoefficients P x = .ok cs) :
    ∀ u ∈ cs, ∀ Q, u = .poly Q → Q.md = constMeta P.md x := by
  unfold univariateCoefficients at h
  split_ifs at h
  cases h
  intro u hu Q hQ
  rw [List.mem_map] at hu
  obtain ⟨k, _, hk⟩ := hu
  subst hQ
  simp only at hk
  split_ifs at hk
  cases hk
  rfl

theorem constMeta_line {n : ℕ} (h0 : 0 < n) (params : List Sym) :
    constMeta (lineMeta n params) tName =
      ⟨[(pName, some (List.range n)), (qName, some (List.range n))], params⟩ := by
  have hne : ∀ (x : List Char), GoodName x → ∀ i, mergeSubscript x i ≠ tName := by
    intro x hx i h
    have h1 := splitSubscript_merge x hx i
    rw [h, splitSubscript_good tName good_t] at h1
    cases h1
  have hd : ∀ (x : List Char), GoodName x → dropSym tName (x, some (List.range n)) = some (x, some (List.range n)) := by
    intro x hx
    have hf : (List.range n).filter (fun i => mergeSubscript x i ≠ tName) = List.range n := by
      rw [List.filter_eq_self]
      intro i _
      simpa using hne x hx i
    unfold dropSym
    simp only [hf]
    rw [if_neg]
    simp
    omega
  unfold constMeta lineMeta
  congr 1
  rw [List.filterMap_cons, List.filterMap_cons, List.filterMap_cons, hd _ good_p, hd _ good_q]
  simp [dropSym]

/-- Values for the symbols of the line. -/
theorem exists_line {n : ℕ} {params : List Sym} (h : LineNames params) (t : ℂ) (p q : Fin n → ℂ) (ps : List ℂ)
    (hps : ps.length = params.length) : ∃ ρ : Sym → ℂ, ρ tName = t ∧
      (∀ i : Fin n, ρ (mergeSubscript pName i) = p i) ∧ (∀ i : Fin n, ρ (mergeSubscript qName i) = q i) ∧
      params.map ρ = ps := by
  obtain ⟨ρ, h1, h2⟩ := exists_assignment (lineMeta n params) (lineMeta_wf h)
    [.scalar t, .vec (List.ofFn p), .vec (List.ofFn q)] ps (by
      unfold lineMeta
      exact List.Forall₂.cons trivial (List.Forall₂.cons (by simp [ShapeOK])
        (List.Forall₂.cons (by simp [ShapeOK]) List.Forall₂.nil))) hps
  simp only [Meta.inputs, lineMeta, List.map_cons, List.map_nil, varInput, List.cons.injEq, Val.scalar.injEq,
    Val.vec.injEq, and_true] at h1
  refine ⟨ρ, h1.1, fun i => ?_, fun i => ?_, h2⟩
  · have := congrArg (fun l : List ℂ => l[(i : ℕ)]?) h1.2.1
    simpa using this
  · have := congrArg (fun l : List ℂ => l[(i : ℕ)]?) h1.2.2
    simpa using this

/-- Everything about the polynomial of the line in terms of its coefficients. -/
theorem line_coeffs {V : HomKind} {n : ℕ} {o : SymOrder} {e : Expr} (ho : o.Valid) (h : LineCall V n o e) :
    ∃ Q cs, intersectPoly V o = .ok Q ∧ univariateCoefficients Q tName = .ok cs ∧
      cs.length = degreeOf tName Q.poly + 1 ∧
      ∀ (p q : Fin n → ℂ) (ps : List ℂ), ps.length = V.md.params.length → ∃ vals : List ℂ,
        cs.mapM (callCoeff [.vec (List.ofFn p), .vec (List.ofFn q), .vec ps]) = .ok vals ∧
        vals.length = cs.length ∧
        (∀ r, defining V (List.ofFn fun i => p i + r * q i) (.vec ps) none = .ok (polyval vals r)) := by
  obtain ⟨Q, h1, h2, h3, h4, h5⟩ := intersectPoly_ok ho h
  have hwf : Q.md.WF := by rw [h2]; exact lineMeta_wf h.names
  have htp : tName ∉ Q.md.params := by
    rw [h2]
    intro ht
    obtain ⟨name, ix, g1, g2⟩ := h.names.2 _ ht
    rw [splitSubscript_good tName good_t] at g1
    cases g1
    exact g2 (by simp)
  obtain ⟨cs, c1, c2, c3⟩ := C47_univariate_partial Q tName htp (by
    rw [h2]
    refine ⟨mergeSubscript pName 0, ?_, by decide⟩
    unfold Meta.varSyms lineMeta
    simp only [List.flatMap_cons, List.mem_append]
    exact Or.inr (Or.inl (List.mem_map_of_mem (List.mem_range.2 h.pos)))) hwf h3 h4
  refine ⟨Q, cs, h1, c1, c2, ?_⟩
  intro p q ps hps
  obtain ⟨ρ, r1, r2, r3, r4⟩ := exists_line h.names 0 p q ps hps
  obtain ⟨vals, v1, v2, v3⟩ := c3 ρ
  have hcall : ∀ u ∈ cs, callCoeff [.vec (List.ofFn p), .vec (List.ofFn q), .vec ps] u = u.callAt ρ := by
    intro u hu
    cases u with
    | num c => rfl
    | poly P =>
      have hmd := univariate_md c1 _ hu P rfl
      rw [h2, constMeta_line h.pos] at hmd
      unfold callCoeff UCoeff.callAt PolyObj.callAt
      simp only
      rw [hmd]
      congr 1
      simp only [Meta.inputs, List.map_cons, List.map_nil, varInput, Meta.paramInput, List.cons_append,
        List.nil_append, r4]
      rw [← ofFn_range (fun i => ρ (mergeSubscript pName i)), ← ofFn_range (fun i => ρ (mergeSubscript qName i))]
      simp only [r2, r3]
  refine ⟨vals, ?_, v1.length_eq.symm, ?_⟩
  · apply mapM_of_forall₂
    have hcs : ∀ l vs, (∀ u ∈ l, callCoeff [.vec (List.ofFn p), .vec (List.ofFn q), .vec ps] u = u.callAt ρ) →
        List.Forall₂ (fun (u : UCoeff) v => u.callAt ρ = .ok v) l vs →
        List.Forall₂ (fun u v => callCoeff [.vec (List.ofFn p), .vec (List.ofFn q), .vec ps] u = .ok v) l vs := by
      intro l vs hl hf
      induction hf with
      | nil => exact .nil
      | cons hh _ ih =>
        exact .cons (by rw [hl _ (by simp)]; exact hh) (ih fun u hu => hl u (by simp [hu]))
    exact hcs cs vals hcall v1
  · intro r
    obtain ⟨vals', w1, _, w3⟩ := c3 (Function.update ρ tName r)
    have : vals' = vals := forall₂_unique w1 (v2 r)
    subst this
    rw [callAt_ok Q hwf h3 h4, Function.update_self] at w3
    have h6 := h5 (Function.update ρ tName r)
    rw [w3] at h6
    rw [← h6]
    have e1 : ∀ (x : List Char), GoodName x → ∀ i, Function.update ρ tName r (mergeSubscript x i) =
        ρ (mergeSubscript x i) := by
      intro x hx i
      rw [Function.update_of_ne]
      intro h'
      have g1 := splitSubscript_merge x hx i
      rw [h', splitSubscript_good tName good_t] at g1
      cases g1
    have e2 : V.md.params.map (Function.update ρ tName r) = ps := by
      rw [← r4]
      refine List.map_congr_left fun s hs => ?_
      rw [Function.update_of_ne]
      rintro rfl
      exact htp (by rw [h2]; exact hs)
    simp only [Function.update_self, e1 _ good_p, e1 _ good_q, r2, r3, e2]

/-- Homogeneity of the defining polynomial, in terms of its values. -/
def Scales (V : HomKind) (n d : ℕ) : Prop :=
  ∀ (ps : List ℂ) (Z : Fin n → ℂ) (c v : ℂ), ps.length = V.md.params.length →
    defining V (List.ofFn Z) (.vec ps) none = .ok v →
    defining V (List.ofFn fun i => c * Z i) (.vec ps) none = .ok (c ^ d * v)

theorem line_bound {V : HomKind} {n d : ℕ} (hs : Scales V n d) {ps : List ℂ} (hps : ps.length = V.md.params.length)
    {p q : Fin n → ℂ} {vals vals' : List ℂ}
    (h : ∀ r, defining V (List.ofFn fun i => p i + r * q i) (.vec ps) none = .ok (polyval vals r))
    (h' : ∀ r, defining V (List.ofFn fun i => q i + r * p i) (.vec ps) none = .ok (polyval vals' r)) :
    (toPoly vals).natDegree ≤ d ∧
      defining V (List.ofFn q) (.vec ps) none = .ok ((toPoly vals).coeff d) := by
  have key := reverse_bound (toPoly vals) (toPoly vals') d (by
    intro r hr
    rw [toPoly_eval, toPoly_eval]
    have h1 := hs ps _ r _ hps (h' r⁻¹)
    have h2 : (fun i => r * (q i + r⁻¹ * p i)) = fun i => p i + r * q i := by
      funext i
      field_simp
      ring
    rw [h2, h r] at h1
    exact Except.ok.inj h1)
  refine ⟨key.1, ?_⟩
  rw [key.2, toPoly_eval, ← h' 0]
  simp

/-- The points on a line belong to the roots of the defining polynomial on the line. -/
theorem line_solve {V : HomKind} {n : ℕ} {o : SymOrder} {e : Expr} (ho : o.Valid) (h : LineCall V n o e)
    {d : ℕ} (hs : Scales V n d) :
    ∃ Q cs, intersectPoly V o = .ok Q ∧ univariateCoefficients Q tName = .ok cs ∧
      ∀ (p q : Fin n → ℂ) (ps : List ℂ) (v : ℂ), ps.length = V.md.params.length →
        defining V (List.ofFn q) (.vec ps) none = .ok v → v ≠ 0 →
        ∃ rest : List ℂ, rest.length = d ∧
          (∀ r, defining V (List.ofFn fun i => p i + r * q i) (.vec ps) none = .ok (polyval (v :: rest) r)) ∧
          ∀ roots : List ℂ → List ℂ, solveIntersect roots cs ps (List.ofFn p, List.ofFn q) =
            .ok ((roots (v :: rest)).map fun r => List.ofFn fun i => p i + r * q i) := by
  obtain ⟨Q, cs, h1, h2, h3, h4⟩ := line_coeffs ho h
  refine ⟨Q, cs, h1, h2, ?_⟩
  intro p q ps v hps hv hv0
  obtain ⟨vals, a1, a2, a3⟩ := h4 p q ps hps
  obtain ⟨vals', _, _, b3⟩ := h4 q p ps hps
  obtain ⟨k1, k2⟩ := line_bound hs hps a3 b3
  rw [hv] at k2
  have hlead := Except.ok.inj k2
  -- the degree in `t` is `d`
  have hge : d < cs.length := by
    by_contra hlt
    rw [toPoly_coeff_ge vals d (by omega)] at hlead
    exact hv0 hlead
  have hle : cs.length ≤ d + 1 := by
    by_contra hgt
    have hQ0 : Q.poly ≠ 0 := by
      intro h0
      rw [h0] at h3
      simp at h3
      omega
    obtain ⟨Q', g1, g2, g3, g4, _⟩ := intersectPoly_ok ho h
    rw [h1] at g1
    cases Except.ok.inj g1
    have hwf : Q.md.WF := by rw [g2]; exact lineMeta_wf h.names
    have htp : tName ∉ Q.md.params := by
      rw [g2]
      intro ht
      obtain ⟨name, ix, g1, g2⟩ := h.names.2 _ ht
      rw [splitSubscript_good tName good_t] at g1
      cases g1
      exact g2 (by simp)
    obtain ⟨c, cs', l1, ρ, w, hw, l2⟩ := C47_leading_partial Q tName htp (by
      rw [g2]
      refine ⟨mergeSubscript pName 0, ?_, by decide⟩
      unfold Meta.varSyms lineMeta
      simp only [List.flatMap_cons, List.mem_append]
      exact Or.inr (Or.inl (List.mem_map_of_mem (List.mem_range.2 h.pos)))) hwf g3 g4 hQ0
    rw [h2] at l1
    cases Except.ok.inj l1
    set p' : Fin n → ℂ := fun i => ρ (mergeSubscript pName i)
    set q' : Fin n → ℂ := fun i => ρ (mergeSubscript qName i)
    set ps' := V.md.params.map ρ
    have hps' : ps'.length = V.md.params.length := by simp [ps']
    obtain ⟨us, m1, m2, m3⟩ := h4 p' q' ps' hps'
    obtain ⟨us', _, _, m4⟩ := h4 q' p' ps' hps'
    have hb := (line_bound hs hps' m3 m4).1
    have hc : callCoeff [.vec (List.ofFn p'), .vec (List.ofFn q'), .vec ps'] c = .ok w := by
      rw [← l2]
      cases c with
      | num c => rfl
      | poly P =>
        have hmd := univariate_md h2 _ (by simp) P rfl
        rw [g2, constMeta_line h.pos] at hmd
        unfold callCoeff UCoeff.callAt PolyObj.callAt
        simp only
        rw [hmd]
        congr 1
        simp only [Meta.inputs, List.map_cons, List.map_nil, varInput, Meta.paramInput, List.cons_append,
          List.nil_append]
        rw [← ofFn_range (fun i => ρ (mergeSubscript pName i)), ← ofFn_range (fun i => ρ (mergeSubscript qName i))]
    obtain ⟨us0, hus⟩ : ∃ us0, us = w :: us0 := by
      rw [List.mapM_cons, hc] at m1
      change (do let a ← List.mapM _ cs'; pure (w :: a) : Except PyErr (List ℂ)) = .ok us at m1
      cases hm : List.mapM (callCoeff [.vec (List.ofFn p'), .vec (List.ofFn q'), .vec ps']) cs' with
      | error e => rw [hm] at m1; cases m1
      | ok l =>
        rw [hm] at m1
        exact ⟨l, (Except.ok.inj m1).symm⟩
    have hcf := toPoly_coeff us (us.length - 1) (by rw [m2]; simp)
    rw [Nat.sub_self, hus, List.getD_cons_zero, ← hus] at hcf
    rw [_root_.Polynomial.coeff_eq_zero_of_natDegree_lt] at hcf
    · exact hw hcf.symm
    · rw [m2]; omega
  have hlen : vals.length = d + 1 := by omega
  rcases vals with _ | ⟨c, rest⟩
  · simp at hlen
  have hcv : c = v := by
    rw [hlead, toPoly_coeff _ d (by omega), hlen]
    simp
  subst hcv
  refine ⟨rest, by simpa using hlen, a3, fun roots => ?_⟩
  unfold solveIntersect
  simp only
  rw [a1]
  refine congrArg Except.ok (List.map_congr_left fun r _ => ?_)
  apply List.ext_getElem <;> simp

theorem line_roots {V : HomKind} {n : ℕ} {o : SymOrder} {e : Expr} (ho : o.Valid) (h : LineCall V n o e)
    {d : ℕ} (hs : Scales V n d) {roots : List ℂ → List ℂ} (hr : ExactRoots roots) :
    ∃ Q cs, intersectPoly V o = .ok Q ∧ univariateCoefficients Q tName = .ok cs ∧
      ∀ (p q : Fin n → ℂ) (ps : List ℂ) (v : ℂ), ps.length = V.md.params.length →
        defining V (List.ofFn q) (.vec ps) none = .ok v → v ≠ 0 →
        ∃ pts, solveIntersect roots cs ps (List.ofFn p, List.ofFn q) = .ok pts ∧ pts.length = d ∧
          ∀ z ∈ pts, ∃ r : ℂ, z = List.ofFn (fun i => p i + r * q i) ∧ defining V z (.vec ps) none = .ok 0 := by
  obtain ⟨Q, cs, h1, h2, h3⟩ := line_solve ho h hs
  refine ⟨Q, cs, h1, h2, fun p q ps v hps hv hv0 => ?_⟩
  obtain ⟨rest, g1, g2, g3⟩ := h3 p q ps v hps hv hv0
  obtain ⟨r1, r2⟩ := hr v rest hv0
  refine ⟨_, g3 roots, by rw [List.length_map, r1, g1], ?_⟩
  intro z hz
  obtain ⟨r, hr', rfl⟩ := List.mem_map.1 hz
  exact ⟨r, rfl, by rw [g2 r, r2 r hr']⟩

end Cyjax.Variety

namespace Cyjax.Variety

open Cyjax.Polynomial MvPolynomial

/-- All draws together: entry `k` of the result belongs to draw `k / d`. -/
theorem mapM_flatten {α β : Type*} (f : α → Except PyErr (List β)) (d : ℕ) (R : α → β → Prop) :
    ∀ l : List α, (∀ x ∈ l, ∃ pts, f x = .ok pts ∧ pts.length = d ∧ ∀ z ∈ pts, R x z) →
      ∃ ptss, l.mapM f = .ok ptss ∧ ptss.flatten.length = l.length * d ∧
        ∀ (k : ℕ) (z : β), ptss.flatten[k]? = some z → ∃ x, l[k / d]? = some x ∧ R x z
  | [], _ => ⟨[], rfl, by simp, by simp⟩
  | x :: l, h => by
    obtain ⟨pts, h1, h2, h3⟩ := h x (by simp)
    obtain ⟨ptss, g1, g2, g3⟩ := mapM_flatten f d R l (fun y hy => h y (by simp [hy]))
    refine ⟨pts :: ptss, ?_, ?_, ?_⟩
    · rw [List.mapM_cons, h1, g1]; rfl
    · rw [List.flatten_cons, List.length_append, h2, g2, List.length_cons]; ring
    · intro k z hz
      rw [List.flatten_cons] at hz
      by_cases hk : k < d
      · rw [List.getElem?_append_left (h2 ▸ hk)] at hz
        rw [Nat.div_eq_of_lt hk]
        exact ⟨x, rfl, h3 z (List.mem_of_getElem? hz)⟩
      · rw [List.getElem?_append_right (by omega), h2] at hz
        obtain ⟨y, hy, hR⟩ := g3 _ z hz
        have hd : 0 < d := by
          rcases Nat.eq_zero_or_pos d with h0 | h0
          · exfalso
            have : ptss.flatten = [] := List.eq_nil_of_length_eq_zero (by rw [g2, h0, mul_zero])
            rw [this] at hz
            cases hz
          · exact h0
        refine ⟨y, ?_, hR⟩
        have e : k / d = (k - d) / d + 1 := by
          rw [← Nat.add_div_right _ hd]
          congr 1
          omega
        rw [e, List.getElem?_cons_succ]
        exact hy

/-- The points returned by the sampler, in order: point `k` lies on line `k / d`. -/
theorem sample_ok_lines {V : HomKind} {n : ℕ} {o : SymOrder} {e : Expr} (ho : o.Valid) (h : LineCall V n o e)
    {d : ℕ} (hs : Scales V n d) {roots : List ℂ → List ℂ} (hr : ExactRoots roots) (ps : List ℂ)
    (hps : ps.length = V.md.params.length) (count : ℕ) (draws : List ((Fin n → ℂ) × (Fin n → ℂ)))
    (hq : ∀ x ∈ draws, defining V (List.ofFn x.2) (.vec ps) none ≠ .ok 0) :
    ∃ zs, sampleIntersect V o roots ps count (draws.map fun x => (List.ofFn x.1, List.ofFn x.2)) = .ok zs ∧
      zs.length = min count (draws.length * d) ∧
      ∀ (k : ℕ) (z : List ℂ), zs[k]? = some z → defining V z (.vec ps) none = .ok 0 ∧
        ∃ x, draws[k / d]? = some x ∧ ∃ r : ℂ, z = List.ofFn (fun i => x.1 i + r * x.2 i) := by
  obtain ⟨Q, cs, h1, h2, h3⟩ := line_roots ho h hs hr
  obtain ⟨_, _, _, _, _, h4⟩ := line_coeffs ho h
  have hex : ∀ q : Fin n → ℂ, ∃ v, defining V (List.ofFn q) (.vec ps) none = .ok v := by
    intro q
    obtain ⟨vals, _, _, h5⟩ := h4 q q ps hps
    exact ⟨_, by simpa using h5 0⟩
  obtain ⟨ptss, g1, g2, g3⟩ := mapM_flatten
    (fun x : (Fin n → ℂ) × (Fin n → ℂ) => solveIntersect roots cs ps (List.ofFn x.1, List.ofFn x.2)) d
    (fun x z => defining V z (.vec ps) none = .ok 0 ∧ ∃ r : ℂ, z = List.ofFn (fun i => x.1 i + r * x.2 i)) draws
    (by
      intro x hx
      obtain ⟨v, hv⟩ := hex x.2
      obtain ⟨pts, p1, p2, p3⟩ := h3 x.1 x.2 ps v hps hv (by
        rintro rfl
        exact hq x hx hv)
      refine ⟨pts, p1, p2, fun z hz => ?_⟩
      obtain ⟨r, r1, r2⟩ := p3 z hz
      exact ⟨r2, r, r1⟩)
  have g1' : (draws.map fun x => (List.ofFn x.1, List.ofFn x.2)).mapM (solveIntersect roots cs ps) = .ok ptss := by
    rw [← g1, List.mapM_map]
    rfl
  refine ⟨ptss.flatten.take count, ?_, ?_, ?_⟩
  · unfold sampleIntersect
    rw [h1]
    simp only
    rw [h2]
    simp only
    rw [g1']
  · rw [List.length_take, g2]
  · intro k z hz
    obtain ⟨x, hx, hz1, r, hz2⟩ := g3 k z (by
      rw [List.getElem?_take] at hz
      split at hz
      · exact hz
      · cases hz)
    exact ⟨hz1, x, hx, r, hz2⟩

theorem sample_ok {V : HomKind} {n : ℕ} {o : SymOrder} {e : Expr} (ho : o.Valid) (h : LineCall V n o e)
    {d : ℕ} (hs : Scales V n d) {roots : List ℂ → List ℂ} (hr : ExactRoots roots) (ps : List ℂ)
    (hps : ps.length = V.md.params.length) (count : ℕ) (draws : List ((Fin n → ℂ) × (Fin n → ℂ)))
    (hq : ∀ x ∈ draws, defining V (List.ofFn x.2) (.vec ps) none ≠ .ok 0) :
    ∃ zs, sampleIntersect V o roots ps count (draws.map fun x => (List.ofFn x.1, List.ofFn x.2)) = .ok zs ∧
      zs.length = min count (draws.length * d) ∧
      ∀ z ∈ zs, defining V z (.vec ps) none = .ok 0 ∧
        ∃ x ∈ draws, ∃ r : ℂ, z = List.ofFn (fun i => x.1 i + r * x.2 i) := by
  obtain ⟨zs, h1, h2, h3⟩ := sample_ok_lines ho h hs hr ps hps count draws hq
  refine ⟨zs, h1, h2, fun z hz => ?_⟩
  obtain ⟨k, hk⟩ := List.mem_iff_getElem?.1 hz
  obtain ⟨h4, x, hx, h5⟩ := h3 k z hk
  exact ⟨h4, x, List.mem_of_getElem? hx, h5⟩

/-! ## Satisfiable hypotheses -/

mutual
theorem expand_vars : (e : Expr) → ∀ p, expand e = some p → ∀ s ∈ p.vars, s ∈ e.symbols
  | .sym t, p, h => by
    rw [expand] at h
    cases h
    simp [Expr.symbols, vars_X]
  | .int n, p, h => by
    rw [expand] at h
    cases h
    intro s hs
    rw [vars_C] at hs
    simp at hs
  | .float r, p, h => by
    rw [expand] at h
    cases h
    intro s hs
    rw [vars_C] at hs
    simp at hs
  | .imagUnit, p, h => by
    rw [expand] at h
    cases h
    intro s hs
    rw [vars_C] at hs
    simp at hs
  | .other, p, h => by rw [expand] at h; cases h
  | .add args, p, h => by
    rw [expand] at h
    cases hl : expandList args with
    | none => rw [hl] at h; cases h
    | some ps =>
      rw [hl] at h
      cases h
      intro s hs
      obtain ⟨q, hq, hs⟩ := vars_listSum ps s hs
      rw [Expr.symbols]
      exact expandList_vars args ps hl q hq s hs
  | .mul args, p, h => by
    rw [expand] at h
    cases hl : expandList args with
    | none => rw [hl] at h; cases h
    | some ps =>
      rw [hl] at h
      cases h
      intro s hs
      obtain ⟨q, hq, hs⟩ := vars_listProd ps s hs
      rw [Expr.symbols]
      exact expandList_vars args ps hl q hq s hs
  | .pow b n, p, h => by
    rw [expand] at h
    cases hl : expand b with
    | none => rw [hl] at h; cases h
    | some q =>
      rw [hl] at h
      cases h
      intro s hs
      rw [Expr.symbols]
      exact expand_vars b q hl s (vars_pow _ _ hs)

theorem expandList_vars : (es : List Expr) → ∀ ps, expandList es = some ps → ∀ p ∈ ps, ∀ s ∈ p.vars,
    s ∈ Expr.symbolsList es
  | [], ps, h => by rw [expandList] at h; cases h; simp
  | e :: es, ps, h => by
    rw [expandList] at h
    cases he : expand e with
    | none => rw [he] at h; cases h
    | some q =>
      rw [he] at h
      simp only at h
      cases hl : expandList es with
      | none => rw [hl] at h; cases h
      | some qs =>
        rw [hl] at h
        cases h
        simp only [List.mem_cons, forall_eq_or_imp, Expr.symbolsList, List.mem_append]
        exact ⟨fun s hs => Or.inl (expand_vars e q he s hs),
          fun p hp s hs => Or.inr (expandList_vars es qs hl p hp s hs)⟩
end

/-- An order: substitution as listed, symbols in order of appearance. -/
def someOrder : SymOrder := ⟨id, fun e => e.symbols.dedup⟩

theorem someOrder_valid : someOrder.Valid where
  subst _ := List.Perm.refl _
  nodup _ := List.nodup_dedup _
  mem _ _ hs := List.mem_dedup.1 hs
  vars e p h s hs := List.mem_dedup.2 (expand_vars e p h s hs)

/-- An exact root finder exists, as `ℂ` is algebraically closed. -/
noncomputable def someRoots (cs : List ℂ) : List ℂ := (toPoly cs).roots.toList

theorem someRoots_exact : ExactRoots someRoots := by
  intro c cs hc
  have hcoeff : (toPoly (c :: cs)).coeff cs.length = c := by
    rw [toPoly_coeff _ _ (by simp)]
    simp
  have hdeg : (toPoly (c :: cs)).natDegree = cs.length := by
    apply le_antisymm
    · rw [_root_.Polynomial.natDegree_le_iff_coeff_eq_zero]
      intro k hk
      exact toPoly_coeff_ge _ _ (by simpa using hk)
    · exact _root_.Polynomial.le_natDegree_of_ne_zero (by rw [hcoeff]; exact hc)
  constructor
  · unfold someRoots
    rw [Multiset.length_toList, IsAlgClosed.card_roots_eq_natDegree, hdeg]
  · intro r hr
    unfold someRoots at hr
    rw [Multiset.mem_toList] at hr
    rw [← toPoly_eval]
    exact _root_.Polynomial.isRoot_of_mem_roots hr

/-- The factorisation of a polynomial that splits. -/
theorem CompleteRoots.exact {roots : List ℂ → List ℂ} (h : CompleteRoots roots) : ExactRoots roots := by
  intro c cs hc
  obtain ⟨h1, h2⟩ := h c cs hc
  refine ⟨h1, fun r hr => ?_⟩
  rw [h2 r]
  have : (0 : ℂ) ∈ (roots (c :: cs)).map (r - ·) := List.mem_map.2 ⟨r, hr, sub_self r⟩
  rw [List.prod_eq_zero this, mul_zero]

theorem someRoots_complete : CompleteRoots someRoots := by
  intro c cs hc
  refine ⟨(someRoots_exact c cs hc).1, fun x => ?_⟩
  have hcoeff : (toPoly (c :: cs)).coeff cs.length = c := by
    rw [toPoly_coeff _ _ (by simp)]
    simp
  have hdeg : (toPoly (c :: cs)).natDegree = cs.length := by
    apply le_antisymm
    · rw [_root_.Polynomial.natDegree_le_iff_coeff_eq_zero]
      intro k hk
      exact toPoly_coeff_ge _ _ (by simpa using hk)
    · exact _root_.Polynomial.le_natDegree_of_ne_zero (by rw [hcoeff]; exact hc)
  have hs := (IsAlgClosed.splits (toPoly (c :: cs))).eq_prod_roots
  have h := congrArg (_root_.Polynomial.eval x) hs
  rw [toPoly_eval, _root_.Polynomial.eval_mul, _root_.Polynomial.eval_C, _root_.Polynomial.leadingCoeff, hdeg, hcoeff] at h
  rw [h]
  congr 1
  unfold someRoots
  conv_lhs => rw [← Multiset.coe_toList (toPoly (c :: cs)).roots]
  rw [Multiset.map_coe, Multiset.prod_coe, _root_.Polynomial.eval_list_prod, List.map_map]
  congr 1
  exact List.map_congr_left fun r _ => by simp

end Cyjax.Variety
