import Verif.Lemmas.Expand
import Verif.Lemmas.VarietyGrad
import Verif.Lemmas.Homogeneous
import Verif.Lemmas.FromSympy
import Verif.Spec.Sampling
import Verif.Spec.FromSympy
import Verif.Props.FromSympy
import Verif.Props.PolyOps
import Verif.Props.Polynomial

/-! # The polynomial of a line and its coefficients -/

namespace Cyjax.Variety

open Cyjax.Polynomial MvPolynomial

/-- The metadata of the polynomial made in `sample_intersect`. -/
def lineMeta (n : ℕ) (params : List Sym) : Meta :=
  ⟨[(tName, none), (pName, some (List.range n)), (qName, some (List.range n))], params⟩

theorem good_t : GoodName tName := by decide
theorem good_p : GoodName pName := by decide
theorem good_q : GoodName qName := by decide

theorem lineMeta_names (n : ℕ) (params : List Sym) : (lineMeta n params).names = [tName, pName, qName] := rfl

theorem lineMeta_wf {n : ℕ} {params : List Sym} (h : LineNames params) : (lineMeta n params).WF where
  namesNodup := by rw [lineMeta_names]; decide
  good := by
    intro v hv
    simp only [lineMeta, List.mem_cons, List.not_mem_nil, or_false] at hv
    rcases hv with rfl | rfl | rfl
    · exact good_t
    · exact good_p
    · exact good_q
  indsNodup := by
    intro v hv inds hi
    simp only [lineMeta, List.mem_cons, List.not_mem_nil, or_false] at hv
    rcases hv with rfl | rfl | rfl
    · cases hi
    · cases hi; exact List.nodup_range
    · cases hi; exact List.nodup_range
  paramsNodup := h.1
  params := h.2

theorem arr_indexed {name : List Char} (hn : GoodName name) (i : ℕ) :
    Indexed (name ++ '_' :: natStr i) name i := splitSubscript_underscore name hn i

theorem symArray_mem {name : List Char} {n : ℕ} {s : Sym} :
    s ∈ symArray name n ↔ ∃ i < n, s = name ++ '_' :: natStr i := by
  simp only [symArray, List.mem_map, List.mem_range]
  constructor
  · rintro ⟨i, hi, rfl⟩; exact ⟨i, hi, rfl⟩
  · rintro ⟨i, hi, rfl⟩; exact ⟨i, hi, rfl⟩

theorem readSymArray_arr {name : List Char} (hn : GoodName name) {n : ℕ} (h0 : 0 < n) :
    readSymArray (symArray name n) = .ok (name, some (List.range n)) := by
  obtain ⟨k, rfl⟩ : ∃ k, n = k + 1 := ⟨n - 1, by omega⟩
  have h1 : (symArray name (k + 1)).mapM subIndex = .ok (List.range (k + 1)) := by
    unfold symArray
    generalize List.range (k + 1) = l
    induction l with
    | nil => rfl
    | cons i l ih =>
      rw [List.map_cons, List.mapM_cons, ih]
      have : subIndex (name ++ '_' :: natStr i) = .ok i := by
        unfold subIndex
        rw [splitNat_indexed.2 (arr_indexed hn i)]
      rw [this]
      rfl
  have h2 : symArray name (k + 1) = (name ++ '_' :: natStr 0) ::
      (List.range' 1 k).map (fun i => name ++ '_' :: natStr i) := by
    unfold symArray
    rw [List.range_eq_range', List.range'_succ, List.map_cons]
  rw [h2] at h1 ⊢
  unfold readSymArray
  simp only [splitNat_indexed.2 (arr_indexed hn 0), h1]
  rw [if_neg (by simp)]

theorem symArrayArgs_line {n : ℕ} (h0 : 0 < n) (params : List Sym) :
    symArrayArgs [[tName], symArray pName n, symArray qName n] params =
      .ok ⟨some [tName, pName, qName], some params, some [none, some (List.range n), some (List.range n)]⟩ := by
  unfold symArrayArgs
  have h1 : readSymArray [tName] = .ok (tName, none) := by
    unfold readSymArray
    simp only [splitNat_scalar.2 (splitSubscript_good tName good_t)]
    rw [if_pos (by simp)]
  have : List.mapM readSymArray [[tName], symArray pName n, symArray qName n] =
      .ok [(tName, none), (pName, some (List.range n)), (qName, some (List.range n))] := by
    rw [List.mapM_cons, List.mapM_cons, List.mapM_cons, h1, readSymArray_arr good_p h0, readSymArray_arr good_q h0]
    rfl
  rw [this]
  rfl

/-- A symbol of the line: `t`, an entry of `p` or `q`, or a parameter. -/
def LineSym (n : ℕ) (params : List Sym) (s : Sym) : Prop :=
  s = tName ∨ (∃ i < n, s = pName ++ '_' :: natStr i) ∨ (∃ i < n, s = qName ++ '_' :: natStr i) ∨ s ∈ params

/-- Values of the symbols in an expression for the values of the inputs of the polynomial. -/
noncomputable def lineVal (ρ : Sym → ℂ) (s : Sym) : ℂ :=
  match splitNat s with
  | .ok (name, some i) => if name ∈ [tName, pName, qName] then ρ (mergeSubscript name i) else ρ s
  | _ => ρ s

theorem lineVal_t (ρ : Sym → ℂ) : lineVal ρ tName = ρ tName := by
  unfold lineVal
  rw [splitNat_scalar.2 (splitSubscript_good tName good_t)]

theorem lineVal_p (ρ : Sym → ℂ) (i : ℕ) :
    lineVal ρ (pName ++ '_' :: natStr i) = ρ (mergeSubscript pName i) := by
  unfold lineVal
  rw [splitNat_indexed.2 (arr_indexed good_p i)]
  simp only
  rw [if_pos (by decide)]

theorem lineVal_q (ρ : Sym → ℂ) (i : ℕ) :
    lineVal ρ (qName ++ '_' :: natStr i) = ρ (mergeSubscript qName i) := by
  unfold lineVal
  rw [splitNat_indexed.2 (arr_indexed good_q i)]
  simp only
  rw [if_pos (by decide)]

theorem lineVal_param {params : List Sym} (h : LineNames params) (ρ : Sym → ℂ) {s : Sym} (hs : s ∈ params) :
    lineVal ρ s = ρ s := by
  obtain ⟨name, ix, h1, h2⟩ := h.2 s hs
  unfold lineVal
  split
  · next n i hn =>
    have := splitNat_indexed.1 hn
    unfold Indexed at this
    rw [this] at h1
    cases h1
    rw [if_neg h2]
  · rfl

/-- `from_sympy` accepts an expression in the symbols of the line. -/
theorem fromSympy_line {n : ℕ} {params : List Sym} (hp : LineNames params)
    (p : MvPolynomial Sym ℂ) (hr : RealCoeffs p) (free : List Sym) (hnd : free.Nodup)
    (hfree : ∀ s ∈ p.vars, s ∈ free) (hs : ∀ s ∈ free, LineSym n params s) :
    ∃ Q, fromSympy ⟨some [tName, pName, qName], some params,
        some [none, some (List.range n), some (List.range n)]⟩ p free = .ok Q ∧
      Q.md = lineMeta n params ∧ Q.Declared ∧ RealCoeffs Q.poly ∧
      ∀ ρ, eval ρ Q.poly = eval (lineVal ρ) p := by
  set ns := [tName, pName, qName] with hns
  set a : FromSympyArgs := ⟨some ns, some params, some [none, some (List.range n), some (List.range n)]⟩ with ha
  have hmix : NoMix a free := by intro h; cases h
  have hkey : ∀ s ∈ free, s ∈ params ∨ (s = tName ∧ symKind a ns s = .scalar 0) ∨
      (∃ i < n, s = pName ++ '_' :: natStr i ∧ symKind a ns s = .idx 1 i (mergeSubscript pName i)) ∨
      (∃ i < n, s = qName ++ '_' :: natStr i ∧ symKind a ns s = .idx 2 i (mergeSubscript qName i)) := by
    intro s hsf
    by_cases hsp : s ∈ params
    · exact Or.inl hsp
    rcases hs s hsf with rfl | ⟨i, hi, rfl⟩ | ⟨i, hi, rfl⟩ | h
    · exact Or.inr (Or.inl ⟨rfl, symKind_scalar_iff.2 ⟨hsp, tName, by simp [ns], by decide,
        splitSubscript_good tName good_t⟩⟩)
    · exact Or.inr (Or.inr (Or.inl ⟨i, hi, rfl, symKind_idx_iff.2 ⟨hsp, pName, by simp [ns], by decide,
        arr_indexed good_p i, rfl⟩⟩))
    · exact Or.inr (Or.inr (Or.inr ⟨i, hi, rfl, symKind_idx_iff.2 ⟨hsp, qName, by simp [ns], by decide,
        arr_indexed good_q i, rfl⟩⟩))
    · exact absurd h hsp
  have hskip : ∀ s ∈ params, symKind a ns s = .skip := by
    intro s hsp
    unfold symKind
    rw [if_pos (by simpa [ha] using hsp)]
  have hok : ∀ s ∈ free, okSym a ns s := by
    intro s hsf
    unfold okSym
    rcases hkey s hsf with h | ⟨_, h⟩ | ⟨i, hi, _, h⟩ | ⟨i, hi, _, h⟩
    · rw [hskip s h]; trivial
    · rw [h]
      intro I hI
      simp only [ha, Option.some.injEq] at hI
      rw [← hI]; rfl
    · rw [h]
      intro I hI
      simp only [ha, Option.some.injEq] at hI
      rw [← hI]
      exact ⟨_, rfl, List.mem_range.2 hi⟩
    · rw [h]
      intro I hI
      simp only [ha, Option.some.injEq] at hI
      rw [← hI]
      exact ⟨_, rfl, List.mem_range.2 hi⟩
  obtain ⟨app, hscan⟩ := (scan_ok_iff a ns rfl free hnd (noMix_kind hmix ns)).1 hok
  have hpar : free.filter (fun v => isPar (symKind a ns v)) = [] := by
    rw [List.filter_eq_nil_iff]
    intro s hsf
    rcases hkey s hsf with h | ⟨_, h⟩ | ⟨i, hi, _, h⟩ | ⟨i, hi, _, h⟩
    · rw [hskip s h]; simp [isPar]
    · rw [h]; simp [isPar]
    · rw [h]; simp [isPar]
    · rw [h]; simp [isPar]
  have hmd : finishMeta a (stateOf a ns free app) = lineMeta n params := by
    unfold finishMeta stateOf
    rw [hpar]
    simp [ha, indsOf, lineMeta, ns]
  have hwf := lineMeta_wf (n := n) hp
  set q := rename (renameSym (stateOf a ns free app).rename) p with hq
  have hdecl : ∀ g ∈ q.vars, g ∈ (lineMeta n params).varSyms ∨ g ∈ (lineMeta n params).params := by
    intro g hg
    classical
    have hg' := vars_rename _ _ hg
    rw [Finset.mem_image] at hg'
    obtain ⟨s, hsv, rfl⟩ := hg'
    have hsf := hfree s hsv
    rw [renameSym_stateOf]
    rcases hkey s hsf with h | ⟨h', h⟩ | ⟨i, hi, _, h⟩ | ⟨i, hi, _, h⟩
    · rw [hskip s h]; exact Or.inr h
    · rw [h, h']
      exact Or.inl (by simp [Meta.varSyms, lineMeta, varSymbols])
    · rw [h]
      simp only [hsf, if_true]
      refine Or.inl ?_
      unfold Meta.varSyms lineMeta
      simp only [List.flatMap_cons, List.mem_append]
      exact Or.inr (Or.inl (List.mem_map_of_mem (List.mem_range.2 hi)))
    · rw [h]
      simp only [hsf, if_true]
      refine Or.inl ?_
      unfold Meta.varSyms lineMeta
      simp only [List.flatMap_cons, List.mem_append]
      exact Or.inr (Or.inr (Or.inl (List.mem_map_of_mem (List.mem_range.2 hi))))
  have hfs : fromSympy a p free = .ok ⟨lineMeta n params, q, (lineMeta n params).varSyms⟩ := by
    unfold fromSympy
    rw [if_neg (by simp [ha, ns]), hscan]
    unfold finish
    simp only
    rw [if_neg (by simp only [stateOf, hns]; decide), if_neg (by simp [stateOf, indsOf, ha, ns]), hmd, if_neg]
    rintro (h | h | ⟨g, hg, hg'⟩ | ⟨g, hg, hg', hg''⟩)
    · simp [Meta.varSyms, lineMeta, varSymbols] at h
    · exact h (varSyms_nodup _ hwf)
    · exact varSyms_not_param _ hwf g hg hg'
    · exact (hdecl g hg).elim hg' hg''
  have hD : PolyObj.Declared ⟨lineMeta n params, q, (lineMeta n params).varSyms⟩ := by
    intro s hs'
    exact List.mem_append.2 (hdecl s hs')
  have hR : RealCoeffs q := by
    rw [hq]
    rw [realCoeffs_iff] at *
    rw [map_rename, hr]
  refine ⟨_, hfs, rfl, hD, hR, ?_⟩
  intro ρ
  have h1 := C89_from_sympy_value a ns rfl p free hnd hmix hfree hr (by
    intro x hx
    simp only [hns, List.mem_cons, List.not_mem_nil, or_false] at hx
    rcases hx with rfl | rfl | rfl
    · exact good_t
    · exact good_p
    · exact good_q) _ hfs hwf.paramsNodup hwf.params (lineVal ρ) ρ (by
      intro s _ x hx i hi
      unfold lineVal
      rw [splitNat_indexed.2 hi]
      simp only
      rw [if_pos hx]) (by
      intro s _ hx
      unfold lineVal
      split
      · next x i hi =>
        by_cases hxn : x ∈ [tName, pName, qName]
        · exact absurd (splitNat_indexed.1 hi) (hx x hxn i)
        · rw [if_neg hxn]
      · rfl)
  rw [callAt_ok _ hwf hD hR] at h1
  exact Except.ok.inj h1

/-- What is used about a defining polynomial: calling it on the line gives a real expression in the symbols of the
line, whose value is the value of the polynomial at the point of the line. -/
structure LineCall (V : HomKind) (n : ℕ) (o : SymOrder) (e : Expr) : Prop where
  pos : 0 < n
  dim : dimComplex V = .ok n
  names : LineNames V.md.params
  call : V.callSymbolic (lineExprs n) (V.md.params.map .sym) o.subst = .ok e
  real : e.Real
  syms : ∀ s ∈ e.symbols, LineSym n V.md.params s
  val : ∀ σ : Sym → ℂ, defining V (List.ofFn fun i : Fin n =>
      σ (pName ++ '_' :: natStr i) + σ tName * σ (qName ++ '_' :: natStr i)) (.vec (V.md.params.map σ)) none =
    .ok (e.value σ)

theorem intersectPoly_ok {V : HomKind} {n : ℕ} {o : SymOrder} {e : Expr} (ho : o.Valid) (h : LineCall V n o e) :
    ∃ Q, intersectPoly V o = .ok Q ∧ Q.md = lineMeta n V.md.params ∧ Q.Declared ∧ RealCoeffs Q.poly ∧
      ∀ ρ : Sym → ℂ, defining V (List.ofFn fun i : Fin n =>
        ρ (mergeSubscript pName i) + ρ tName * ρ (mergeSubscript qName i)) (.vec (V.md.params.map ρ)) none =
          .ok (eval ρ Q.poly) := by
  obtain ⟨p, h1, h2, h3, h4⟩ := expand_ok e h.real
  obtain ⟨Q, g1, g2, g3, g4, g5⟩ := fromSympy_line h.names p h2 (o.free e) (ho.nodup e) (ho.vars e p h1)
    (fun s hs => h.syms s (ho.mem e s hs))
  refine ⟨Q, ?_, g2, g3, g4, ?_⟩
  · unfold intersectPoly
    rw [h.dim]
    simp only
    rw [h.call]
    simp only
    rw [symArrayArgs_line h.pos]
    simp only
    rw [h1]
    exact g1
  · intro ρ
    have := h.val (lineVal ρ)
    simp only [lineVal_t, lineVal_p, lineVal_q] at this
    rw [g5, h3, ← this]
    have hmap : V.md.params.map (lineVal ρ) = V.md.params.map ρ :=
      List.map_congr_left fun s hs => lineVal_param h.names ρ hs
    rw [hmap]

end Cyjax.Variety
