import Verif.Lemmas.Broadcast
import Verif.Props.FsBatch
import Verif.Props.Training

/-! # C156: calls with arrays of points, parameters and patches -/

namespace Cyjax

open Cyjax.Spec Cyjax.Util Cyjax.Polynomial Cyjax.Variety Cyjax.Projective Cyjax.Differential Cyjax.Donaldson

/-- **C156, shapes.** Batch shapes are combined by numpy's rule, and it is an error if and only if two of them clash. -/
theorem C156_shapes (l : List (List ℕ)) :
    (∀ r, bcast l = some r ↔ IsBroadcast l r) ∧ (bcast l = none ↔ Clash l) :=
  ⟨fun _ => bcast_eq_some, bcast_eq_none⟩

theorem bcast_congr {l m : List (List ℕ)} (h : ∀ r, IsBroadcast l r ↔ IsBroadcast m r) : bcast l = bcast m := by
  refine Option.ext fun r => ?_
  simp only [bcast_eq_some]
  exact h r

theorem bcast_mono {l m : List (List ℕ)} (h : ∀ s ∈ l, s ∈ m) (hl : bcast l = none) : bcast m = none := by
  obtain ⟨k, s, hs, t, ht, hc⟩ := bcast_eq_none.1 hl
  exact bcast_eq_none.2 ⟨k, s, h s hs, t, h t ht, hc⟩

theorem at_of_mem {α : Type*} {l : List (List ℕ)} {t : List ℕ} (h : IsBroadcast l t) (a : Batch α) (ha : a.dims ∈ l)
    (i : ℕ → ℕ) : a.at (clip t i) = a.at i := a.at_clip (fun k => h.size k _ ha) i

theorem atOpt_of_mem {α : Type*} {l : List (List ℕ)} {t : List ℕ} (h : IsBroadcast l t) (a : Option (Batch α))
    (ha : dimsOpt a ∈ l) (i : ℕ → ℕ) : atOpt a (clip t i) = atOpt a i := atOpt_clip a (fun k => h.size k _ ha) i

section

variable {n : ℕ} (V : HomKind) (metric : Batch (Matrix (Fin (n + 1)) (Fin (n + 1)) ℂ)) (zs : Batch (Fin (n + 1) → ℂ))
  (params : Batch Val) (patch : Option (Batch PatchArg)) (zsC : Option (Batch (Fin (n + 1) → ℂ)))
  (dependent : Option (Batch ℤ))

private theorem grad_at {zs : Batch (Fin (n + 1) → ℂ)} {params : Batch Val} {patch : Option (Batch PatchArg)}
    {g : Batch (Except PyErr (Fin (n + 1) → ℂ))} (h : gradDefiningB V zs params patch = some g) :
    IsBroadcast [zs.dims, params.dims, dimsOpt patch] g.dims ∧
      ∀ i, g.at i = gradDefining V (zs.at i) (params.at i) (atOpt patch i) := by
  unfold gradDefiningB autoVmap at h
  obtain ⟨t, ht, rfl⟩ := Option.map_eq_some_iff.1 h
  have I := bcast_eq_some.1 ht
  refine ⟨I, fun i => ?_⟩
  change gradDefining V (zs.at (clip t i)) (params.at (clip t i)) (atOpt patch (clip t i)) = _
  rw [at_of_mem I zs (by simp), at_of_mem I params (by simp), atOpt_of_mem I patch (by simp)]

private theorem argmax_at (g : Batch (Except PyErr (Fin (n + 1) → ℂ))) (i : ℕ → ℕ) :
    (argmaxB g).at i = match g.at i with
      | .error e => .error e
      | .ok g => .ok (chooseDep g none) := rfl

/-- The dependent coordinates of `inducedMetricB`. -/
private noncomputable def depOf (g : Batch (Except PyErr (Fin (n + 1) → ℂ))) : Option (Batch ℤ) → Batch (Except PyErr ℤ)
  | none => argmaxB g
  | some d => ⟨d.dims, fun i => .ok (d.get i)⟩

private theorem depOf_at (g : Batch (Except PyErr (Fin (n + 1) → ℂ))) (i : ℕ → ℕ) {x : Fin (n + 1) → ℂ}
    (hx : g.at i = .ok x) : (depOf g dependent).at i = .ok (chooseDep x (atOpt dependent i)) := by
  cases dependent with
  | none =>
    have := argmax_at g i
    rw [hx] at this
    exact this
  | some d => rfl

private theorem shapes_none {t : List ℕ} (I : IsBroadcast [zs.dims, params.dims, dimsOpt patch] t)
    (g : Batch (Except PyErr (Fin (n + 1) → ℂ))) (hg : g.dims = t) :
    bcast [metric.dims, g.dims, (depOf g dependent).dims, []]
      = bcast [metric.dims, zs.dims, params.dims, dimsOpt patch, [], dimsOpt dependent] := by
  refine bcast_congr fun r => ?_
  have e1 : IsBroadcast [metric.dims, g.dims, (depOf g dependent).dims, []] r ↔
      IsBroadcast (t :: [metric.dims, dimsOpt dependent]) r := by
    cases dependent with
    | none => exact Spec.IsBroadcast.congr (by simp [depOf, argmaxB, hg]) (by simp [dimsOpt, hg])
    | some d => exact Spec.IsBroadcast.congr (by simp [depOf, hg, dimsOpt]) (by simp [depOf, dimsOpt, hg])
  rw [e1, I.nest]
  exact Spec.IsBroadcast.congr (by simp) (by simp)

private theorem shapes_some {t tc : List ℕ} (zc : Batch (Fin (n + 1) → ℂ))
    (I : IsBroadcast [zs.dims, params.dims, dimsOpt patch] t) (J : IsBroadcast [zc.dims, params.dims, dimsOpt patch] tc)
    (g : Batch (Except PyErr (Fin (n + 1) → ℂ))) (hg : g.dims = t) :
    bcast [metric.dims, g.dims, (depOf g dependent).dims, tc]
      = bcast [metric.dims, zs.dims, params.dims, dimsOpt patch, zc.dims, dimsOpt dependent] := by
  refine bcast_congr fun r => ?_
  have e1 : IsBroadcast [metric.dims, g.dims, (depOf g dependent).dims, tc] r ↔
      IsBroadcast (t :: [tc, metric.dims, dimsOpt dependent]) r := by
    cases dependent with
    | none => exact Spec.IsBroadcast.congr (by simp [depOf, argmaxB, hg]) (by simp [dimsOpt, hg])
    | some d => exact Spec.IsBroadcast.congr (by simp [depOf, hg, dimsOpt]) (by simp [depOf, dimsOpt, hg])
  have e2 : IsBroadcast ([zs.dims, params.dims, dimsOpt patch] ++ [tc, metric.dims, dimsOpt dependent]) r ↔
      IsBroadcast (tc :: [zs.dims, params.dims, dimsOpt patch, metric.dims, dimsOpt dependent]) r :=
    Spec.IsBroadcast.congr (by simp) (by simp)
  rw [e1, I.nest, e2, J.nest]
  exact Spec.IsBroadcast.congr (by simp) (by simp)

/-- The entries of `inducedMetricDiffB`. -/
private noncomputable def entry (g : Batch (Except PyErr (Fin (n + 1) → ℂ))) (dep : Batch (Except PyErr ℤ))
    (gc : Option (Batch (Except PyErr (Fin (n + 1) → ℂ)))) (i : ℕ → ℕ) : Except PyErr (Matrix (Fin n) (Fin n) ℂ) := do
  let grad ← g.at i
  let d ← dep.at i
  match atOpt gc i with
  | none => return inducedMetric (metric.at i) grad d none
  | some gradC => return inducedMetric (metric.at i) grad d (some (← gradC))

private theorem diffB_eq (g : Batch (Except PyErr (Fin (n + 1) → ℂ))) (dep : Batch (Except PyErr ℤ))
    (gc : Option (Batch (Except PyErr (Fin (n + 1) → ℂ)))) :
    inducedMetricDiffB metric g dep gc
      = (bcast [metric.dims, g.dims, dep.dims, dimsOpt gc]).map fun r => ⟨r, entry metric g dep gc⟩ := rfl

/-- **C156, induced metric.** `induced_metric` with arrays of metrics, points, parameters, patches, conjugate points and
dependent coordinates of any batch shapes: it is an error if and only if the shapes clash. Otherwise the result has the common
shape, and its entry at `i` and the dependent coordinate returned for it are what the call returns for the entries of the arguments
that belong to `i` (an error there is raised). -/
theorem C156_induced_metric :
    (Clash [metric.dims, zs.dims, params.dims, dimsOpt patch, dimsOpt zsC, dimsOpt dependent] ↔
      inducedMetricB V metric zs params patch zsC dependent = none) ∧
    ∀ r, IsBroadcast [metric.dims, zs.dims, params.dims, dimsOpt patch, dimsOpt zsC, dimsOpt dependent] r →
      ∃ R D, inducedMetricB V metric zs params patch zsC dependent = some (R, D) ∧ R.dims = r ∧
        ∀ i, InRange r i →
          inducedMetricAt V (metric.at i) (zs.at i) (params.at i) (atOpt patch i) (atOpt zsC i) (atOpt dependent i)
            = do return (← R.get i, ← D.at i) := by
  have main : (bcast [metric.dims, zs.dims, params.dims, dimsOpt patch, dimsOpt zsC, dimsOpt dependent] = none ∧
        inducedMetricB V metric zs params patch zsC dependent = none) ∨
      ∃ r f D, bcast [metric.dims, zs.dims, params.dims, dimsOpt patch, dimsOpt zsC, dimsOpt dependent] = some r ∧
        inducedMetricB V metric zs params patch zsC dependent = some (⟨r, f⟩, D) ∧
        ∀ i, inducedMetricAt V (metric.at i) (zs.at i) (params.at i) (atOpt patch i) (atOpt zsC i) (atOpt dependent i)
            = do return (← f i, ← D.at i) := by
    cases hg : gradDefiningB V zs params patch with
    | none =>
      refine .inl ⟨bcast_mono (l := [zs.dims, params.dims, dimsOpt patch]) (by simp) ?_, ?_⟩
      · exact Option.map_eq_none_iff.1 hg
      · simp only [inducedMetricB, hg]
        rfl
    | some g =>
      obtain ⟨I, hgi⟩ := grad_at V hg
      cases zsC with
      | none =>
        have hs := shapes_none metric zs params patch dependent I g rfl
        have hB : inducedMetricB V metric zs params patch none dependent
            = (inducedMetricDiffB metric g (depOf g dependent) none).map fun R => (R, depOf g dependent) := by
          simp only [inducedMetricB, hg]
          cases dependent <;> cases h : inducedMetricDiffB metric g _ none <;> simp_all [depOf]
        rw [hB, diffB_eq, show dimsOpt (none : Option (Batch (Except PyErr (Fin (n + 1) → ℂ)))) = [] from rfl, hs]
        cases hb : bcast [metric.dims, zs.dims, params.dims, dimsOpt patch, [], dimsOpt dependent] with
        | none => exact .inl ⟨hb, rfl⟩
        | some r =>
          refine .inr ⟨r, _, depOf g dependent, hb, rfl, fun i => ?_⟩
          have e1 := hgi i
          unfold inducedMetricAt entry
          cases hx : gradDefining V (zs.at i) (params.at i) (atOpt patch i) with
          | error e => rw [e1, hx]; rfl
          | ok x =>
            rw [hx] at e1
            have e2 := depOf_at dependent g i e1
            rw [e1, e2]
            rfl
      | some zc =>
        cases hc : gradDefiningB V zc ⟨params.dims, fun i => conjVal (params.get i)⟩ patch with
        | none =>
          refine .inl ⟨bcast_mono (l := [zc.dims, params.dims, dimsOpt patch]) (by simp [dimsOpt]) ?_, ?_⟩
          · exact Option.map_eq_none_iff.1 hc
          · simp only [inducedMetricB, hg, hc]
            rfl
        | some gc =>
          obtain ⟨J, hci⟩ := grad_at V hc
          have hs := shapes_some metric zs params patch dependent zc I J g rfl
          have hB : inducedMetricB V metric zs params patch (some zc) dependent
              = (inducedMetricDiffB metric g (depOf g dependent) (some gc)).map fun R => (R, depOf g dependent) := by
            simp only [inducedMetricB, hg, hc]
            cases dependent <;> cases h : inducedMetricDiffB metric g _ (some gc) <;> simp_all [depOf]
          rw [hB, diffB_eq, show dimsOpt (some gc) = gc.dims from rfl, hs]
          cases hb : bcast [metric.dims, zs.dims, params.dims, dimsOpt patch, zc.dims, dimsOpt dependent] with
          | none => exact .inl ⟨hb, rfl⟩
          | some r =>
            refine .inr ⟨r, _, depOf g dependent, hb, rfl, fun i => ?_⟩
            have e1 := hgi i
            have e3 : gc.at i = gradDefining V (zc.at i) (conjVal (params.at i)) (atOpt patch i) := hci i
            unfold inducedMetricAt entry
            cases hx : gradDefining V (zs.at i) (params.at i) (atOpt patch i) with
            | error e => rw [e1, hx]; rfl
            | ok x =>
              rw [hx] at e1
              have e2 := depOf_at dependent g i e1
              rw [e1, e2]
              simp only [atOpt, Option.map_some, e3]
              change (match gradDefining V (zc.at i) (conjVal (params.at i)) (Option.map (fun x => x.at i) patch) with
                | .error e => _ | .ok gc => _) = _
              cases gradDefining V (zc.at i) (conjVal (params.at i)) (Option.map (fun x => x.at i) patch) <;> rfl
  rcases main with ⟨h0, h1⟩ | ⟨r, f, D, h0, h1, h2⟩
  · refine ⟨⟨fun _ => h1, fun _ => bcast_eq_none.1 h0⟩, fun r hr => ?_⟩
    rw [bcast_eq_some.2 hr] at h0
    exact absurd h0 (by simp)
  · refine ⟨⟨fun hc => ?_, fun hn => ?_⟩, fun r' hr' => ?_⟩
    · rw [bcast_eq_none.2 hc] at h0
      exact absurd h0 (by simp)
    · rw [h1] at hn
      exact absurd hn (by simp)
    · rw [bcast_eq_some.2 hr'] at h0
      obtain rfl := Option.some.inj h0
      exact ⟨⟨r', f⟩, D, h1, rfl, fun i _ => h2 i⟩

/-- **C156, induced Fubini-Study metric.** The same for `induced_fs`; conjugate points must have the same shape as the points. -/
theorem C156_induced_fs :
    (∀ zc, zsC = some zc → zs.dims ≠ zc.dims → inducedFsB V zs params patch zsC dependent = none) ∧
    ((∀ zc, zsC = some zc → zs.dims = zc.dims) →
      (Clash [zs.dims, params.dims, dimsOpt patch, dimsOpt dependent] ↔
        inducedFsB V zs params patch zsC dependent = none) ∧
      ∀ r, IsBroadcast [zs.dims, params.dims, dimsOpt patch, dimsOpt dependent] r →
        ∃ R D, inducedFsB V zs params patch zsC dependent = some (R, D) ∧ R.dims = r ∧
          ∀ i, InRange r i →
            inducedFs V (zs.at i) (params.at i) (atOpt patch i) (atOpt zsC i) (atOpt dependent i)
              = do return (← R.get i, ← D.at i)) := by
  constructor
  · rintro zc rfl h
    simp only [inducedFsB, fsMetricB, if_neg h]
    rfl
  · intro hc
    obtain ⟨m, hm, hd, hat⟩ : ∃ m, fsMetricB zs zsC = some m ∧ m.dims = zs.dims ∧
        ∀ i, m.at i = match atOpt zsC i with
          | none => fsMetricAt (zs.at i)
          | some zc => fsMetric (zs.at i) zc := by
      cases zsC with
      | none => exact ⟨_, rfl, rfl, fun i => rfl⟩
      | some zc =>
        have h := hc zc rfl
        refine ⟨_, by simp only [fsMetricB, if_pos h]; rfl, rfl, fun i => ?_⟩
        simp only [Batch.at, atOpt, Option.map_some, h]
    have hB : inducedFsB V zs params patch zsC dependent = inducedMetricB V m zs params patch zsC dependent := by
      simp only [inducedFsB, hm]
      rfl
    have hs : ∀ r, IsBroadcast [m.dims, zs.dims, params.dims, dimsOpt patch, dimsOpt zsC, dimsOpt dependent] r ↔
        IsBroadcast [zs.dims, params.dims, dimsOpt patch, dimsOpt dependent] r := by
      intro r
      have : dimsOpt zsC = [] ∨ dimsOpt zsC = zs.dims := by
        cases zsC with
        | none => exact .inl rfl
        | some zc => exact .inr (hc zc rfl).symm
      refine Spec.IsBroadcast.congr ?_ (by simp)
      rcases this with h | h <;> simp [hd, h]
    have main := C156_induced_metric V m zs params patch zsC dependent
    rw [hB]
    refine ⟨?_, fun r hr => ?_⟩
    · rw [← main.1, ← bcast_eq_none, ← bcast_eq_none, bcast_congr hs]
    · obtain ⟨R, D, h1, h2, h3⟩ := main.2 r ((hs r).2 hr)
      refine ⟨R, D, h1, h2, fun i hi => ?_⟩
      rw [← h3 i hi, hat i]
      rfl

end

private theorem valid_reverse : ∀ (s : List ℕ) (i : ℕ → ℕ), InRange s i → NdValid s.reverse ((List.range s.length).map i).reverse
  | [], _, _ => .nil
  | a :: s, i, h => by
    have h1 := valid_reverse s (fun k => i (k + 1)) fun k => h (k + 1)
    rw [List.length_cons, List.range_succ_eq_map, List.map_cons, List.map_map, List.reverse_cons, List.reverse_cons]
    exact h1.append (.cons (h 0) .nil)

/-- **C156, Fubini-Study metric.** `fs_metric` on arrays (flattening, `vmap`, restoring the shape) is `fs_metric` on batches. -/
theorem C156_fs_metric (d : ℕ) (hd : 0 < d) (a : Nd ℂ) (b : Batch (Fin d → ℂ))
    (h : Describes [d] (fun z c => if hc : c.headD 0 < d then z ⟨c.headD 0, hc⟩ else 0) a b) :
    ∃ res m, fsMetricNd d a none = some res ∧ fsMetricB b none = some m ∧
      m.dims = b.dims ∧ res.shape = m.dims.reverse ++ [d, d] ∧
      ∀ i, InRange b.dims i → ∀ j k : Fin d,
        res.get (((List.range m.dims.length).map i).reverse ++ [(j : ℕ), (k : ℕ)]) = some (m.get i j k) := by
  obtain ⟨res, h1, h2, h3⟩ := (C09_fs_metric d hd a b.dims.reverse h.1).1
  refine ⟨res, _, h1, rfl, rfl, h2, fun i hi j k => ?_⟩
  refine h3 _ (valid_reverse _ i hi) (b.get i) (fun l => ?_) j k
  have := h.2 i hi [(l : ℕ)] (.cons l.2 .nil)
  simpa using this

/-! ## `sigma_accuracy` -/

private theorem mapM_get {α β : Type} [Inhabited α] (f : α → Except PyErr β) : ∀ l : List α,
    ((List.range l.length).mapM fun k => f (l.getD k default)) = l.mapM f
  | [] => rfl
  | a :: l => by
    rw [List.length_cons, List.range_succ_eq_map, List.mapM_cons, List.mapM_map, List.mapM_cons]
    have := mapM_get f l
    simp only [List.getD_cons_zero, Function.comp_def, List.getD_cons_succ]
    rw [← this]

private theorem ok_bind {α β : Type} (a : α) (f : α → Except PyErr β) : (Except.ok a >>= f) = f a := rfl

private theorem error_bind {α β : Type} (e : PyErr) (f : α → Except PyErr β) : (Except.error e >>= f) = .error e := rfl

private theorem mapM_split {α γ δ ε : Type} (G : α → Except PyErr γ) (W : α → γ → Except PyErr δ) (E : α → γ → Except PyErr ε) :
    ∀ (l : List α) (w : List δ) (e : List ε),
      (l.mapM (fun x => do let g ← G x; W x g) = .ok w ∧ l.mapM (fun x => do let g ← G x; E x g) = .ok e) ↔
        ∃ v : List (ε × δ), l.mapM (fun x => do let g ← G x; let w ← W x g; let e ← E x g; return (e, w)) = .ok v ∧
          v.map (·.2) = w ∧ v.map (·.1) = e
  | [], w, e => by
    simp only [List.mapM_nil]
    constructor
    · rintro ⟨h1, h2⟩
      obtain rfl := (Except.ok.inj h1).symm
      obtain rfl := (Except.ok.inj h2).symm
      exact ⟨[], rfl, rfl, rfl⟩
    · rintro ⟨v, h1, h2, h3⟩
      obtain rfl := (Except.ok.inj h1).symm
      exact ⟨congrArg _ h2, congrArg _ h3⟩
  | a :: l, w, e => by
    have ih := mapM_split G W E l
    simp only [List.mapM_cons]
    generalize l.mapM (fun x => do let g ← G x; W x g) = mw at *
    generalize l.mapM (fun x => do let g ← G x; E x g) = me at *
    generalize l.mapM (fun x => do let g ← G x; let w ← W x g; let e ← E x g; return (e, w)) = mv at *
    have nf : ∀ {α : Type} (x : PyErr) (y : α), (Except.error x = Except.ok y) = False := fun x y => by simp
    cases hG : G a with
    | error x => simp only [error_bind, nf, false_and, exists_false]
    | ok g =>
      simp only [ok_bind]
      cases hW : W a g with
      | error x => simp only [error_bind, nf, false_and, exists_false]
      | ok w0 =>
        simp only [ok_bind]
        cases hE : E a g with
        | error x => simp only [error_bind, nf, false_and, and_false, exists_false]
        | ok e0 =>
          simp only [ok_bind]
          constructor
          · rintro ⟨h1, h2⟩
            cases mw with
            | error x => cases h1
            | ok w1 =>
              cases me with
              | error x => cases h2
              | ok e1 =>
                obtain ⟨v, hv, h3, h4⟩ := (ih w1 e1).1 ⟨rfl, rfl⟩
                obtain rfl := (Except.ok.inj h1).symm
                obtain rfl := (Except.ok.inj h2).symm
                exact ⟨(e0, w0) :: v, by rw [hv]; rfl, by simp [h3], by simp [h4]⟩
          · rintro ⟨v, h1, rfl, rfl⟩
            cases mv with
            | error x => cases h1
            | ok v1 =>
              obtain ⟨h3, h4⟩ := (ih _ _).2 ⟨v1, rfl, rfl, rfl⟩
              obtain rfl := (Except.ok.inj h1).symm
              exact ⟨by rw [h3]; rfl, by rw [h4]; rfl⟩

private theorem column_at {α β : Type} [Inhabited β] (l : List α) (f : α → β) (k : ℕ) (hk : k < l.length) :
    (column (l.map f)).at (fun _ => k) = f l[k] := by
  have : clip [(l.map f).length] (fun _ => k) 0 = k := by
    unfold clip
    rw [sizeAt_cons_zero, List.length_map]
    split_ifs with h
    · omega
    · rfl
  change (l.map f).getD (clip [(l.map f).length] (fun _ => k) 0) default = _
  rw [this, List.getD_eq_getElem _ _ (by simpa using hk), List.getElem_map]

private theorem values_eq {α β : Type} (l : List α) (a : Batch (Except PyErr β)) (f : α → Except PyErr β)
    (h : ∀ (k : ℕ) (hk : k < l.length), a.get (fun _ => k) = f l[k]) : values l.length a = l.mapM f := by
  unfold values
  cases l with
  | nil => rfl
  | cons x l =>
    have : Inhabited α := ⟨x⟩
    rw [← mapM_get f]
    refine mapM_congr fun k hk => ?_
    rw [List.mem_range] at hk
    rw [h k hk, List.getD_eq_getElem _ _ hk]

/-- **C156, accuracy.** The array program of `sigma_accuracy` computes the mean over single points that the other theorems on
`sigma_accuracy` are about (an error in one is an error in the other). -/
theorem C156_sigma_accuracy {n : ℕ} (A : AlgebraicMetric (n + 1)) (h : A.H) (o : SymOrder) (roots : List ℂ → List ℂ)
    (params : List ℂ) (count : ℕ) (draws : List (List ℂ × List ℂ)) (v : ℝ) :
    A.sigmaAccuracyArrays h o roots params count draws = .ok v ↔ A.sigmaAccuracy h o roots params count draws = .ok v := by
  unfold AlgebraicMetric.sigmaAccuracyArrays AlgebraicMetric.sigmaAccuracy
  cases sampleIntersectAffine (n + 1) A.variety o roots params count draws with
  | error e => exact ⟨fun h => (by cases h), fun h => (by cases h)⟩
  | ok pts =>
    have hz : (column (pts.map fun p => p.1)).dims = [pts.length] := by simp [column]
    have hp : (column (pts.map fun p => (p.2 : ℕ))).dims = [pts.length] := by simp [column]
    have b1 : bcast [[pts.length], [], [pts.length]] = some [pts.length] := by simp [bcast, bcast2]
    have b2 : bcast [[pts.length], [pts.length], [], [pts.length]] = some [pts.length] := by simp [bcast, bcast2]
    have b3 : bcast [[pts.length], [pts.length], [], [], [pts.length], [pts.length]] = some [pts.length] := by
      simp [bcast, bcast2]
    let G : (Fin (n + 1) → ℂ) × Fin (n + 1 + 1) → Except PyErr (Fin (n + 1) → ℂ) := fun x =>
      gradDefining A.variety x.1 (.vec params) (some (.index x.2))
    let W : (Fin (n + 1) → ℂ) × Fin (n + 1 + 1) → (Fin (n + 1) → ℂ) → Except PyErr ℝ := fun x g =>
      weight A.variety x.1 (.vec params) (some (.index x.2)) (some (((argmax fun i => ‖g i‖ : Fin (n + 1)) : ℕ) : ℤ)) (some 1)
    let E : (Fin (n + 1) → ℂ) × Fin (n + 1 + 1) → (Fin (n + 1) → ℂ) → Except PyErr ℂ := fun x g =>
      A.eta h (List.ofFn x.1) (.vec params) (some (x.2 : ℕ)) (some (((argmax fun i => ‖g i‖ : Fin (n + 1)) : ℕ) : ℤ)) (some g)
    -- the three batched calls
    let grad : Batch (Except PyErr (Fin (n + 1) → ℂ)) := ⟨[pts.length], fun i =>
      gradDefining A.variety ((column (pts.map fun p => p.1)).at i) (.vec params)
        (some (.index ((column (pts.map fun p => (p.2 : ℕ))).at i)))⟩
    have h1 : gradDefiningB A.variety (column (pts.map fun p => p.1)) (single (.vec params))
        (some ⟨(column (pts.map fun p => (p.2 : ℕ))).dims, fun i => .index ((column (pts.map fun p => (p.2 : ℕ))).get i)⟩)
        = some grad := by
      unfold gradDefiningB autoVmap
      rw [show [(column (pts.map fun p => p.1)).dims, (single (Val.vec params)).dims, dimsOpt (some (⟨(column (pts.map
        fun p => (p.2 : ℕ))).dims, fun i => .index ((column (pts.map fun p => (p.2 : ℕ))).get i)⟩ : Batch PatchArg))]
        = [[pts.length], [], [pts.length]] from by rw [hz]; exact congrArg _ (congrArg _ (congrArg (· :: []) hp)), b1]
      rfl
    have zat : ∀ k (hk : k < pts.length), (column (pts.map fun p => p.1)).at (fun _ => k) = pts[k].1 := fun k hk =>
      column_at pts (fun p => p.1) k hk
    have pat : ∀ k (hk : k < pts.length), (column (pts.map fun p => (p.2 : ℕ))).at (fun _ => k) = (pts[k].2 : ℕ) := fun k hk =>
      column_at pts (fun p => (p.2 : ℕ)) k hk
    have gget : ∀ k (hk : k < pts.length), grad.get (fun _ => k) = G pts[k] := fun k hk => by
      simp only [grad, G, zat k hk, pat k hk]
    have gat : ∀ k (hk : k < pts.length), grad.at (fun _ => k) = G pts[k] := fun k hk => by
      rw [← gget k hk]
      change gradDefining A.variety ((column (pts.map fun p => p.1)).at (clip [pts.length] fun _ => k)) (.vec params)
        (some (.index ((column (pts.map fun p => (p.2 : ℕ))).at (clip [pts.length] fun _ => k)))) = _
      rw [Batch.at_clip _ (fun j => by rw [hz]; exact .inr rfl), Batch.at_clip _ (fun j => by rw [hp]; exact .inr rfl)]
    have dat : ∀ k (hk : k < pts.length), (argmaxB grad).at (fun _ => k) = match G pts[k] with
        | .error e => .error e
        | .ok g => .ok (((argmax fun j => ‖g j‖ : Fin (n + 1)) : ℕ) : ℤ) := fun k hk => by
      rw [← gat k hk]
      rfl
    let wts : Batch (Except PyErr ℝ) := ⟨[pts.length], fun i => do
      let d ← (argmaxB grad).at i
      weight A.variety ((column (pts.map fun p => p.1)).at i) (.vec params)
        (some (.index ((column (pts.map fun p => (p.2 : ℕ))).at i))) (some d) (some 1)⟩
    have h2 : weightB A.variety (column (pts.map fun p => p.1)) (single (.vec params))
        (some ⟨(column (pts.map fun p => (p.2 : ℕ))).dims, fun i => .index ((column (pts.map fun p => (p.2 : ℕ))).get i)⟩)
        (argmaxB grad) = some wts := by
      unfold weightB autoVmap
      rw [show [(column (pts.map fun p => p.1)).dims, dimsOpt (some (⟨(column (pts.map
        fun p => (p.2 : ℕ))).dims, fun i => .index ((column (pts.map fun p => (p.2 : ℕ))).get i)⟩ : Batch PatchArg)),
        (single (Val.vec params)).dims, (argmaxB grad).dims]
        = [[pts.length], [pts.length], [], [pts.length]] from by
          rw [hz]; exact congrArg _ (congrArg (· :: [[], [pts.length]]) hp), b2]
      rfl
    let ets : Batch (Except PyErr ℂ) := ⟨[pts.length], fun i => do
      let d ← (argmaxB grad).at i
      let g ← grad.at i
      A.eta h (List.ofFn ((column (pts.map fun p => p.1)).at i)) (.vec params)
        (some ((column (pts.map fun p => (p.2 : ℕ))).at i)) (some d) (some g)⟩
    have h3 : A.etaB (single h) (column (pts.map fun p => p.1)) (single (.vec params)) (column (pts.map fun p => (p.2 : ℕ)))
        (argmaxB grad) grad = some ets := by
      unfold AlgebraicMetric.etaB autoVmap
      rw [show [(column (pts.map fun p => p.1)).dims, (column (pts.map fun p => (p.2 : ℕ))).dims,
        (single (Val.vec params)).dims, (single h).dims, (argmaxB grad).dims, grad.dims]
        = [[pts.length], [pts.length], [], [], [pts.length], [pts.length]] from by rw [hz, hp]; rfl, b3]
      rfl
    have v1 : values pts.length grad = pts.mapM G := values_eq pts grad G gget
    have v2 : values pts.length wts = pts.mapM (fun x => do let g ← G x; W x g) := by
      refine values_eq pts wts _ fun k hk => ?_
      simp only [wts, dat k hk, zat k hk, pat k hk]
      cases G pts[k] <;> rfl
    have v3 : values pts.length ets = pts.mapM (fun x => do let g ← G x; E x g) := by
      refine values_eq pts ets _ fun k hk => ?_
      simp only [ets, dat k hk, gat k hk, zat k hk, pat k hk]
      cases G pts[k] <;> rfl
    simp only [ok_bind, h1, h2, h3, v1, v2, v3]
    have key := mapM_split G W E pts
    change (do
      let _ ← pts.mapM G
      let w ← pts.mapM (fun x => do let g ← G x; W x g)
      let e ← pts.mapM (fun x => do let g ← G x; E x g)
      return Donaldson.sigmaAccuracy (count := pts.length) (fun i => e.getD i 0) (fun i => w.getD i 0)) = Except.ok v ↔
      (do
        let vals ← pts.mapM (fun x => do let g ← G x; let w ← W x g; let e ← E x g; return (e, w))
        return Donaldson.sigmaAccuracy (count := vals.length) (fun i => (vals.get i).1) (fun i => (vals.get i).2)) = Except.ok v
    have fin : ∀ vals : List (ℂ × ℝ), vals.length = pts.length →
        Donaldson.sigmaAccuracy (count := pts.length) (fun i => (vals.map (·.1)).getD i 0) (fun i => (vals.map (·.2)).getD i 0)
          = Donaldson.sigmaAccuracy (count := vals.length) (fun i => (vals.get i).1) (fun i => (vals.get i).2) := by
      intro vals hl
      rw [← hl]
      congr 1 <;> funext i <;> simp
    constructor
    · intro hv
      cases hw : pts.mapM (fun x => do let g ← G x; W x g) with
      | error x => rw [hw] at hv; cases hg : pts.mapM G <;> rw [hg] at hv <;> cases hv
      | ok w =>
        cases he : pts.mapM (fun x => do let g ← G x; E x g) with
        | error x => rw [hw, he] at hv; cases hg : pts.mapM G <;> rw [hg] at hv <;> cases hv
        | ok e =>
          rw [hw, he] at hv
          obtain ⟨vals, hvals, rfl, rfl⟩ := (key w e).1 ⟨hw, he⟩
          have hl := (mapM_inv hvals).1
          rw [hvals]
          cases hg : pts.mapM G with
          | error x => rw [hg] at hv; cases hv
          | ok g =>
            rw [hg] at hv
            exact (congrArg Except.ok (fin vals hl).symm).trans hv
    · intro hv
      cases hvals : pts.mapM (fun x => do let g ← G x; let w ← W x g; let e ← E x g; return (e, w)) with
      | error x => rw [hvals] at hv; cases hv
      | ok vals =>
        have hl := (mapM_inv hvals).1
        obtain ⟨hw, he⟩ := (key _ _).2 ⟨vals, hvals, rfl, rfl⟩
        obtain ⟨g, hg⟩ : ∃ g, pts.mapM G = .ok g := by
          refine ⟨_, mapM_ok (g := fun x => match G x with | .ok g => g | .error _ => 0) fun x hx => ?_⟩
          obtain ⟨k, hk, rfl⟩ := List.getElem_of_mem hx
          have := (mapM_inv hvals).2 k hk (by omega)
          cases hG : G pts[k] with
          | error e => rw [hG] at this; cases this
          | ok g => rfl
        rw [hvals] at hv
        rw [hg, hw, he]
        exact (congrArg Except.ok (fin vals hl)).trans hv

/-- **C156, accuracy of batches.** With arrays of parameters and of matrices `h`, every entry of the result is the accuracy for the
entries that belong to it, computed with the same random numbers. -/
theorem C156_sigma_batch {n : ℕ} (A : AlgebraicMetric (n + 1)) (h : Batch A.H) (o : SymOrder) (roots : List ℂ → List ℂ)
    (params : Batch (List ℂ)) (count : ℕ) (draws : List (List ℂ × List ℂ)) :
    (Clash [params.dims, h.dims] ↔ A.sigmaAccuracyB h o roots params count draws = none) ∧
    ∀ r, IsBroadcast [params.dims, h.dims] r → ∃ R, A.sigmaAccuracyB h o roots params count draws = some R ∧ R.dims = r ∧
      ∀ i, InRange r i → ∀ v,
        R.get i = .ok v ↔ A.sigmaAccuracy (h.at i) o roots (params.at i) count draws = .ok v := by
  refine ⟨?_, fun r hr => ?_⟩
  · unfold AlgebraicMetric.sigmaAccuracyB autoVmap
    rw [Option.map_eq_none_iff, bcast_eq_none]
  · refine ⟨⟨r, fun i => A.sigmaAccuracyArrays (h.at i) o roots (params.at i) count draws⟩, ?_, rfl, fun i _ v => ?_⟩
    · unfold AlgebraicMetric.sigmaAccuracyB autoVmap
      rw [bcast_eq_some.2 hr]
      rfl
    · exact C156_sigma_accuracy A (h.at i) o roots (params.at i) count draws v

/-- Parameters of shape `(3, 1, 1)`, points of shape `(4, 2)` and one patch: the result has batch shape `(3, 4)`. -/
example : IsBroadcast [[4], [1, 3], []] [4, 3] ∧ InRange [4, 3] (fun k => if k = 0 then 3 else if k = 1 then 2 else 0) ∧
    Clash [[4], [3]] ∧ clip [1, 3] (fun k => if k = 0 then 3 else if k = 1 then 2 else 0) 0 = 0 := by
  refine ⟨bcast_eq_some.1 (by decide), fun k => ?_, ⟨0, [4], by simp, [3], by simp, by decide⟩, rfl⟩
  match k with
  | 0 => decide
  | 1 => decide
  | (k + 2) => simp [sizeAt]

end Cyjax
