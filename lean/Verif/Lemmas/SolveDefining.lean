import Verif.Lemmas.LineKinds

/-! # Solutions of the defining equation in one coordinate -/

namespace Cyjax.Variety

open Cyjax.Polynomial Cyjax.Projective Cyjax.Util MvPolynomial

theorem roll_insert {n : ℕ} (zs : Fin n → ℂ) (r : ℂ) (dep : Fin (n + 1)) :
    roll (Fin.append (roll zs (-((dep : ℕ) : ℤ))) fun _ : Fin 1 => r) (((dep : ℕ) : ℤ) + 1) = dep.insertNth (α := fun _ => ℂ) r zs := by
  have h0 : insert1d zs (fun _ : Fin 1 => r) ((dep : ℕ) : ℤ) =
      roll (Fin.append (roll zs (-((dep : ℕ) : ℤ))) fun _ : Fin 1 => r) (((dep : ℕ) : ℤ) + 1) := by
    unfold insert1d
    simp only [if_neg (show ¬ ((dep : ℕ) : ℤ) < 0 by omega), Nat.cast_one]
  rw [← h0]
  have hd := dep.isLt
  funext k
  rw [insert1d_apply zs _ (dep : ℕ) (by omega) _ (Or.inl rfl) k]
  rcases Fin.eq_self_or_eq_succAbove dep k with h | ⟨j, h⟩
  · subst h
    simp
  · subst h
    rw [Fin.insertNth_apply_succAbove]
    by_cases hj : (j : ℕ) < dep
    · have hv : ((dep.succAbove j : Fin (n + 1)) : ℕ) = j := by rw [succAbove_val, if_pos hj]
      rw [dif_pos (by rw [hv]; exact hj)]
      congr 1
      exact Fin.ext hv
    · have hv : ((dep.succAbove j : Fin (n + 1)) : ℕ) = j + 1 := by rw [succAbove_val, if_neg hj]
      rw [dif_neg (by rw [hv]; omega), dif_neg (by rw [hv]; omega)]
      congr 1
      apply Fin.ext
      simp only [hv]
      omega

theorem indexAffineToHom_succAbove {m : ℕ} (p : Fin (m + 1)) (k : Fin m) :
    (indexAffineToHom ((p : ℕ) : ℤ) ((k : ℕ) : ℤ)).toNat = (p.succAbove k : Fin (m + 1)) := by
  unfold indexAffineToHom
  rw [succAbove_val]
  by_cases h : (k : ℕ) < p
  · rw [if_neg (by omega), if_pos h]; simp
  · rw [if_pos (by omega), if_neg h]; omega

theorem mergeSubscript_inj {name : List Char} (h : GoodName name) {i j : ℕ}
    (he : mergeSubscript name i = mergeSubscript name j) : i = j := by
  have h1 := splitSubscript_merge name h i
  rw [he, splitSubscript_merge name h j] at h1
  simp only [Except.ok.injEq, Prod.mk.injEq, Option.some.injEq, true_and] at h1
  exact_mod_cast h1.symm

/-- The indices left after removing the patch coordinate and the dependent one. -/
theorem ofFn_succAbove₂ {α : Type*} (f : ℕ → α) {n : ℕ} (p : Fin (n + 2)) (d : Fin (n + 1)) :
    List.ofFn (fun k : Fin n => f (p.succAbove (d.succAbove k))) =
      (((List.range (n + 2)).filter (fun i => i ≠ (p : ℕ))).filter
        (fun i => i ≠ ((p.succAbove d : Fin (n + 2)) : ℕ))).map f := by
  have h1 := ofFn_succAbove (fun i => i) p
  rw [List.map_id'] at h1
  rw [← h1]
  let g : ℕ → ℕ := fun i => if i < (p : ℕ) then i else i + 1
  have hg : ∀ k : Fin (n + 1), ((p.succAbove k : Fin (n + 2)) : ℕ) = g k := fun k => succAbove_val p k
  have hginj : ∀ i j, g i = g j → i = j := by
    intro i j h
    simp only [g] at h
    split_ifs at h <;> omega
  have h2 : List.ofFn (fun k : Fin (n + 1) => ((p.succAbove k : Fin (n + 2)) : ℕ)) =
      (List.range (n + 1)).map g := by
    rw [← ofFn_range g]
    simp only [hg]
  have h3 : List.ofFn (fun k : Fin n => f (p.succAbove (d.succAbove k))) =
      List.ofFn (fun k : Fin n => (fun i => f (g i)) (d.succAbove k)) := by
    simp only [hg]
  rw [h3, ofFn_succAbove (fun i => f (g i)) d, h2, List.filter_map, List.map_map, hg]
  have : List.filter (fun i => decide (i ≠ (d : ℕ))) (List.range (n + 1)) =
      List.filter ((fun i => decide (i ≠ g d)) ∘ g) (List.range (n + 1)) := by
    apply List.filter_congr
    intro i _
    simp only [Function.comp, decide_eq_decide, ne_eq, not_iff_not]
    exact ⟨fun h => by rw [h], hginj _ _⟩
  rw [this]
  rfl

theorem constMeta_affine {P : PolyObj} {name : List Char} {n : ℕ} (hn : 0 < n) (h : Proper P name (n + 1))
    (p : Fin (n + 2)) (d : Fin (n + 1)) :
    constMeta (affineMeta P.md [(p : ℕ)]) (mergeSubscript name (p.succAbove d : Fin (n + 2))) =
      ⟨[(name, some (((List.range (n + 2)).filter (fun i => i ≠ (p : ℕ))).filter
        (fun i => i ≠ ((p.succAbove d : Fin (n + 2)) : ℕ))))], P.md.params⟩ := by
  have hf : ∀ l : List ℕ, l.filter (fun i => mergeSubscript name i ≠
      mergeSubscript name (p.succAbove d : Fin (n + 2))) = l.filter (fun i => i ≠ ((p.succAbove d : Fin (n + 2)) : ℕ)) := by
    intro l
    apply List.filter_congr
    intro i _
    simp only [decide_eq_decide, ne_eq, not_iff_not]
    exact ⟨mergeSubscript_inj h.goodName, fun h => by rw [h]⟩
  have hne : ((List.range (n + 2)).filter (fun i => i ≠ (p : ℕ))).filter
        (fun i => i ≠ ((p.succAbove d : Fin (n + 2)) : ℕ)) ≠ [] := by
    intro h0
    have := ofFn_succAbove₂ (fun i => i) p d
    rw [h0] at this
    have := congrArg List.length this
    simp at this
    omega
  unfold constMeta affineMeta
  simp only [h.vars, List.zipWith_cons_cons, List.zipWith_nil_left, Option.getD_some]
  congr 1
  rw [List.filterMap_cons]
  have : dropSym (mergeSubscript name (p.succAbove d : Fin (n + 2)))
      (name, some ((List.range (n + 1 + 1)).filter (fun i => i ≠ (p : ℕ)))) =
      some (name, some (((List.range (n + 2)).filter (fun i => i ≠ (p : ℕ))).filter
        (fun i => i ≠ ((p.succAbove d : Fin (n + 2)) : ℕ)))) := by
    unfold dropSym
    simp only [hf]
    rw [if_neg hne]
  rw [this]
  rfl

/-- Values of the coefficients found by `solve_defining`. -/
theorem solve_coeffs {P : PolyObj} {name : List Char} {n : ℕ} (hn : 0 < n) (h : Proper P name (n + 1))
    (p : Fin (n + 2)) (d : Fin (n + 1)) (zs : Fin n → ℂ) (ps : List ℂ) (hps : ps.length = P.md.params.length) :
    ∃ (vals : List ℂ) (ρ : Sym → ℂ), vals.length = degreeOf (mergeSubscript name (p.succAbove d))
        (bind₁ (fun s => if s = mergeSubscript name p then 1 else X s) P.poly) + 1 ∧ ρ (mergeSubscript name p) = 1 ∧
      (∀ k, ρ (mergeSubscript name (p.succAbove (d.succAbove k))) = zs k) ∧
      P.md.paramInput ρ = ps ∧
      (∀ r, eval (Function.update ρ (mergeSubscript name (p.succAbove d)) r) P.poly = polyval vals r) ∧
      ∀ (V : HomKind), V.polyObj = .ok P → ∀ roots,
        solveDefining V roots zs ps d (some p) = .ok ((roots vals).map fun r => d.insertNth (α := fun _ => ℂ) r zs) := by
  set x := mergeSubscript name (p.succAbove d : Fin (n + 2)) with hx
  obtain ⟨ρ, r1, r2⟩ := exists_point h (affineToHom (d.insertNth (α := fun _ => ℂ) 0 zs) (p : ℕ)) ps hps
  have hρp : ρ (mergeSubscript name p) = 1 := by rw [r1]; simp
  have hρz : ∀ k, ρ (mergeSubscript name (p.succAbove (d.succAbove k))) = zs k := by
    intro k
    rw [r1]
    simp
  have hl : [(p : ℕ)].length = P.md.vars.length := by rw [h.vars]; rfl
  have hsome : ∀ v ∈ P.md.vars, v.2.isSome := by rw [h.vars]; simp
  have hwf : (affinePoly P [(p : ℕ)]).obj.md.WF := affineMeta_wf P.md h.wf _ hl
  have hdec := affinePoly_declared P h.declared hsome _ hl
  have hreal := affinePoly_real P h.real [(p : ℕ)]
  have hmd : (affinePoly P [(p : ℕ)]).obj.md = affineMeta P.md [(p : ℕ)] := rfl
  have hxp : x ∉ (affinePoly P [(p : ℕ)]).obj.md.params := fun hh => h.mem_params x hh _ rfl
  obtain ⟨cs, c1, c2, c3⟩ := C47_univariate_partial (affinePoly P [(p : ℕ)]).obj x hxp (by
    refine ⟨mergeSubscript name (p.succAbove (d.succAbove ⟨0, hn⟩)), ?_, ?_⟩
    · rw [hmd]
      unfold Meta.varSyms affineMeta
      simp only [h.vars, List.zipWith_cons_cons, List.zipWith_nil_left, Option.getD_some, List.flatMap_cons,
        List.flatMap_nil, List.append_nil, varSymbols]
      refine List.mem_map_of_mem (List.mem_filter.2 ⟨List.mem_range.2 (Fin.isLt _), ?_⟩)
      simp only [ne_eq, decide_not, Bool.not_eq_true', decide_eq_false_iff_not]
      exact fun h' => Fin.succAbove_ne p _ (Fin.ext h')
    · intro h'
      have := Fin.succAbove_right_injective (Fin.ext (mergeSubscript_inj h.goodName h'))
      exact Fin.succAbove_ne d _ this) hwf hdec hreal
  obtain ⟨vals, v1, v2, v3⟩ := c3 ρ
  refine ⟨vals, ρ, ?_, hρp, hρz, r2, ?_, ?_⟩
  · rw [← v1.length_eq, c2]
    unfold affinePoly
    simp only [patchSymbols_single h, List.mem_singleton]
  · intro r
    obtain ⟨vals', w1, _, w3⟩ := c3 (Function.update ρ x r)
    have : vals' = vals := forall₂_unique w1 (v2 r)
    subst this
    rw [callAt_ok _ hwf hdec hreal, Function.update_self, eval_affinePoly] at w3
    rw [← Except.ok.inj w3]
    congr 2
    funext s
    simp only [patchSymbols_single h, List.mem_singleton]
    split_ifs with hs
    · rw [hs, Function.update_of_ne, hρp]
      intro h'
      exact Fin.succAbove_ne p _ (Fin.ext (mergeSubscript_inj h.goodName h').symm)
    · rfl
  · intro V hV roots
    have hcall : ∀ u ∈ cs, callCoeff [.vec (List.ofFn zs), .vec ps] u = u.callAt ρ := by
      intro u hu
      cases u with
      | num c => rfl
      | poly Q =>
        have hQ := univariate_md c1 _ hu Q rfl
        rw [hmd, constMeta_affine hn h] at hQ
        unfold callCoeff UCoeff.callAt PolyObj.callAt
        simp only
        rw [hQ]
        congr 1
        simp only [Meta.inputs, List.map_cons, List.map_nil, varInput, Meta.paramInput, List.cons_append,
          List.nil_append]
        rw [← ofFn_succAbove₂ (fun i => ρ (mergeSubscript name i))]
        simp only [hρz]
        congr 3
        exact r2.symm
    have hm : cs.mapM (callCoeff [.vec (List.ofFn zs), .vec ps]) = .ok vals := by
      apply mapM_of_forall₂
      have hcs : ∀ l vs, (∀ u ∈ l, callCoeff [.vec (List.ofFn zs), .vec ps] u = u.callAt ρ) →
          List.Forall₂ (fun (u : UCoeff) v => u.callAt ρ = .ok v) l vs →
          List.Forall₂ (fun u v => callCoeff [.vec (List.ofFn zs), .vec ps] u = .ok v) l vs := by
        intro l vs hl hf
        induction hf with
        | nil => exact .nil
        | cons hh _ ih =>
          exact .cons (by rw [hl _ (by simp)]; exact hh) (ih fun u hu => hl u (by simp [hu]))
      exact hcs cs vals hcall v1
    have hsym : P.md.varSyms[((p.succAbove d : Fin (n + 2)) : ℕ)]? = some x := by
      unfold Meta.varSyms
      simp only [h.vars, List.flatMap_cons, List.flatMap_nil, List.append_nil, varSymbols]
      rw [List.getElem?_map, List.getElem?_range (Fin.isLt _)]
      rfl
    unfold solveDefining
    simp only [hV]
    rw [(affinePolyCached_spec P _ (initCache_ok P) _ (validPatch h p)).1, indexAffineToHom_succAbove, hsym]
    simp only [c1, hm]
    congr 2
    funext r
    exact roll_insert zs r d

end Cyjax.Variety
