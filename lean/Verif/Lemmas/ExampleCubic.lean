import Verif.Lemmas.Homogeneous

/-! A concrete variety, the family of cubics `z0^3 + z1^3 + z2^3 + psi z0 z1 z2`, used to show that the hypotheses
of theorems can be met -/

namespace Cyjax.Variety

open Cyjax.Polynomial MvPolynomial

/-- The symbol `z_i`. -/
def zSym (i : ℕ) : Sym := mergeSubscript "z".toList i

/-- The cubic as object made by `HomPoly.from_sympy`. -/
noncomputable def cubic : PolyObj :=
  ⟨⟨[("z".toList, some (List.range 3))], ["psi".toList]⟩,
    X (zSym 0) ^ 3 + X (zSym 1) ^ 3 + X (zSym 2) ^ 3 + X "psi".toList * (X (zSym 0) * X (zSym 1) * X (zSym 2)),
    [zSym 0, zSym 1, zSym 2]⟩

theorem goodZ : GoodName "z".toList := by decide

theorem HomogeneousIn.add {p q : MvPolynomial Sym ℂ} {name : List Char} {m d : ℕ} (hp : HomogeneousIn p name m d)
    (hq : HomogeneousIn q name m d) : HomogeneousIn (p + q) name m d := by
  intro mon hmon
  rcases Finset.mem_union.1 (support_add hmon) with h | h
  · exact hp mon h
  · exact hq mon h

theorem HomogeneousIn.mul {p q : MvPolynomial Sym ℂ} {name : List Char} {m d e : ℕ} (hp : HomogeneousIn p name m d)
    (hq : HomogeneousIn q name m e) : HomogeneousIn (p * q) name m (d + e) := by
  intro mon hmon
  obtain ⟨a, ha, b, hb, rfl⟩ := Finset.mem_add.1 (support_mul p q hmon)
  simp only [Finsupp.add_apply, Finset.sum_add_distrib, hp a ha, hq b hb]

theorem HomogeneousIn.one {name : List Char} {m : ℕ} : HomogeneousIn (1 : MvPolynomial Sym ℂ) name m 0 := by
  intro mon hmon
  have h1 : (1 : MvPolynomial Sym ℂ) = monomial 0 1 := rfl
  rw [h1] at hmon
  have := Finset.mem_singleton.1 (support_monomial_subset hmon)
  simp [this]

theorem HomogeneousIn.pow {p : MvPolynomial Sym ℂ} {name : List Char} {m d : ℕ} (hp : HomogeneousIn p name m d)
    (k : ℕ) : HomogeneousIn (p ^ k) name m (k * d) := by
  induction k with
  | zero => simpa using HomogeneousIn.one
  | succ k ih =>
    rw [pow_succ, Nat.succ_mul]
    exact ih.mul hp

theorem HomogeneousIn.coord {name : List Char} (hn : GoodName name) {m i : ℕ} (hi : i < m + 1) :
    HomogeneousIn (X (mergeSubscript name i)) name m 1 := by
  intro mon hmon
  rw [support_X, Finset.mem_singleton] at hmon
  rw [hmon, Finset.sum_eq_single i]
  · simp
  · intro j _ hj
    rw [Finsupp.single_eq_of_ne]
    intro h
    exact hj (merge_nat_inj hn h)
  · intro h; exact absurd (Finset.mem_range.2 hi) h

theorem HomogeneousIn.other {name : List Char} {m : ℕ} {s : Sym} (hs : ∀ i, s ≠ mergeSubscript name i) :
    HomogeneousIn (X s) name m 0 := by
  intro mon hmon
  rw [support_X, Finset.mem_singleton] at hmon
  rw [hmon]
  refine Finset.sum_eq_zero fun i _ => ?_
  rw [Finsupp.single_eq_of_ne (hs i).symm]

theorem cubic_wf : cubic.md.WF where
  namesNodup := by decide
  good := by
    intro v hv
    simp only [cubic, List.mem_singleton] at hv
    subst hv
    exact goodZ
  indsNodup := by
    intro v hv inds h
    simp only [cubic, List.mem_singleton] at hv
    subst hv
    simp only [Option.some.injEq] at h
    subst h
    exact List.nodup_range
  paramsNodup := by decide
  params := by
    intro s hs
    simp only [cubic, List.mem_singleton] at hs
    subst hs
    exact ⟨_, _, splitSubscript_good _ (by decide), by decide⟩

theorem cubic_proper : Proper cubic "z".toList 2 where
  vars := rfl
  wf := cubic_wf
  declared := by
    intro s hs
    have : s ∈ ({zSym 0, zSym 1, zSym 2, "psi".toList} : Finset Sym) := by
      classical
      have hX : ∀ t : Sym, (X t : MvPolynomial Sym ℂ).vars = {t} := fun t => vars_X
      have hpow : ∀ t : Sym, (X t ^ 3 : MvPolynomial Sym ℂ).vars ⊆ {t} := fun t =>
        (vars_pow _ _).trans (by rw [hX])
      rcases Finset.mem_union.1 (vars_add_subset _ _ hs) with h | h
      · rcases Finset.mem_union.1 (vars_add_subset _ _ h) with h | h
        · rcases Finset.mem_union.1 (vars_add_subset _ _ h) with h | h
          · have := hpow _ h; simp_all
          · have := hpow _ h; simp_all
        · have := hpow _ h; simp_all
      · rcases Finset.mem_union.1 (vars_mul _ _ h) with h | h
        · rw [hX] at h; simp_all
        · rcases Finset.mem_union.1 (vars_mul _ _ h) with h | h
          · rcases Finset.mem_union.1 (vars_mul _ _ h) with h | h
            · rw [hX] at h; simp_all
            · rw [hX] at h; simp_all
          · rw [hX] at h; simp_all
    have hall : ∀ t ∈ ({zSym 0, zSym 1, zSym 2, "psi".toList} : Finset Sym), t ∈ cubic.md.allSymbols := by
      intro t ht
      simp only [Finset.mem_insert, Finset.mem_singleton] at ht
      rcases ht with rfl | rfl | rfl | rfl <;>
        simp only [cubic, Meta.allSymbols, Meta.varSyms] <;> decide
    exact hall s this
  real := by
    rw [realCoeffs_iff]
    simp [cubic]

theorem psi_ne (i : ℕ) : "psi".toList ≠ mergeSubscript "z".toList i := by
  intro h
  exact cubic_proper.mem_params "psi".toList (by decide) i h

theorem cubic_homogeneous : HomogeneousIn cubic.poly "z".toList 2 3 := by
  have hz : ∀ i < 3, HomogeneousIn (X (zSym i)) "z".toList 2 1 := fun i hi => HomogeneousIn.coord goodZ hi
  have h0 := hz 0 (by omega)
  have h1 := hz 1 (by omega)
  have h2 := hz 2 (by omega)
  exact (((h0.pow 3).add (h1.pow 3)).add (h2.pow 3)).add
    ((HomogeneousIn.other (m := 2) psi_ne).mul ((h0.mul h1).mul h2))

theorem cubic_patch (p : Fin 3) : HasPatch cubic "z".toList p := by
  unfold HasPatch cubic
  fin_cases p
  · exact ⟨by decide, zSym 1, by decide, by decide⟩
  · exact ⟨by decide, zSym 0, by decide, by decide⟩
  · exact ⟨by decide, zSym 1, by decide, by decide⟩

/-- Values of the symbols at the point `(1, -1, 0)` with `psi = 5`. -/
noncomputable def cubicPoint : Sym → ℂ := fun s =>
  if s = zSym 0 then 1 else if s = zSym 1 then -1 else if s = "psi".toList then 5 else 0

theorem cubicPoint_values : cubicPoint (zSym 0) = 1 ∧ cubicPoint (zSym 1) = -1 ∧ cubicPoint (zSym 2) = 0 ∧
    cubicPoint "psi".toList = 5 := by
  have h1 : zSym 1 ≠ zSym 0 := by decide
  have h2 : zSym 2 ≠ zSym 0 := by decide
  have h3 : zSym 2 ≠ zSym 1 := by decide
  have h4 : zSym 2 ≠ "psi".toList := by decide
  have h5 : "psi".toList ≠ zSym 0 := by decide
  have h6 : "psi".toList ≠ zSym 1 := by decide
  refine ⟨?_, ?_, ?_, ?_⟩
  · simp [cubicPoint]
  · simp only [cubicPoint, if_neg h1, if_true]
  · simp only [cubicPoint, if_neg h2, if_neg h3, if_neg h4]
  · simp only [cubicPoint, if_neg h5, if_neg h6, if_true]

theorem cubicPoint_zero : eval cubicPoint cubic.poly = 0 := by
  obtain ⟨a, b, c, d⟩ := cubicPoint_values
  simp only [cubic, map_add, map_pow, map_mul, eval_X, a, b, c, d]
  norm_num

theorem cubicPoint_grad : eval cubicPoint (pderiv (zSym 1) cubic.poly) = 3 := by
  obtain ⟨a, b, c, d⟩ := cubicPoint_values
  have h1 : zSym 0 ≠ zSym 1 := by decide
  have h2 : zSym 2 ≠ zSym 1 := by decide
  have h3 : "psi".toList ≠ zSym 1 := by decide
  simp only [cubic, map_add, pderiv_pow, pderiv_mul, pderiv_X_of_ne h1, pderiv_X_of_ne h2, pderiv_X_of_ne h3,
    pderiv_X_self, map_pow, map_mul, map_zero, map_one, eval_X, a, b, c, d]
  norm_num

end Cyjax.Variety
