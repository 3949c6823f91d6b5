import Verif.Lemmas.SolveKinds
import Verif.Lemmas.ExampleCubic

/-! # Solving for one coordinate (C34)

The root finder is any function that is exact for a non-zero leading coefficient (`ExactRoots`). -/

namespace Cyjax

open Cyjax.Polynomial Cyjax.Variety Cyjax.Projective MvPolynomial

/-- C34: with `c, cs` the coefficients of the defining equation in the dependent coordinate (their number is
given by its degree in the polynomial of the patch), every point returned has the given coordinates, in order, at
the other positions and satisfies the defining equation in the patch. There are as many as the degree. -/
theorem C34_solutions_partial (P : PolyObj) (name : List Char) (n : ℕ) (hn : 0 < n) (h : Proper P name (n + 1))
    (patch : Fin (n + 2)) (hp : HasPatch P name patch) (dep : Fin (n + 1)) (zs : Fin n → ℂ) (ps : List ℂ)
    (hps : ps.length = P.md.params.length) (roots : List ℂ → List ℂ) (hr : ExactRoots roots) :
    ∃ c cs, cs.length = degreeOf (mergeSubscript name (patch.succAbove dep))
        (bind₁ (fun s => if s = mergeSubscript name patch then 1 else X s) P.poly) ∧
      (∀ r, defining (.generic P) (List.ofFn (dep.insertNth (α := fun _ => ℂ) r zs)) (.vec ps)
        (some (.index patch)) = .ok (polyval (c :: cs) r)) ∧
      (c ≠ 0 → ∃ pts, solveDefining (.generic P) roots zs ps dep (some patch) = .ok pts ∧
        pts.length = cs.length ∧ ∀ pt ∈ pts, (∀ k, pt (dep.succAbove k) = zs k) ∧
          defining (.generic P) (List.ofFn pt) (.vec ps) (some (.index patch)) = .ok 0) := by
  obtain ⟨vals, ρ, v0, v1, v2, v3, v4, v5⟩ := solve_coeffs hn h patch dep zs ps hps
  cases vals with
  | nil => simp at v0
  | cons c cs =>
    have hdef : ∀ r, defining (.generic P) (List.ofFn (dep.insertNth (α := fun _ => ℂ) r zs)) (.vec ps)
        (some (.index patch)) = .ok (polyval (c :: cs) r) := by
      intro r
      set x := mergeSubscript name (patch.succAbove dep : Fin (n + 2)) with hx
      have h1 := defining_patch h patch hp (Function.update ρ x r) (by
        rw [hx, update_coord h, if_neg, v1]
        exact fun h' => Fin.succAbove_ne patch dep (Fin.ext h'.symm))
      rw [v4] at h1
      rw [← h1]
      congr 2
      · funext k
        rw [hx, update_coord h]
        rcases Fin.eq_self_or_eq_succAbove dep k with hk | ⟨j, hk⟩
        · subst hk; simp
        · subst hk
          rw [if_neg, v2, Fin.insertNth_apply_succAbove]
          intro h'
          exact Fin.succAbove_ne dep j (Fin.succAbove_right_injective (Fin.ext h'))
      · rw [hx, update_params h, v3]
    refine ⟨c, cs, by simpa using v0, hdef, fun hc => ⟨_, v5 (.generic P) rfl roots, ?_, ?_⟩⟩
    · rw [List.length_map, (hr c cs hc).1]
    · intro pt hpt
      rw [List.mem_map] at hpt
      obtain ⟨r, hr1, rfl⟩ := hpt
      refine ⟨fun k => Fin.insertNth_apply_succAbove _ _ _ _, ?_⟩
      rw [hdef, (hr c cs hc).2 r hr1]

/-- C34 for Dwork varieties: there is no exceptional input, and there are `n + 2` solutions. -/
theorem C34_dwork (n : ℕ) (hn : 0 < n) (f : DworkFactor) (hf : f.value.im = 0) (patch : Fin (n + 2))
    (dep : Fin (n + 1)) (zs : Fin n → ℂ) (psi : ℂ) (roots : List ℂ → List ℂ) (hr : ExactRoots roots) :
    ∃ pts, solveDefining (.dwork (n + 2) f) roots zs [psi] dep (some patch) = .ok pts ∧ pts.length = n + 2 ∧
      ∀ pt ∈ pts, (∀ k, pt (dep.succAbove k) = zs k) ∧
        1 + (∑ j, pt j ^ (n + 2) + f.value * psi * ∏ j, pt j) = 0 ∧
        defining (.dwork (n + 2) f) (List.ofFn pt) (.vec [psi]) (some (.index patch)) = .ok 0 := by
  obtain ⟨P, o1, o2, o3, o4, o5⟩ := dwork_obj (n + 1) f hf
  obtain ⟨vals, ρ, v0, v1, v2, v3, v4, v5⟩ := solve_coeffs hn o2 patch dep zs [psi] (by rw [o3]; rfl)
  have hpsi : ρ "psi".toList = psi := by
    rw [Meta.paramInput, o3] at v3
    simpa [dworkMeta] using v3
  have hval : ∀ r, polyval vals r = 1 + (r ^ (n + 2) + ∑ j, zs j ^ (n + 2) + f.value * psi * (r * ∏ j, zs j)) := by
    intro r
    have hc : ∀ k : Fin n, Function.update ρ (mergeSubscript "z".toList (patch.succAbove dep : Fin (n + 2))) r
        (mergeSubscript "z".toList (patch.succAbove (dep.succAbove k) : Fin (n + 2))) = zs k := by
      intro k
      rw [update_coord o2, if_neg, v2]
      intro h'
      exact Fin.succAbove_ne dep k (Fin.succAbove_right_injective (Fin.ext h'))
    have hq : Function.update ρ (mergeSubscript "z".toList (patch.succAbove dep : Fin (n + 2))) r
        (mergeSubscript "z".toList (patch : ℕ)) = 1 := by
      rw [update_coord o2, if_neg, v1]
      exact fun h' => Fin.succAbove_ne patch dep (Fin.ext h'.symm)
    have hs : Function.update ρ (mergeSubscript "z".toList (patch.succAbove dep : Fin (n + 2))) r "psi".toList = psi := by
      rw [Function.update_of_ne (merge_ne_psi _).symm, hpsi]
    rw [← v4, o4, Fin.sum_univ_succAbove _ patch, Fin.sum_univ_succAbove _ dep, Fin.prod_univ_succAbove _ patch,
      Fin.prod_univ_succAbove _ dep]
    simp only [hc, hq, hs, Function.update_self]
    ring
  obtain ⟨cs, rfl, hcs⟩ := monic_coeffs vals (n + 2) (by rw [v0]; exact Nat.succ_le_succ (o5 _ _))
    (_root_.Polynomial.X ^ (n + 2) + _root_.Polynomial.C (f.value * psi * ∏ j, zs j) * _root_.Polynomial.X +
      _root_.Polynomial.C (1 + ∑ j, zs j ^ (n + 2))) (by
      rw [_root_.Polynomial.coeff_add, _root_.Polynomial.coeff_add, _root_.Polynomial.coeff_X_pow,
        _root_.Polynomial.coeff_C_mul, _root_.Polynomial.coeff_X, _root_.Polynomial.coeff_C]
      rw [if_pos rfl, if_neg (by omega), if_neg (by omega)]
      simp) (by
      intro r
      rw [hval]
      simp only [_root_.Polynomial.eval_add, _root_.Polynomial.eval_mul, _root_.Polynomial.eval_pow,
        _root_.Polynomial.eval_X, _root_.Polynomial.eval_C]
      ring)
  refine ⟨_, v5 _ o1 roots, by rw [List.length_map, (hr 1 cs one_ne_zero).1, hcs], ?_⟩
  intro pt hpt
  rw [List.mem_map] at hpt
  obtain ⟨r, hr1, rfl⟩ := hpt
  have h0 := (hr 1 cs one_ne_zero).2 r hr1
  rw [hval] at h0
  have h1 : 1 + (∑ j, dep.insertNth (α := fun _ => ℂ) r zs j ^ (n + 2) +
      f.value * psi * ∏ j, dep.insertNth (α := fun _ => ℂ) r zs j) = 0 := by
    rw [Fin.sum_univ_succAbove _ dep, Fin.prod_univ_succAbove _ dep]
    simpa only [Fin.insertNth_apply_same, Fin.insertNth_apply_succAbove] using h0
  refine ⟨fun k => Fin.insertNth_apply_succAbove _ _ _ _, h1, ?_⟩
  rw [defining_dwork_patch]
  exact congrArg Except.ok h1

/-- C34 for Fermat varieties. -/
theorem C34_fermat (n : ℕ) (hn : 0 < n) (patch : Fin (n + 2))
    (dep : Fin (n + 1)) (zs : Fin n → ℂ) (roots : List ℂ → List ℂ) (hr : ExactRoots roots) :
    ∃ pts, solveDefining (.fermat (n + 2)) roots zs [] dep (some patch) = .ok pts ∧ pts.length = n + 2 ∧
      ∀ pt ∈ pts, (∀ k, pt (dep.succAbove k) = zs k) ∧ 1 + ∑ j, pt j ^ (n + 2) = 0 ∧
        defining (.fermat (n + 2)) (List.ofFn pt) (.vec []) (some (.index patch)) = .ok 0 := by
  obtain ⟨P, o1, o2, o3, o4, o5⟩ := fermat_obj (n + 1)
  obtain ⟨vals, ρ, v0, v1, v2, v3, v4, v5⟩ := solve_coeffs hn o2 patch dep zs [] (by rw [o3]; rfl)
  have hval : ∀ r, polyval vals r = 1 + (r ^ (n + 2) + ∑ j, zs j ^ (n + 2)) := by
    intro r
    have hc : ∀ k : Fin n, Function.update ρ (mergeSubscript "z".toList (patch.succAbove dep : Fin (n + 2))) r
        (mergeSubscript "z".toList (patch.succAbove (dep.succAbove k) : Fin (n + 2))) = zs k := by
      intro k
      rw [update_coord o2, if_neg, v2]
      intro h'
      exact Fin.succAbove_ne dep k (Fin.succAbove_right_injective (Fin.ext h'))
    have hq : Function.update ρ (mergeSubscript "z".toList (patch.succAbove dep : Fin (n + 2))) r
        (mergeSubscript "z".toList (patch : ℕ)) = 1 := by
      rw [update_coord o2, if_neg, v1]
      exact fun h' => Fin.succAbove_ne patch dep (Fin.ext h'.symm)
    rw [← v4, o4, Fin.sum_univ_succAbove _ patch, Fin.sum_univ_succAbove _ dep]
    simp only [hc, hq, Function.update_self]
    ring
  obtain ⟨cs, rfl, hcs⟩ := monic_coeffs vals (n + 2) (by rw [v0]; exact Nat.succ_le_succ (o5 _ _))
    (_root_.Polynomial.X ^ (n + 2) + _root_.Polynomial.C (1 + ∑ j, zs j ^ (n + 2))) (by
      rw [_root_.Polynomial.coeff_add, _root_.Polynomial.coeff_X_pow, _root_.Polynomial.coeff_C]
      rw [if_pos rfl, if_neg (by omega)]
      simp) (by
      intro r
      rw [hval]
      simp only [_root_.Polynomial.eval_add, _root_.Polynomial.eval_pow,
        _root_.Polynomial.eval_X, _root_.Polynomial.eval_C]
      ring)
  refine ⟨_, v5 _ o1 roots, by rw [List.length_map, (hr 1 cs one_ne_zero).1, hcs], ?_⟩
  intro pt hpt
  rw [List.mem_map] at hpt
  obtain ⟨r, hr1, rfl⟩ := hpt
  have h0 := (hr 1 cs one_ne_zero).2 r hr1
  rw [hval] at h0
  have h1 : 1 + ∑ j, dep.insertNth (α := fun _ => ℂ) r zs j ^ (n + 2) = 0 := by
    rw [Fin.sum_univ_succAbove _ dep]
    simpa only [Fin.insertNth_apply_same, Fin.insertNth_apply_succAbove] using h0
  refine ⟨fun k => Fin.insertNth_apply_succAbove _ _ _ _, h1, ?_⟩
  rw [defining_fermat_patch]
  exact congrArg Except.ok h1

/-- C34 fails for homogeneous coordinates: with `patch=None`, which the signature allows and even has as default,
the call raises whatever the input. -/
theorem C34_no_patch_violated (V : HomKind) (roots : List ℂ → List ℂ) {n : ℕ} (zs : Fin n → ℂ) (ps : List ℂ)
    (dep : ℕ) : ¬ ∃ pts, solveDefining V roots zs ps dep none = .ok pts := by
  rintro ⟨pts, h⟩
  cases h

/-- The quintic: five solutions for the coordinate `2` in patch `1`. -/
example (psi : ℂ) : ∃ pts, solveDefining (.dwork 5 (.flag true)) someRoots ![1, 2, 0] [psi] 2 (some 1) = .ok pts ∧
    pts.length = 5 := by
  obtain ⟨pts, h1, h2, _⟩ := C34_dwork 3 (by norm_num) (.flag true) (by simp [DworkFactor.value]) 1 2 ![1, 2, 0] psi
    someRoots someRoots_exact
  exact ⟨pts, h1, h2⟩

/-- The hypotheses of `C34_solutions_partial` are met by the cubic family. -/
example (psi z : ℂ) : ∃ c cs, (∀ r, defining (.generic cubic) (List.ofFn ((0 : Fin 2).insertNth (α := fun _ => ℂ) r ![z]))
    (.vec [psi]) (some (.index 2)) = .ok (polyval (c :: cs) r)) := by
  obtain ⟨c, cs, _, h, _⟩ := C34_solutions_partial cubic "z".toList 1 (by norm_num) cubic_proper 2
    (cubic_patch 2) 0 ![z] [psi] rfl someRoots someRoots_exact
  exact ⟨c, cs, h⟩

end Cyjax
