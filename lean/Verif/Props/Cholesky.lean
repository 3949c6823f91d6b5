import Verif.Lemmas.Cholesky

/-! # Cholesky parametrisation of Hermitian matrices (C76 - C79) -/

namespace Cyjax

open Cyjax.Ml Matrix
open scoped ComplexOrder

/-! ## C76 -/

/-- **C76.** `cholesky_decode` accepts the data of an upper triangular matrix: the diagonal and the entries above it,
row by row; the result is the product of that matrix with its conjugate transpose. -/
theorem C76_decode {n : ℕ} (diag : Fin n → ℝ) (upper : List ℂ) (h : 2 * upper.length = n * (n - 1)) :
    ∃ M : Matrix (Fin n) (Fin n) ℂ, (∀ i j, j < i → M i j = 0) ∧ (∀ i, M i i = diag i) ∧ rowsAbove M = upper ∧
      choleskyDecode diag upper = .ok (M * Mᴴ) := by
  obtain ⟨M, h1, h2, h3⟩ := fill_ok diag upper (by have := triu_length n; omega)
  refine ⟨M, h2.lower, h2.diag, h3, ?_⟩
  rw [← h3]
  exact decode_of_upper h2

/-- **C76.** Whatever is accepted is decoded to a Hermitian, positive semi-definite matrix, which is positive definite
if and only if no diagonal entry is zero. -/
theorem C76_posSemidef {n : ℕ} (diag : Fin n → ℝ) (upper : List ℂ) (A : Matrix (Fin n) (Fin n) ℂ)
    (h : choleskyDecode diag upper = .ok A) :
    A.IsHermitian ∧ A.PosSemidef ∧ (A.PosDef ↔ ∀ i, diag i ≠ 0) := by
  unfold choleskyDecode at h
  cases hM : setEntries (Matrix.diagonal fun i => (diag i : ℂ)) (triuIndices n) upper with
  | error e => rw [hM] at h; cases h
  | ok M =>
    rw [hM] at h
    have hA : M * Mᴴ = A := Except.ok.inj h
    subst hA
    have hps := Matrix.posSemidef_self_mul_conjTranspose M
    refine ⟨hps.isHermitian, hps, ?_⟩
    rw [posDef_mul_iff, det_upper (fill_upper hM), Finset.prod_ne_zero_iff]
    simp

/-- **C76.** Arrays of any other length are rejected, except that a single number is used for all entries. -/
theorem C76_accepts {n : ℕ} (diag : Fin n → ℝ) (upper : List ℂ) :
    (∃ A, choleskyDecode diag upper = .ok A) ↔ 2 * upper.length = n * (n - 1) ∨ upper.length = 1 :=
  decode_isOk diag upper

/-- A matrix with a zero on the diagonal is not positive definite; with ones it is. -/
example : ∃ A, choleskyDecode ![1, 0] [Complex.I] = .ok A ∧ ¬ A.PosDef := by
  obtain ⟨A, h⟩ := (C76_accepts ![1, 0] [Complex.I]).2 (Or.inr rfl)
  refine ⟨A, h, fun hp => ?_⟩
  exact ((C76_posSemidef _ _ A h).2.2.1 hp) 1 rfl

example : ∃ A, choleskyDecode ![1, 1, 2] [Complex.I, 2, 3] = .ok A ∧ A.PosDef := by
  obtain ⟨A, h⟩ := (C76_accepts ![1, 1, 2] [Complex.I, 2, 3]).2 (Or.inl rfl)
  refine ⟨A, h, (C76_posSemidef _ _ A h).2.2.2 fun i => ?_⟩
  fin_cases i <;> simp

/-! ## C77 -/

/-- **C77.** Every positive definite matrix is `cholesky_decode` of exactly one pair of a positive diagonal and an array
of entries above the diagonal. -/
theorem C77_complete {n : ℕ} (A : Matrix (Fin n) (Fin n) ℂ) (hA : A.PosDef) :
    ∃! x : (Fin n → ℝ) × List ℂ, (∀ i, 0 < x.1 i) ∧ 2 * x.2.length = n * (n - 1) ∧
      choleskyDecode x.1 x.2 = .ok A := by
  obtain ⟨M, d, h1, h2, h3⟩ := exists_upper A hA
  refine ⟨(d, rowsAbove M), ⟨h2, ?_, ?_⟩, ?_⟩
  · rw [rowsAbove_eq, List.length_map, triu_length]
  · rw [h3]; exact decode_of_upper h1
  · rintro ⟨e, u⟩ ⟨g1, g2, g3⟩
    simp only at g1 g2 g3
    obtain ⟨N, n1, n2, n3⟩ := fill_ok e u (by have := triu_length n; omega)
    have hd := decode_of_upper n2
    rw [n3, g3, h3] at hd
    have hMN := upper_unique h1 n2 h2 g1 (Except.ok.inj hd)
    subst hMN
    refine Prod.ext ?_ n3.symm
    funext i
    have := (n2.diag i).symm.trans (h1.diag i)
    exact_mod_cast this

private theorem zip_parts (a b : List ℝ) (h : a.length = b.length) :
    (List.zipWith (fun (r i : ℝ) => (r : ℂ) + Complex.I * (i : ℂ)) a b).map Complex.re = a ∧
      (List.zipWith (fun (r i : ℝ) => (r : ℂ) + Complex.I * (i : ℂ)) a b).map Complex.im = b := by
  constructor
  · apply List.ext_getElem
    · simp [h]
    · intro k h1 h2; simp
  · apply List.ext_getElem
    · simp [h]
    · intro k h1 h2; simp

/-- **C77.** The same for the single real array read by `cholesky_from_param`: every positive definite `n × n` matrix
comes from exactly one array of size `n ^ 2` whose first `n` entries are positive. -/
theorem C77_from_param {n : ℕ} (A : Matrix (Fin n) (Fin n) ℂ) (hA : A.PosDef) :
    ∃! h : List ℝ, h.length = n ^ 2 ∧ (∀ i < n, 0 < h.getD i 0) ∧ choleskyFromParam h = .ok ⟨n, A⟩ := by
  obtain ⟨M, d, h1, h2, h3⟩ := exists_upper A hA
  have hlen : 2 * (rowsAbove M).length = n * (n - 1) := by rw [rowsAbove_eq, List.length_map, triu_length]
  obtain ⟨s1, s2⟩ := square_even n
  have hn : n ≤ n ^ 2 := Nat.le_self_pow two_ne_zero n
  have hk : (n ^ 2 - n) / 2 = (rowsAbove M).length := by omega
  have unique : ∀ (h h' : List ℝ), h.length = n ^ 2 → h'.length = n ^ 2 → (∀ i < n, 0 < h.getD i 0) →
      (∀ i < n, 0 < h'.getD i 0) → choleskyFromParam h = .ok ⟨n, A⟩ → choleskyFromParam h' = .ok ⟨n, A⟩ → h = h' := by
    intro h h' l l' p p' c c'
    obtain ⟨N, n1, n2, n3⟩ := from_param_square h l
    obtain ⟨N', n1', n2', n3'⟩ := from_param_square h' l'
    rw [c] at n3
    rw [c'] at n3'
    have e1 : A = N * Nᴴ := by
      have := Except.ok.inj n3
      simpa using this
    have e2 : A = N' * N'ᴴ := by
      have := Except.ok.inj n3'
      simpa using this
    have hN := upper_unique n1 n1' (fun i => p i i.2) (fun i => p' i i.2) (e1.symm.trans e2)
    subst hN
    have hz := n2.symm.trans n2'
    have hp := zip_parts ((h.drop n).take ((n ^ 2 - n) / 2)) ((h.drop n).drop ((n ^ 2 - n) / 2)) (by
      simp only [List.length_take, List.length_drop]; omega)
    have hp' := zip_parts ((h'.drop n).take ((n ^ 2 - n) / 2)) ((h'.drop n).drop ((n ^ 2 - n) / 2)) (by
      simp only [List.length_take, List.length_drop]; omega)
    rw [hz] at hp
    have r1 := hp.1.symm.trans hp'.1
    have r2 := hp.2.symm.trans hp'.2
    have hdrop : h.drop n = h'.drop n := by
      rw [← List.take_append_drop ((n ^ 2 - n) / 2) (h.drop n), r1, r2, List.take_append_drop]
    have htake : h.take n = h'.take n := by
      apply List.ext_getElem
      · simp [l, l']
      · intro k g1 g2
        rw [List.length_take] at g1 g2
        have := (n1.diag ⟨k, by omega⟩).symm.trans (n1'.diag ⟨k, by omega⟩)
        rw [Complex.ofReal_inj] at this
        simp only [List.getD_eq_getElem?_getD] at this
        rw [List.getElem?_eq_getElem (by omega), List.getElem?_eq_getElem (by omega)] at this
        simpa using this
    rw [← List.take_append_drop n h, htake, hdrop, List.take_append_drop]
  set h0 : List ℝ := List.ofFn d ++ ((rowsAbove M).map Complex.re ++ (rowsAbove M).map Complex.im) with hh0
  have hl0 : h0.length = n ^ 2 := by
    simp only [hh0, List.length_append, List.length_ofFn, List.length_map]
    omega
  have hd0 : ∀ i : Fin n, h0.getD i 0 = d i := by
    intro i
    rw [List.getD_eq_getElem?_getD, hh0, List.getElem?_append_left (by simp)]
    simp
  have hdrop0 : h0.drop n = (rowsAbove M).map Complex.re ++ (rowsAbove M).map Complex.im := by
    rw [hh0]
    exact List.drop_left' (by simp)
  have hpos0 : ∀ i < n, 0 < h0.getD i 0 := fun i hi => by
    have := hd0 ⟨i, hi⟩
    simp only at this
    rw [this]; exact h2 _
  have hval : choleskyFromParam h0 = .ok ⟨n, A⟩ := by
    obtain ⟨N, n1, n2, n3⟩ := from_param_square h0 hl0
    rw [hdrop0, hk, List.take_left' (by simp), List.drop_left' (by simp)] at n2
    have hrows : rowsAbove N = rowsAbove M := by
      rw [n2]
      apply List.ext_getElem
      · simp
      · intro k g1 g2
        simp only [List.getElem_zipWith, List.getElem_map]
        rw [mul_comm]
        exact Complex.re_add_im _
    have hN : N = M := isUpper_ext (d := d) ⟨n1.lower, fun i => by rw [n1.diag, hd0]⟩ h1 hrows
    rw [n3, hN, h3]
  exact ⟨h0, ⟨hl0, hpos0, hval⟩, fun h' ⟨l', p', c'⟩ => unique h' h0 l' hl0 p' hpos0 c' hval⟩

/-- The identity is positive definite. -/
example : ∃! h : List ℝ, h.length = 3 ^ 2 ∧ (∀ i < 3, 0 < h.getD i 0) ∧
    choleskyFromParam h = .ok ⟨3, (1 : Matrix (Fin 3) (Fin 3) ℂ)⟩ := C77_from_param 1 Matrix.PosDef.one

/-! ## C78 -/

/-- **C78.** An array is accepted exactly if its size is a perfect square. -/
theorem C78_sizes (h : List ℝ) : (∃ r, choleskyFromParam h = .ok r) ↔ ∃ n, h.length = n ^ 2 := by
  constructor
  · rintro ⟨r, hr⟩
    exact from_param_isOk h r hr
  · rintro ⟨n, hn⟩
    obtain ⟨M, _, _, h3⟩ := from_param_square h hn
    exact ⟨_, h3⟩

/-- **C78.** For size `n ^ 2`, the first `n` entries are the diagonal, the next `n (n - 1) / 2` the real parts and the
rest the imaginary parts of the entries above the diagonal, row by row. -/
theorem C78_blocks {n : ℕ} (h : List ℝ) (hl : h.length = n ^ 2) :
    ∃ M : Matrix (Fin n) (Fin n) ℂ, (∀ i j, j < i → M i j = 0) ∧ (∀ i : Fin n, M i i = (h.getD i 0 : ℝ)) ∧
      (rowsAbove M).length = (n ^ 2 - n) / 2 ∧
      (∀ k, k < (n ^ 2 - n) / 2 → (rowsAbove M)[k]? =
        some ((h.getD (n + k) 0 : ℝ) + Complex.I * (h.getD (n + (n ^ 2 - n) / 2 + k) 0 : ℝ))) ∧
      choleskyFromParam h = .ok ⟨n, M * Mᴴ⟩ := by
  obtain ⟨M, h1, h2, h3⟩ := from_param_square h hl
  obtain ⟨s1, s2⟩ := square_even n
  have hn : n ≤ n ^ 2 := Nat.le_self_pow two_ne_zero n
  refine ⟨M, h1.lower, h1.diag, ?_, ?_, h3⟩
  · rw [h2]
    simp only [List.length_zipWith, List.length_take, List.length_drop, hl]
    omega
  · intro k hk
    rw [h2, List.getElem?_zipWith, List.getElem?_take_of_lt hk, List.getElem?_drop, List.getElem?_drop,
      List.getElem?_drop, List.getElem?_eq_getElem (by omega), List.getElem?_eq_getElem (by omega)]
    simp only [List.getD_eq_getElem?_getD]
    rw [List.getElem?_eq_getElem (by omega), List.getElem?_eq_getElem (by omega)]
    simp [add_assoc]

/-- Nine numbers are a `3 × 3` matrix; ten are rejected. -/
example : (∃ r, choleskyFromParam (List.replicate 9 1) = .ok r) ∧
    ¬ ∃ r, choleskyFromParam (List.replicate 10 1) = .ok r := by
  refine ⟨(C78_sizes _).2 ⟨3, by simp⟩, fun h => ?_⟩
  obtain ⟨n, hn⟩ := (C78_sizes _).1 h
  simp only [List.length_replicate] at hn
  have : n < 4 := by nlinarith
  interval_cases n <;> omega

/-! ## C79 -/

theorem cholesky_init_value {n : ℕ} (c : ℕ → ℝ) :
    choleskyFromParam ((List.range n).map c ++ (List.replicate (n ^ 2) 0).drop n) =
      .ok ⟨n, Matrix.diagonal fun i : Fin n => ((c i : ℝ) : ℂ) ^ 2⟩ := by
  have hn : n ≤ n ^ 2 := Nat.le_self_pow two_ne_zero n
  set h := (List.range n).map c ++ (List.replicate (n ^ 2) 0).drop n with hh
  have hl : h.length = n ^ 2 := by simp [hh]; omega
  obtain ⟨M, h1, h2, h3⟩ := from_param_square h hl
  have hd : ∀ i : Fin n, h.getD i 0 = c i := by
    intro i
    rw [List.getD_eq_getElem?_getD, hh, List.getElem?_append_left (by simp)]
    simp
  have hdrop : h.drop n = List.replicate (n ^ 2 - n) 0 := by
    rw [hh, List.drop_left' (by simp), List.drop_replicate]
  have hM : M = Matrix.diagonal fun i : Fin n => ((c i : ℝ) : ℂ) := by
    refine isUpper_ext (d := fun i => c i) ⟨h1.lower, fun i => by rw [h1.diag, hd]⟩
      ⟨fun i j hij => Matrix.diagonal_apply_ne _ (ne_of_gt hij), fun i => Matrix.diagonal_apply_eq _ _⟩ ?_
    have hz : rowsAbove (Matrix.diagonal fun i : Fin n => ((c i : ℝ) : ℂ)) = List.replicate (triuIndices n).length 0 := by
      rw [rowsAbove_eq, List.eq_replicate_iff]
      refine ⟨List.length_map _, ?_⟩
      intro b hb
      rw [List.mem_map] at hb
      obtain ⟨x, hx, rfl⟩ := hb
      exact Matrix.diagonal_apply_ne _ (ne_of_lt ((mem_triu x.1 x.2).1 hx))
    rw [h2, hz, hdrop, List.take_replicate, List.drop_replicate, List.zipWith_replicate]
    obtain ⟨s1, s2⟩ := square_even n
    have := triu_length n
    congr 1
    · omega
    · simp
  rw [h3, hM, Matrix.diagonal_conjTranspose, Matrix.diagonal_mul_diagonal]
  congr 3
  funext i
  simp [pow_two]

/-- **C79.** Without fluctuation, the initial parameters decode to the identity matrix. -/
theorem C79_identity (n : ℕ) (noise : ℕ → ℝ) :
    choleskyFromParam (hermitianParamInit n none noise) = .ok ⟨n, (1 : Matrix (Fin n) (Fin n) ℂ)⟩ := by
  have := cholesky_init_value (n := n) fun _ => 1
  unfold hermitianParamInit
  have hr : List.replicate n (1 : ℝ) = (List.range n).map fun _ => 1 := by simp
  simp only
  rw [hr, this]
  congr 2
  simp

/-- **C79.** With fluctuation `f` and normal draws `noise`, they decode to the diagonal matrix with entries
`(1 + f noise_i) ^ 2`. -/
theorem C79_fluctuation (n : ℕ) (f : ℝ) (noise : ℕ → ℝ) :
    choleskyFromParam (hermitianParamInit n (some f) noise) =
      .ok ⟨n, Matrix.diagonal fun i : Fin n => ((1 + noise i * f : ℝ) : ℂ) ^ 2⟩ :=
  cholesky_init_value fun i => 1 + noise i * f

/-- **C79.** The decoded matrix is positive definite unless some draw cancels the one. -/
theorem C79_posDef (n : ℕ) (f : ℝ) (noise : ℕ → ℝ) (h : ∀ i < n, 1 + noise i * f ≠ 0) :
    ∃ A, choleskyFromParam (hermitianParamInit n (some f) noise) = .ok ⟨n, A⟩ ∧ A.PosDef := by
  refine ⟨_, C79_fluctuation n f noise, ?_⟩
  rw [Matrix.posDef_diagonal_iff]
  intro i
  have : 0 < (1 + noise i * f) ^ 2 := by have := h i i.2; positivity
  exact_mod_cast this

example : ∃ A, choleskyFromParam (hermitianParamInit 4 (some (1 / 10)) fun i => (-1) ^ i) = .ok ⟨4, A⟩ ∧ A.PosDef :=
  C79_posDef _ _ _ fun i hi => by interval_cases i <;> norm_num

end Cyjax
