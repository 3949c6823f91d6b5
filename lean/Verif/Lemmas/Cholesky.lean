import Verif.Model.Ml
import Verif.Spec.Ml
import Mathlib.Analysis.Matrix.PosDef
import Mathlib.LinearAlgebra.Matrix.Block
import Mathlib.LinearAlgebra.Matrix.NonsingularInverse

/-! # Lemmas about the Cholesky parametrisation -/

namespace Cyjax.Ml

open Cyjax.Polynomial (PyErr)
open Matrix
open scoped ComplexOrder

theorem mem_triu {n : ℕ} (i j : Fin n) : (i, j) ∈ triuIndices n ↔ i < j := by
  simp [triuIndices]

theorem triu_nodup (n : ℕ) : (triuIndices n).Nodup := by
  unfold triuIndices
  rw [List.nodup_flatMap]
  refine ⟨fun i _ => ?_, ?_⟩
  · refine List.Nodup.map ?_ ((List.nodup_finRange n).filter _)
    intro a b h
    exact (Prod.mk.inj h).2
  · refine (List.nodup_finRange n).imp ?_
    intro a b hab
    simp only [Function.onFun, List.disjoint_left, List.mem_map, List.mem_filter]
    rintro x ⟨j, _, rfl⟩ ⟨k, _, hk⟩
    exact hab (Prod.mk.inj hk).1.symm

theorem triu_length (n : ℕ) : 2 * (triuIndices n).length = n * (n - 1) := by
  have h1 : (triuIndices n).length = ∑ i : Fin n, (n - 1 - (i : ℕ)) := by
    unfold triuIndices
    rw [List.length_flatMap, ← List.sum_ofFn, List.ofFn_eq_map]
    congr 1
    apply List.map_congr_left
    intro i _
    rw [List.length_map]
    have : ((List.finRange n).filter fun j => i < j).length = (Finset.Ioi i).card := by
      rw [← List.toFinset_card_of_nodup ((List.nodup_finRange n).filter _)]
      congr 1
      ext j
      simp
    rw [this, Fin.card_Ioi]
  rw [h1, Fin.sum_univ_eq_sum_range (fun i => n - 1 - i), Finset.sum_range_reflect (fun i => i) n, mul_comm,
    Finset.sum_range_id_mul_two]

theorem fold_other {n : ℕ} (l : List ((Fin n × Fin n) × ℂ)) (M : Matrix (Fin n) (Fin n) ℂ) (a b : Fin n)
    (h : (a, b) ∉ l.map Prod.fst) : l.foldl (fun M x => setEntry M x.1 x.2) M a b = M a b := by
  induction l generalizing M with
  | nil => rfl
  | cons x l ih =>
    rw [List.map_cons, List.mem_cons, not_or] at h
    rw [List.foldl_cons, ih _ h.2]
    unfold setEntry
    rw [if_neg h.1]

theorem fold_set {n : ℕ} (l : List ((Fin n × Fin n) × ℂ)) (hl : (l.map Prod.fst).Nodup)
    (M : Matrix (Fin n) (Fin n) ℂ) (x : (Fin n × Fin n) × ℂ) (hx : x ∈ l) :
    l.foldl (fun M x => setEntry M x.1 x.2) M x.1.1 x.1.2 = x.2 := by
  induction l generalizing M with
  | nil => simp at hx
  | cons y l ih =>
    rw [List.map_cons, List.nodup_cons] at hl
    rw [List.foldl_cons]
    rcases List.mem_cons.1 hx with rfl | hx
    · rw [fold_other _ _ _ _ hl.1]
      simp [setEntry]
    · exact ih hl.2 _ hx

theorem rowsAbove_eq {n : ℕ} (M : Matrix (Fin n) (Fin n) ℂ) :
    rowsAbove M = (triuIndices n).map fun x => M x.1 x.2 := by
  unfold rowsAbove triuIndices
  rw [← List.flatMap_def, List.map_flatMap]
  congr 1
  funext i
  rw [List.map_map]
  rfl

/-- The matrix that is filled by `cholesky_decode`. -/
theorem fill_ok {n : ℕ} (diag : Fin n → ℝ) (upper : List ℂ) (h : upper.length = (triuIndices n).length) :
    ∃ M, setEntries (Matrix.diagonal fun i => (diag i : ℂ)) (triuIndices n) upper = .ok M ∧ IsUpper M diag ∧
      rowsAbove M = upper := by
  refine ⟨_, by unfold setEntries; rw [if_pos h], ⟨?_, ?_⟩, ?_⟩
  · intro i j hij
    rw [fold_other]
    · rw [Matrix.diagonal_apply_ne _ (ne_of_gt hij)]
    · rw [List.map_fst_zip (by omega), mem_triu]
      exact not_lt.2 hij.le
  · intro i
    rw [fold_other]
    · rw [Matrix.diagonal_apply_eq]
    · rw [List.map_fst_zip (by omega), mem_triu]
      exact lt_irrefl i
  · rw [rowsAbove_eq]
    apply List.ext_getElem
    · rw [List.length_map, h]
    · intro k h1 h2
      rw [List.getElem_map]
      rw [List.length_map] at h1
      have hnd : (((triuIndices n).zip upper).map Prod.fst).Nodup := by
        rw [List.map_fst_zip (by omega)]; exact triu_nodup n
      exact fold_set _ hnd _ ((triuIndices n)[k], upper[k])
        (List.mem_iff_getElem.2 ⟨k, by simp; omega, by simp⟩)

theorem isUpper_ext {n : ℕ} {M N : Matrix (Fin n) (Fin n) ℂ} {d : Fin n → ℝ} (hM : IsUpper M d) (hN : IsUpper N d)
    (h : rowsAbove M = rowsAbove N) : M = N := by
  rw [rowsAbove_eq, rowsAbove_eq, List.map_inj_left] at h
  ext i j
  rcases lt_trichotomy i j with hij | rfl | hij
  · exact h (i, j) ((mem_triu i j).2 hij)
  · rw [hM.diag, hN.diag]
  · rw [hM.lower _ _ hij, hN.lower _ _ hij]

theorem conj_transpose_eq {n : ℕ} (M : Matrix (Fin n) (Fin n) ℂ) : (Mᵀ).map (starRingEnd ℂ) = Mᴴ := rfl

/-- `cholesky_decode` of the data of an upper triangular matrix. -/
theorem decode_of_upper {n : ℕ} {M : Matrix (Fin n) (Fin n) ℂ} {d : Fin n → ℝ} (h : IsUpper M d) :
    choleskyDecode d (rowsAbove M) = .ok (M * Mᴴ) := by
  obtain ⟨N, h1, h2, h3⟩ := fill_ok d (rowsAbove M) (by rw [rowsAbove_eq, List.length_map])
  unfold choleskyDecode
  rw [h1, isUpper_ext h h2 h3.symm]
  rfl

theorem det_upper {n : ℕ} {M : Matrix (Fin n) (Fin n) ℂ} {d : Fin n → ℝ} (h : IsUpper M d) :
    M.det = ∏ i, (d i : ℂ) := by
  rw [Matrix.det_of_upperTriangular (fun i j hij => h.lower i j hij)]
  exact Finset.prod_congr rfl fun i _ => h.diag i

theorem posDef_mul_iff {n : ℕ} (M : Matrix (Fin n) (Fin n) ℂ) : (M * Mᴴ).PosDef ↔ M.det ≠ 0 := by
  constructor
  · intro h h0
    have := h.det_pos
    rw [Matrix.det_mul, h0, zero_mul] at this
    exact lt_irrefl _ this
  · intro h
    have hu : IsUnit M := (Matrix.isUnit_iff_isUnit_det M).2 (isUnit_iff_ne_zero.2 h)
    apply Matrix.PosDef.mul_conjTranspose_self
    exact Matrix.vecMul_injective_of_isUnit hu

/-- One step of the Cholesky decomposition. -/
theorem exists_upper {n : ℕ} (A : Matrix (Fin n) (Fin n) ℂ) (hA : A.PosDef) :
    ∃ (M : Matrix (Fin n) (Fin n) ℂ) (d : Fin n → ℝ), IsUpper M d ∧ (∀ i, 0 < d i) ∧ A = M * Mᴴ := by
  induction n with
  | zero => exact ⟨0, 0, ⟨fun i => i.elim0, fun i => i.elim0⟩, fun i => i.elim0, by ext i; exact i.elim0⟩
  | succ n ih =>
    have hher := hA.isHermitian
    have hpos : 0 < A (Fin.last n) (Fin.last n) := hA.diag_pos
    obtain ⟨a, ha, haA⟩ : ∃ a : ℝ, 0 < a ∧ A (Fin.last n) (Fin.last n) = (a : ℂ) := by
      refine ⟨(A (Fin.last n) (Fin.last n)).re, ?_, ?_⟩
      · exact (Complex.lt_def.1 hpos).1
      · exact Complex.ext rfl (Complex.lt_def.1 hpos).2.symm
    set s : ℝ := Real.sqrt a with hs
    have hspos : 0 < s := Real.sqrt_pos.2 ha
    have hss : (s : ℂ) * s = a := by rw [← Complex.ofReal_mul, Real.mul_self_sqrt ha.le]
    have hs0 : (s : ℂ) ≠ 0 := by exact_mod_cast hspos.ne'
    set v : Fin n → ℂ := fun i => A i.castSucc (Fin.last n) / s with hv
    have hvA : ∀ i, A i.castSucc (Fin.last n) = v i * s := fun i => by rw [hv]; field_simp
    have hvA' : ∀ i, A (Fin.last n) i.castSucc = s * star (v i) := by
      intro i
      rw [← hher.apply, hvA, star_mul']
      simp [mul_comm]
    let B : Matrix (Fin n) (Fin n) ℂ := Matrix.of fun i j => A i.castSucc j.castSucc - v i * star (v j)
    have hB : B.PosDef := by
      apply Matrix.PosDef.of_dotProduct_mulVec_pos
      · ext i j
        simp only [B, conjTranspose_apply, of_apply, star_sub, star_mul', star_star, hher.apply]
        ring
      · intro x hx
        set t : ℂ := -(∑ j, star (v j) * x j) / s with ht
        have hq := hA.dotProduct_mulVec_pos (x := Fin.snoc (α := fun _ => ℂ) x t) (by
          intro h0
          apply hx
          funext i
          have := congrFun h0 i.castSucc
          simpa using this)
        refine lt_of_lt_of_eq hq ?_
        have hts : (s : ℂ) * t = -∑ j, star (v j) * x j := by rw [ht]; field_simp
        have hts' : (s : ℂ) * star t = -∑ j, v j * star (x j) := by
          have := congrArg star hts
          simp only [star_mul', star_neg, star_sum, star_star] at this
          simpa [mul_comm] using this
        have e1 : ∑ i, star (x i) * (∑ j, A i.castSucc j.castSucc * x j + v i * s * t) =
            ∑ i, star (x i) * ∑ j, A i.castSucc j.castSucc * x j + (s * t) * ∑ i, v i * star (x i) := by
          rw [Finset.mul_sum, ← Finset.sum_add_distrib]
          exact Finset.sum_congr rfl fun i _ => by ring
        have e2 : star t * (∑ j, s * star (v j) * x j + (s * s) * t) = 
            (s * star t) * (∑ j, star (v j) * x j) + (s * star t) * (s * t) := by
          simp only [mul_assoc, ← Finset.mul_sum]
          ring
        have e3 : ∀ i, star (x i) * ∑ j, (A i.castSucc j.castSucc - v i * star (v j)) * x j =
            star (x i) * ∑ j, A i.castSucc j.castSucc * x j -
              (v i * star (x i)) * ∑ j, star (v j) * x j := by
          intro i
          simp only [sub_mul, Finset.sum_sub_distrib, mul_sub, mul_assoc, ← Finset.mul_sum]
          ring
        simp only [dotProduct, mulVec, Fin.sum_univ_castSucc, Fin.snoc_castSucc, Fin.snoc_last, Pi.star_apply, hvA,
          hvA', haA, ← hss, B, of_apply]
        rw [e1, e2, Finset.sum_congr rfl fun i _ => e3 i, Finset.sum_sub_distrib, ← Finset.sum_mul, hts, hts']
        ring
    obtain ⟨N, d, h1, h2, h3⟩ := ih B hB
    refine ⟨Matrix.of fun i j => Fin.lastCases (motive := fun _ => ℂ)
      (Fin.lastCases (motive := fun _ => ℂ) (s : ℂ) v i)
      (fun j => Fin.lastCases (motive := fun _ => ℂ) 0 (fun i => N i j) i) j,
      Fin.snoc (α := fun _ => ℝ) d s, ⟨?_, ?_⟩, ?_, ?_⟩
    · intro i j
      refine Fin.lastCases ?_ (fun j => ?_) j
      · intro h; exact absurd h (not_lt.2 (Fin.le_last i))
      · refine Fin.lastCases ?_ (fun i => ?_) i
        · intro _; simp
        · intro h; simpa using h1.lower i j (by simpa using h)
    · intro i
      refine Fin.lastCases ?_ (fun i => ?_) i
      · simp
      · simpa using h1.diag i
    · intro i
      refine Fin.lastCases ?_ (fun i => ?_) i
      · simpa using hspos
      · simpa using h2 i
    · ext i j
      rw [Matrix.mul_apply, Fin.sum_univ_castSucc]
      simp only [conjTranspose_apply, of_apply, Fin.lastCases_castSucc, Fin.lastCases_last]
      refine Fin.lastCases ?_ (fun j => ?_) j
      · refine Fin.lastCases ?_ (fun i => ?_) i
        · simp [haA, hss]
        · simp [hvA]
      · refine Fin.lastCases ?_ (fun i => ?_) i
        · simp [hvA']
        · have := congrFun (congrFun h3 i) j
          rw [Matrix.mul_apply] at this
          simp only [conjTranspose_apply, B, of_apply] at this
          simp only [Fin.lastCases_castSucc]
          rw [← this]
          ring

/-- The factor is determined by the matrix. -/
theorem upper_unique {n : ℕ} {M N : Matrix (Fin n) (Fin n) ℂ} {d e : Fin n → ℝ} (hM : IsUpper M d) (hN : IsUpper N e)
    (hd : ∀ i, 0 < d i) (he : ∀ i, 0 < e i) (h : M * Mᴴ = N * Nᴴ) : M = N := by
  have entry : ∀ {K : Matrix (Fin n) (Fin n) ℂ} {c : Fin n → ℝ}, IsUpper K c → ∀ i j, 
      (K * Kᴴ) i j = K i j * c j + ∑ k ∈ Finset.Ioi j, K i k * star (K j k) := by
    intro K c hK i j
    rw [Matrix.mul_apply]
    simp only [conjTranspose_apply]
    have hsub : ∑ k ∈ Finset.Ici j, K i k * star (K j k) = ∑ k, K i k * star (K j k) := by
      apply Finset.sum_subset (Finset.subset_univ _)
      intro k _ hk
      rw [Finset.mem_Ici, not_le] at hk
      rw [hK.lower j k hk]
      simp
    rw [← hsub, ← Finset.Ioi_insert, Finset.sum_insert (by simp), hK.diag]
    simp
  have key : ∀ m : ℕ, ∀ j : Fin n, n - 1 - (j : ℕ) = m → ∀ i, M i j = N i j := by
    intro m
    induction m using Nat.strong_induction_on with
    | _ m ih =>
      intro j hj
      have hcol : ∀ k, j < k → ∀ i, M i k = N i k := fun k hk i =>
        ih (n - 1 - (k : ℕ)) (by have := k.2; have : (j : ℕ) < k := hk; omega) k rfl i
      have hrest : ∀ i, M i j * (d j : ℂ) = N i j * (e j : ℂ) := by
        intro i
        have h1 := entry hM i j
        have h2 := entry hN i j
        rw [h, h2] at h1
        have h3 : ∑ k ∈ Finset.Ioi j, M i k * star (M j k) = ∑ k ∈ Finset.Ioi j, N i k * star (N j k) :=
          Finset.sum_congr rfl fun k hk => by rw [hcol k (Finset.mem_Ioi.1 hk), hcol k (Finset.mem_Ioi.1 hk)]
        rw [h3] at h1
        exact (add_right_cancel h1).symm
      have hdd := hrest j
      rw [hM.diag, hN.diag, ← Complex.ofReal_mul, ← Complex.ofReal_mul, Complex.ofReal_inj] at hdd
      have hde : d j = e j := (mul_self_inj (hd j).le (he j).le).1 hdd
      intro i
      have h4 := hrest i
      rw [hde] at h4
      exact mul_right_cancel₀ (by exact_mod_cast (he j).ne') h4
  ext i j
  exact key _ j rfl i

theorem fold_const {n : ℕ} (l : List (Fin n × Fin n)) (v : ℂ) (M : Matrix (Fin n) (Fin n) ℂ) :
    l.foldl (fun M ij => setEntry M ij v) M = (l.map fun ij => (ij, v)).foldl (fun M x => setEntry M x.1 x.2) M := by
  rw [List.foldl_map]

theorem fill_upper {n : ℕ} {diag : Fin n → ℝ} {upper : List ℂ} {M : Matrix (Fin n) (Fin n) ℂ}
    (h : setEntries (Matrix.diagonal fun i => (diag i : ℂ)) (triuIndices n) upper = .ok M) : IsUpper M diag := by
  have main : ∀ l : List ((Fin n × Fin n) × ℂ), (∀ x ∈ l.map Prod.fst, x ∈ triuIndices n) →
      IsUpper (l.foldl (fun M x => setEntry M x.1 x.2) (Matrix.diagonal fun i => (diag i : ℂ))) diag := by
    intro l hl
    refine ⟨fun i j hij => ?_, fun i => ?_⟩
    · rw [fold_other, Matrix.diagonal_apply_ne _ (ne_of_gt hij)]
      exact fun hm => absurd ((mem_triu i j).1 (hl _ hm)) (not_lt.2 hij.le)
    · rw [fold_other, Matrix.diagonal_apply_eq]
      exact fun hm => absurd ((mem_triu i i).1 (hl _ hm)) (lt_irrefl i)
  unfold setEntries at h
  by_cases hlen : upper.length = (triuIndices n).length
  · rw [if_pos hlen] at h
    rw [← Except.ok.inj h]
    refine main _ fun x hx => ?_
    rw [List.map_fst_zip (by omega)] at hx
    exact hx
  · rw [if_neg hlen] at h
    split at h
    · rw [← Except.ok.inj h, fold_const]
      refine main _ fun x hx => ?_
      simpa using hx
    · cases h

theorem fill_isOk {n : ℕ} (M : Matrix (Fin n) (Fin n) ℂ) (inds : List (Fin n × Fin n)) (upper : List ℂ) :
    (∃ N, setEntries M inds upper = .ok N) ↔ upper.length = inds.length ∨ upper.length = 1 := by
  unfold setEntries
  by_cases hlen : upper.length = inds.length
  · rw [if_pos hlen]
    exact ⟨fun _ => Or.inl hlen, fun _ => ⟨_, rfl⟩⟩
  · rw [if_neg hlen]
    constructor
    · rintro ⟨N, h⟩
      split at h
      · right; rfl
      · cases h
    · rintro (h | h)
      · exact absurd h hlen
      · obtain ⟨v, rfl⟩ := List.length_eq_one_iff.1 h
        exact ⟨_, rfl⟩

theorem decode_isOk {n : ℕ} (diag : Fin n → ℝ) (upper : List ℂ) :
    (∃ A, choleskyDecode diag upper = .ok A) ↔ 2 * upper.length = n * (n - 1) ∨ upper.length = 1 := by
  have h1 := fill_isOk (Matrix.diagonal fun i => (diag i : ℂ)) (triuIndices n) upper
  have h2 : upper.length = (triuIndices n).length ↔ 2 * upper.length = n * (n - 1) := by
    rw [← triu_length]; omega
  rw [← h2, ← h1]
  unfold choleskyDecode
  constructor
  · rintro ⟨A, h⟩
    cases hM : setEntries (Matrix.diagonal fun i => (diag i : ℂ)) (triuIndices n) upper with
    | error e => rw [hM] at h; cases h
    | ok M => exact ⟨M, rfl⟩
  · rintro ⟨M, h⟩
    rw [h]
    exact ⟨_, rfl⟩

/-! ## Reading the parameters -/

theorem roundSqrt_spec (s : ℕ) : s ≤ (round (Real.sqrt s)).toNat ^ 2 + (round (Real.sqrt s)).toNat ∧
    (0 < (round (Real.sqrt s)).toNat →
      (round (Real.sqrt s)).toNat ^ 2 < s + (round (Real.sqrt s)).toNat) := by
  set x := Real.sqrt s with hx
  have hx0 : 0 ≤ x := Real.sqrt_nonneg _
  have hxx : x ^ 2 = s := Real.sq_sqrt (Nat.cast_nonneg s)
  have hr := abs_sub_round x
  have hr0 : 0 ≤ round x := by
    rw [round_eq]
    exact Int.floor_nonneg.2 (by linarith)
  set n := (round x).toNat with hn
  have hnr : ((n : ℕ) : ℝ) = ((round x : ℤ) : ℝ) := by
    have : ((n : ℕ) : ℤ) = round x := Int.toNat_of_nonneg hr0
    exact_mod_cast this
  rw [← hnr] at hr
  rw [abs_le] at hr
  constructor
  · have h1 : x ≤ n + 1 / 2 := by linarith [hr.2]
    have h2 : x ^ 2 ≤ ((n : ℝ) + 1 / 2) ^ 2 := by gcongr
    rw [hxx] at h2
    have h3 : (s : ℝ) < ((n ^ 2 + n + 1 : ℕ) : ℝ) := by push_cast; nlinarith
    have := Nat.cast_lt.1 h3
    omega
  · intro hpos
    have hp : (1 : ℝ) ≤ n := by exact_mod_cast hpos
    have h1 : (n : ℝ) - 1 / 2 ≤ x := by linarith [hr.1]
    have h2 : ((n : ℝ) - 1 / 2) ^ 2 ≤ x ^ 2 := pow_le_pow_left₀ (by linarith) h1 2
    rw [hxx] at h2
    have h3 : ((n ^ 2 : ℕ) : ℝ) < ((s + n : ℕ) : ℝ) := by push_cast; nlinarith
    exact Nat.cast_lt.1 h3

theorem roundSqrt_sq (n : ℕ) : (round (Real.sqrt ((n ^ 2 : ℕ) : ℝ))).toNat = n := by
  push_cast
  rw [Real.sqrt_sq (Nat.cast_nonneg n), round_natCast]
  simp

theorem roundSqrt_le (s : ℕ) : (round (Real.sqrt s)).toNat ≤ s := by
  obtain ⟨h1, h2⟩ := roundSqrt_spec s
  set n := (round (Real.sqrt s)).toNat
  by_contra h
  have h3 := h2 (by omega)
  have : n < 2 := by nlinarith
  interval_cases n <;> omega

theorem reshapeTwo_isOk (a : List ℝ) : (∃ x, reshapeTwo a = .ok x) ↔ a.length % 2 = 0 := by
  unfold reshapeTwo
  by_cases h : a.length % 2 = 0
  · rw [if_pos h]
    exact ⟨fun _ => h, fun _ => ⟨_, rfl⟩⟩
  · rw [if_neg h]
    exact ⟨fun ⟨x, hx⟩ => (by cases hx), fun h' => absurd h' h⟩

theorem square_even (n : ℕ) : (n ^ 2 - n) % 2 = 0 ∧ (n ^ 2 - n) / 2 * 2 = n * (n - 1) := by
  have h1 : n ^ 2 - n = n * (n - 1) := by
    cases n with
    | zero => rfl
    | succ n => simp [pow_two, Nat.mul_succ]
  have h2 : n * (n - 1) % 2 = 0 := by
    have := Nat.even_mul_pred_self n
    exact Nat.even_iff.1 this
  rw [h1]
  omega

/-- Reading an array of size `n ^ 2`. -/
theorem from_param_square {n : ℕ} (h : List ℝ) (hl : h.length = n ^ 2) :
    ∃ M : Matrix (Fin n) (Fin n) ℂ, IsUpper M (fun i => h.getD i 0) ∧
      rowsAbove M = List.zipWith (fun (r i : ℝ) => (r : ℂ) + Complex.I * (i : ℂ)) ((h.drop n).take ((n ^ 2 - n) / 2))
        ((h.drop n).drop ((n ^ 2 - n) / 2)) ∧
      choleskyFromParam h = .ok ⟨n, M * Mᴴ⟩ := by
  have hn : n ≤ n ^ 2 := Nat.le_self_pow two_ne_zero n
  obtain ⟨s1, s2⟩ := square_even n
  set upper := List.zipWith (fun (r i : ℝ) => (r : ℂ) + Complex.I * (i : ℂ)) ((h.drop n).take ((n ^ 2 - n) / 2))
        ((h.drop n).drop ((n ^ 2 - n) / 2)) with hu
  have hul : 2 * upper.length = n * (n - 1) := by
    simp only [hu, List.length_zipWith, List.length_take, List.length_drop, hl]
    omega
  obtain ⟨M, m1, m2, m3⟩ := fill_ok (fun i : Fin n => h.getD i 0) upper (by have := triu_length n; omega)
  refine ⟨M, m2, m3, ?_⟩
  have hdec : choleskyDecode (fun i : Fin n => h.getD i 0) upper = .ok (M * Mᴴ) := by
    unfold choleskyDecode
    rw [m1]
    rfl
  have hgen : ∀ (k : ℕ) (hk : k = n) (f : Fin k → ℝ), (∀ i : Fin k, f i = h.getD i 0) →
      ∃ A, choleskyDecode f upper = .ok A ∧ (⟨k, A⟩ : Σ n : ℕ, Matrix (Fin n) (Fin n) ℂ) = ⟨n, M * Mᴴ⟩ := by
    intro k hk f hf
    subst hk
    have : f = fun i : Fin k => h.getD i 0 := funext hf
    exact ⟨_, by rw [this, hdec], rfl⟩
  have hr : reshapeTwo (h.drop n) = .ok ((h.drop n).take ((n ^ 2 - n) / 2), (h.drop n).drop ((n ^ 2 - n) / 2)) := by
    unfold reshapeTwo
    rw [List.length_drop, hl, if_pos s1]
  have hrs : (round (Real.sqrt (h.length : ℝ))).toNat = n := by rw [hl, roundSqrt_sq]
  unfold choleskyFromParam
  rw [hrs]
  simp only [hr]
  obtain ⟨A, a1, a2⟩ := hgen (h.take n).length (by rw [List.length_take, hl]; omega)
    (fun i => (h.take n).getD i 0) (by
    intro i
    have hi : (i : ℕ) < min n h.length := lt_of_lt_of_eq i.2 List.length_take
    rw [List.getD_eq_getElem?_getD, List.getD_eq_getElem?_getD, List.getElem?_take_of_lt (by omega)])
  rw [a1]
  exact congrArg Except.ok a2

theorem from_param_isOk (h : List ℝ) (r) (hr : choleskyFromParam h = .ok r) : ∃ n, h.length = n ^ 2 := by
  obtain ⟨h1, h2⟩ := roundSqrt_spec h.length
  have h3 := roundSqrt_le h.length
  unfold choleskyFromParam at hr
  set n := (round (Real.sqrt h.length)).toNat with hn
  simp only at hr
  cases hre : reshapeTwo (h.drop n) with
  | error e => rw [hre] at hr; cases hr
  | ok x =>
    obtain ⟨a, b⟩ := x
    rw [hre] at hr
    simp only at hr
    have hev := (reshapeTwo_isOk _).1 ⟨_, hre⟩
    unfold reshapeTwo at hre
    rw [if_pos hev] at hre
    simp only [Except.ok.injEq, Prod.mk.injEq] at hre
    cases hd : choleskyDecode (fun i : Fin (h.take n).length => (h.take n).getD i 0)
        (List.zipWith (fun (r i : ℝ) => (r : ℂ) + Complex.I * (i : ℂ)) a b) with
    | error e => rw [hd] at hr; cases hr
    | ok A =>
      have := (decode_isOk _ _).1 ⟨A, hd⟩
      simp only [List.length_zipWith, ← hre.1, ← hre.2, List.length_take, List.length_drop,
        min_eq_left h3] at this
      rw [List.length_drop] at hev
      rcases this with h4 | h4
      · refine ⟨n, ?_⟩
        have h5 : h.length - n = n * (n - 1) := by omega
        have h6 : n * (n - 1) + n = n ^ 2 := by
          cases n with
          | zero => rfl
          | succ k => simp only [Nat.add_sub_cancel]; ring
        omega
      · have h5 : h.length = n + 2 := by omega
        rw [h5] at h1 h2
        have hn2 : n ≤ 2 := by
          by_contra hc
          have := h2 (by omega)
          nlinarith
        have hn1 : 2 ≤ n := by
          by_contra hc
          have : n ≤ 1 := by omega
          nlinarith
        exact ⟨2, by omega⟩

end Cyjax.Ml
