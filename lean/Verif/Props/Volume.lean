import Verif.Props.Accuracy
import Verif.Props.Integrate
import Mathlib.Algebra.BigOperators.Field

/-! # `sample_intersect` with weights and `compute_vol` (C111) -/

namespace Cyjax

open Cyjax.Donaldson Cyjax.Spec Cyjax.Projective Cyjax.Variety Cyjax.Differential MvPolynomial
open Cyjax.Polynomial (PyErr Val)

variable {n e : ℕ} {V : HomKind} {ps : List ℂ} {F : MvPolynomial (Fin (n + 2)) ℂ}

theorem sup_norm_eq (Z : Fin (n + 2) → ℂ) : ⨆ i, ‖Z i‖ = ‖Z (homToAffineAuto Z).2‖ := by
  obtain ⟨h1, -⟩ := C17_patch Z
  refine le_antisymm (ciSup_le h1) (le_ciSup (f := fun i => ‖Z i‖) (Set.finite_range _).bddAbove _)

theorem sup_norm_pos (Z : Fin (n + 2) → ℂ) (hZ : Z ≠ 0) : 0 < ⨆ i, ‖Z i‖ := by
  rw [sup_norm_eq]
  exact norm_pos_iff.2 (C17_bounded Z hZ 0).1

theorem pointWeight_pos (Z : Fin (n + 2) → ℂ) (hZ : Z ≠ 0) (hs : ∃ i, eval Z (pderiv i F) ≠ 0) :
    0 < pointWeight e F Z := by
  obtain ⟨i, hi⟩ : ∃ i, Z i ≠ 0 := Function.ne_iff.1 hZ
  obtain ⟨j, hj⟩ := hs
  have h1 := sum_norm_sq_pos Z i hi
  have h2 := sum_norm_sq_pos (fun i => eval Z (pderiv i F)) j hj
  have h3 := sup_norm_pos Z hZ
  exact mul_pos (mul_pos (div_pos (pow_pos Real.pi_pos n) (by exact_mod_cast n.factorial_pos)) (div_pos (pow_pos h1 _) h2))
    (div_pos (pow_pos h3 _) (pow_pos h3 _))

theorem weight_auto (hF : Hypersurface V (.vec ps) (n + 1) e F) (Z : Fin (n + 2) → ℂ) (hZ : Z ≠ 0) (h0 : eval Z F = 0)
    (hs : ∃ i, eval Z (pderiv i F) ≠ 0) :
    weight V (homToAffineAuto Z).1 (.vec ps) (some (.index (homToAffineAuto Z).2)) none (some 1) =
      .ok (pointWeight e F Z) := by
  obtain ⟨-, -, h3⟩ := C17_patch Z
  have hp0 : Z (homToAffineAuto Z).2 ≠ 0 := (C17_bounded Z hZ 0).1
  rw [h3, weight_point hF Z _ hp0 h0 hs]
  unfold pointWeight
  rw [sup_norm_eq]
  simp

section Sample

variable (hS : Samplable V (n + 1) e ps) (hF : Hypersurface V (.vec ps) (n + 1) e F) (hsm : SmoothHypersurface F)
  {o : SymOrder} (ho : o.Valid) {roots : List ℂ → List ℂ} (hr : ExactRoots roots)

include hS hF hsm ho hr

/-- **C111.** `sample_intersect` with any options succeeds on admissible lines; homogeneous and affine coordinates
describe the same points, and the weights are the same. -/
theorem C111_sample (count : ℕ) (draws : List ((Fin (n + 2) → ℂ) × (Fin (n + 2) → ℂ))) (hd : ∀ x ∈ draws, Admissible F x) :
    ∃ Zs : List (Fin (n + 2) → ℂ), Zs.length = min count (draws.length * e) ∧
      (∀ Z ∈ Zs, Z ≠ 0 ∧ eval Z F = 0 ∧ 0 < pointWeight e F Z) ∧
      sampleIntersectOpt n V o roots ps count (asLists draws) false false = .ok (.hom (Zs.map List.ofFn)) ∧
      sampleIntersectOpt n V o roots ps count (asLists draws) false true =
        .ok (.homWeights (Zs.map List.ofFn) (Zs.map (pointWeight e F))) ∧
      sampleIntersectOpt n V o roots ps count (asLists draws) true false = .ok (.affine (Zs.map homToAffineAuto)) ∧
      sampleIntersectOpt n V o roots ps count (asLists draws) true true =
        .ok (.affineWeights (Zs.map homToAffineAuto) (Zs.map (pointWeight e F))) := by
  obtain ⟨Zs, h1, h2, h3⟩ := sample_points hS hF ho hr count draws hd
  have e1 : (Zs.map List.ofFn).map (fun z => homToAffineAuto (toArr (n + 2) z)) = Zs.map homToAffineAuto := by
    rw [List.map_map]
    exact List.map_congr_left fun Z _ => by simp only [Function.comp_apply, toArr_ofFn']
  have e2 : (Zs.map homToAffineAuto).mapM (fun x => weight V x.1 (.vec ps) (some (.index x.2)) none (some 1)) =
      .ok (Zs.map (pointWeight e F)) := by
    rw [List.mapM_map]
    exact mapM_ok fun Z hZ => weight_auto hF Z (h3 Z hZ).1 (h3 Z hZ).2.1 (hsm Z (h3 Z hZ).1 (h3 Z hZ).2.1)
  refine ⟨Zs, h2, fun Z hZ => ⟨(h3 Z hZ).1, (h3 Z hZ).2.1,
    pointWeight_pos Z (h3 Z hZ).1 (hsm Z (h3 Z hZ).1 (h3 Z hZ).2.1)⟩, ?_, ?_, ?_, ?_⟩ <;>
  · unfold sampleIntersectOpt
    rw [h1]
    simp only [bind, Except.bind, e1, e2]
    rfl

variable {Key : Type*} (split : Key → Key × Key) (key : Key) (b bs : ℕ) (hb : b ≠ 0) (hbs : bs ≠ 0)
  (draws : Key → List ((Fin (n + 2) → ℂ) × (Fin (n + 2) → ℂ)))
  (hd : ∀ i < b, ∀ x ∈ draws (batchKey split key i), Admissible F x)
  (hlen : ∀ i < b, bs ≤ (draws (batchKey split key i)).length * e)

include hb hbs hd hlen

/-- **C111.** `compute_vol` succeeds on admissible lines. It returns the average of the weights over all points of all
batches, which is positive, and the Monte Carlo variance of this average, which is not negative. -/
theorem C111_vol :
    ∃ Zs : Key → List (Fin (n + 2) → ℂ),
      (∀ i < b, let k := batchKey split key i
        sampleIntersectOpt n V o roots ps bs (asLists (draws k)) false true =
          .ok (.homWeights ((Zs k).map List.ofFn) ((Zs k).map (pointWeight e F))) ∧ (Zs k).length = bs ∧
        ∀ Z ∈ Zs k, Z ≠ 0 ∧ eval Z F = 0 ∧ 0 < pointWeight e F Z) ∧
      let all := (List.range b).flatMap fun i => Zs (batchKey split key i)
      let m := (all.map (pointWeight e F)).sum / (b * bs : ℕ)
      let v := ((all.map fun Z => pointWeight e F Z ^ 2).sum / (b * bs : ℕ) - m ^ 2) / (b * bs : ℕ)
      all.length = b * bs ∧
      computeVol n V o roots ps split (fun k => asLists (draws k)) key b bs = .ok (m, v) ∧ 0 < m ∧ 0 ≤ v := by
  have hex : ∀ k, ∃ Zs : List (Fin (n + 2) → ℂ), (∃ i < b, k = batchKey split key i) →
      Zs.length = bs ∧ (∀ Z ∈ Zs, Z ≠ 0 ∧ eval Z F = 0 ∧ 0 < pointWeight e F Z) ∧
      sampleIntersectOpt n V o roots ps bs (asLists (draws k)) false true =
        .ok (.homWeights (Zs.map List.ofFn) (Zs.map (pointWeight e F))) := by
    intro k
    by_cases hk : ∃ i < b, k = batchKey split key i
    · obtain ⟨i, hi, rfl⟩ := hk
      obtain ⟨Zs, h1, h2, -, h3, -⟩ := C111_sample hS hF hsm ho hr bs _ (hd i hi)
      exact ⟨Zs, fun _ => ⟨by rw [h1, min_eq_left (hlen i hi)], h2, h3⟩⟩
    · exact ⟨[], fun h => absurd h hk⟩
  choose Zs hZs using hex
  have hl : ∀ i < b, (Zs (batchKey split key i)).length = bs := fun i hi => (hZs _ ⟨i, hi, rfl⟩).1
  have h2 : ∀ i < b, ∀ Z ∈ Zs (batchKey split key i), Z ≠ 0 ∧ eval Z F = 0 ∧ 0 < pointWeight e F Z :=
    fun i hi => (hZs _ ⟨i, hi, rfl⟩).2.1
  have hvs : ∀ i < b, volSample n V o roots ps bs (asLists (draws (batchKey split key i))) =
      .ok ((Zs (batchKey split key i)).map (pointWeight e F)) := by
    intro i hi
    unfold volSample
    rw [(hZs _ ⟨i, hi, rfl⟩).2.2]
    rfl
  refine ⟨Zs, fun i hi => ⟨(hZs _ ⟨i, hi, rfl⟩).2.2, hl i hi, h2 i hi⟩, ?_⟩
  intro all m v
  have hbatch : ∀ (b : ℕ) (key : Key),
      (∀ i < b, volSample n V o roots ps bs (asLists (draws (batchKey split key i))) =
        .ok ((Zs (batchKey split key i)).map (pointWeight e F)) ∧ (Zs (batchKey split key i)).length = bs) →
      volBatches split bs (fun k => volSample n V o roots ps bs (asLists (draws k))) key b =
      .ok ((List.range b).map fun i => (((Zs (batchKey split key i)).map (pointWeight e F)).sum / (bs : ℝ),
        ((Zs (batchKey split key i)).map fun Z => pointWeight e F Z ^ 2).sum / (bs : ℝ) / (bs : ℝ))) := by
    intro b
    induction b with
    | zero => intro key _; rfl
    | succ b ih =>
      intro key hkey
      rw [List.range_succ_eq_map, List.map_cons, List.map_map]
      have h0 := hkey 0 (Nat.succ_pos b)
      have hrest := ih (split key).2 fun i hi => hkey (i + 1) (Nat.succ_lt_succ hi)
      unfold volBatches
      rw [show batchKey split key 0 = key from rfl] at h0
      simp only [hrest, h0.1, bind, Except.bind, pure, Except.pure, listMean, List.length_map, h0.2, List.map_map]
      simp only [Function.comp_def, one_mul]
      rfl
  have hsum : ∀ f : (Fin (n + 2) → ℂ) → ℝ, (all.map f).sum =
      ((List.range b).map fun i => ((Zs (batchKey split key i)).map f).sum).sum := by
    intro f
    simp only [all, List.map_flatMap]
    induction List.range b with
    | nil => rfl
    | cons x l ih => simp [List.flatMap_cons, ih]
  have hlenall : all.length = b * bs := by
    simp only [all, List.length_flatMap]
    rw [List.map_congr_left fun i hi => hl i (List.mem_range.1 hi)]
    simp
  have hbR : (b : ℝ) ≠ 0 := Nat.cast_ne_zero.2 hb
  have hbsR : (bs : ℝ) ≠ 0 := Nat.cast_ne_zero.2 hbs
  have hmul : ∀ (f : ℕ → ℝ) (c : ℝ) (l : List ℕ), (l.map fun i => f i / c).sum = (l.map f).sum / c := by
    intro f c l
    induction l with
    | nil => simp
    | cons x l ih => simp [ih, add_div]
  have hNpos : (0 : ℝ) < ((b * bs : ℕ) : ℝ) := by
    exact_mod_cast Nat.mul_pos (Nat.pos_of_ne_zero hb) (Nat.pos_of_ne_zero hbs)
  refine ⟨hlenall, ?_, ?_, ?_⟩
  · unfold computeVol
    rw [hbatch b key fun i hi => ⟨hvs i hi, hl i hi⟩]
    simp only [bind, Except.bind, pure, Except.pure, List.map_map, Function.comp_def]
    rw [hmul, hmul, hmul, ← hsum, ← hsum fun Z => pointWeight e F Z ^ 2]
    congr 2
    · simp only [m]
      push_cast
      rw [div_div, mul_comm]
    · simp only [v, m]
      push_cast
      field_simp
  · refine div_pos ?_ hNpos
    refine List.sum_pos _ ?_ ?_
    · intro x hx
      obtain ⟨Z, hZ, rfl⟩ := List.mem_map.1 hx
      obtain ⟨i, hi, hiZ⟩ := List.mem_flatMap.1 hZ
      exact (h2 i (List.mem_range.1 hi) Z hiZ).2.2
    · intro h0
      have := congrArg List.length h0
      rw [List.length_map, hlenall] at this
      exact hb (by simpa [hbs] using this)
  · refine div_nonneg ?_ hNpos.le
    have h := sq_sum_le_card_mul_sum_sq (s := (Finset.univ : Finset (Fin all.length)))
      (f := fun i => pointWeight e F (all.get i))
    rw [sum_get all (pointWeight e F), sum_get all fun Z => pointWeight e F Z ^ 2, Finset.card_univ, Fintype.card_fin,
      hlenall] at h
    simp only [m]
    rw [div_pow, sub_nonneg, div_le_div_iff₀ (by positivity) hNpos]
    nlinarith

end Sample

/-- The hypotheses of `C111_vol`: the Fermat cubic, two batches of five points, two lines each (three points per line). -/
example : ∃ (F : MvPolynomial (Fin 3) ℂ) (draws : ℕ → List ((Fin 3 → ℂ) × (Fin 3 → ℂ))),
    Samplable (.fermat 3) 2 3 [] ∧ Hypersurface (.fermat 3) (.vec []) 2 3 F ∧ SmoothHypersurface F ∧
    someOrder.Valid ∧ ExactRoots someRoots ∧ (∀ k, ∀ x ∈ draws k, Admissible F x) ∧ ∀ k, 5 ≤ (draws k).length * 3 := by
  refine ⟨∑ j, MvPolynomial.X j ^ (2 + 1), fun _ => [(![1, 0, 0], ![0, 1, 1]), (![1, 0, 0], ![0, 1, 1])], .fermat 2,
    (C114_fermat _).1, (C114_fermat (.vec [])).2, someOrder_valid, someRoots_exact, fun _ x hx => ?_, fun _ => by simp⟩
  simp only [List.mem_cons, List.not_mem_nil, or_false, or_self] at hx
  subst hx
  refine ⟨?_, ?_⟩
  · rw [LinearIndependent.pair_iff]
    intro s t h
    have h0 := congrFun h 0
    have h1 := congrFun h 1
    simp at h0 h1
    exact ⟨h0, h1⟩
  · simp [Fin.sum_univ_three]

/-- **C111.** In the Calabi–Yau case the weight of a point is `π^n / n! · |Z|^(2(n+1)) / |∇F(Z)|²`, the same for all
homogeneous coordinates of the point. -/
theorem C111_calabi_yau (hF : F.IsHomogeneous (n + 2)) (Z : Fin (n + 2) → ℂ) (hZ : Z ≠ 0) :
    pointWeight (n + 2) F Z =
      Real.pi ^ n / n.factorial * ((∑ i, ‖Z i‖ ^ 2) ^ (n + 1) / ∑ i, ‖eval Z (pderiv i F)‖ ^ 2) ∧
    ∀ c : ℂ, c ≠ 0 → pointWeight (n + 2) F (fun i => c * Z i) = pointWeight (n + 2) F Z := by
  have hone : ∀ Z : Fin (n + 2) → ℂ, Z ≠ 0 → pointWeight (n + 2) F Z =
      Real.pi ^ n / n.factorial * ((∑ i, ‖Z i‖ ^ 2) ^ (n + 1) / ∑ i, ‖eval Z (pderiv i F)‖ ^ 2) := by
    intro Z hZ
    unfold pointWeight
    rw [show n + 2 - 1 = n + 1 from rfl, div_self (pow_ne_zero _ (sup_norm_pos Z hZ).ne'), mul_one]
  refine ⟨hone Z hZ, fun c hc => ?_⟩
  rw [hone Z hZ, hone _ (by
    intro h0
    apply hZ
    funext i
    have := congrFun h0 i
    simpa [hc] using this)]
  have hder : ∀ i, eval (fun i => c * Z i) (pderiv i F) = c ^ (n + 1) * eval Z (pderiv i F) := fun i =>
    eval_smul_homogeneous (hF.pderiv (i := i)) _ Z
  have hn : 0 < ‖c‖ := norm_pos_iff.2 hc
  congr 1
  simp only [hder, norm_mul, norm_pow, mul_pow, ← Finset.mul_sum]
  rw [← pow_mul, ← pow_mul, mul_comm 2]
  exact mul_div_mul_left _ _ (by positivity)

end Cyjax
