import Verif.Props.DonaldsonIteration
import Verif.Lemmas.AlmostSure
import Verif.Lemmas.SmoothIrreducible
import Mathlib.Probability.ProductMeasure

/-! # Sampling, accuracy, volume and Donaldson steps succeed almost surely (C113, C116)

The random numbers are random variables on a probability space: an array of independent standard normal numbers for each
key, as `jax.random.normal` promises. -/

namespace Cyjax

open Cyjax.Donaldson Cyjax.Spec Cyjax.Projective Cyjax.Variety Cyjax.Differential MvPolynomial MeasureTheory ProbabilityTheory
open Cyjax.Polynomial (PyErr Val DworkFactor)
open scoped ComplexConjugate ComplexOrder

/-- The weights come with the homogeneous points. -/
theorem hom_of_weights {n : ℕ} {V : HomKind} {o : SymOrder} {roots : List ℂ → List ℂ} {ps : List ℂ} {count : ℕ}
    {draws : List (List ℂ × List ℂ)} {zs : List (List ℂ)} {w : List ℝ}
    (h : sampleIntersectOpt n V o roots ps count draws false true = .ok (.homWeights zs w)) :
    sampleIntersect V o roots ps count draws = .ok zs := by
  unfold sampleIntersectOpt at h
  cases h6 : sampleIntersect V o roots ps count draws with
  | error err => rw [h6] at h; cases h
  | ok zs' =>
    rw [h6] at h
    simp only [bind, Except.bind] at h
    split at h
    · cases h
    · injection h with h
      injection h with h _
      rw [h]

theorem sampleCount_mul (count m : ℕ) (hm : 0 < m) :
    count ≤ sampleCount count m * m ∧ ∀ j < sampleCount count m, j * m < count := by
  unfold sampleCount
  have h1 := Nat.div_add_mod (count + m - 1) m
  have h2 := Nat.mod_lt (count + m - 1) hm
  refine ⟨by rw [mul_comm]; omega, fun j hj => ?_⟩
  have h3 : j + 1 ≤ (count + m - 1) / m := hj
  have h4 := Nat.mul_le_mul_left m h3
  rw [mul_add, mul_one] at h4
  rw [mul_comm]
  omega

variable {n : ℕ} {ps : List ℂ} {e : ℕ} {F : MvPolynomial (Fin (n + 2)) ℂ} {o : SymOrder} (ho : o.Valid)
  {roots : List ℂ → List ℂ} (hr : ExactRoots roots) (hsm : SmoothHypersurface F)
  {Ω : Type*} [MeasurableSpace Ω] {P : Measure Ω}

section Sample

variable {V : HomKind} (hS : Samplable V (n + 1) e ps) (hF : Hypersurface V (.vec ps) (n + 1) e F)

include ho hr hsm hS hF

/-- **C113.** On a smooth hypersurface of degree `e`, `sample_intersect` succeeds almost surely. It returns `count` points
or, if these are fewer, all points of its `ceil(count/dim)` lines. Point number `k` lies on line number `k / e`, and all
points lie on the variety and have positive weight. -/
theorem C113_sample (count : ℕ) (X : Ω → Fin 2 → Fin (sampleCount count (n + 2)) → Fin (2 * (n + 2)) → ℝ)
    (hX : HasLaw X (normalsLaw (n + 2) (sampleCount count (n + 2))) P) :
    ∀ᵐ ω ∂P, ∃ Zs : List (Fin (n + 2) → ℂ),
      sampleIntersectOpt n V o roots ps count (asLists (lineDraws (X ω))) false true =
        .ok (.homWeights (Zs.map List.ofFn) (Zs.map (pointWeight e F))) ∧
      Zs.length = min count (sampleCount count (n + 2) * e) ∧
      ∀ (k : ℕ) (Z : Fin (n + 2) → ℂ), Zs[k]? = some Z → Z ≠ 0 ∧ eval Z F = 0 ∧ 0 < pointWeight e F Z ∧
        ∃ (j : Fin (sampleCount count (n + 2))) (r : ℂ), (j : ℕ) = k / e ∧
          Z = fun i => Random.complexSphere (X ω 0 j) i + r * Random.complexSphere (X ω 1 j) i := by
  have had := ae_admissible (count := sampleCount count (n + 2)) F (smooth_ne_zero hsm) hF.homogeneous
  rw [← hX.map_eq] at had
  filter_upwards [ae_of_ae_map hX.aemeasurable had] with ω hω
  obtain ⟨Zs, h1, h2, -, h3, -⟩ := C111_sample hS hF hsm ho hr count (lineDraws (X ω)) hω.2
  obtain ⟨Zs', g1, g2, g3⟩ := sample_lines hS hF ho hr count (lineDraws (X ω)) hω.2
  obtain rfl : Zs' = Zs := List.map_injective_iff.2 List.ofFn_injective
    (Except.ok.inj (g1.symm.trans (hom_of_weights h3)))
  refine ⟨Zs', h3, by rw [h1, lineDraws, List.length_ofFn], fun k Z hk => ?_⟩
  obtain ⟨a1, a2, x, hx, r, hZ⟩ := g3 k Z hk
  refine ⟨a1, a2, (h2 Z (List.mem_of_getElem? hk)).2.2, ?_⟩
  rw [lineDraws, List.getElem?_ofFn] at hx
  split at hx
  · next hlt =>
    obtain rfl := Option.some.inj hx
    exact ⟨⟨k / e, hlt⟩, r, rfl, hZ⟩
  · cases hx

/-- **C113.** `compute_vol` succeeds almost surely with a positive volume and a non-negative variance, if the degree is at
least the number of coordinates. The batches need not be independent. -/
theorem C113_vol (he : n + 2 ≤ e) {Key : Type*} (split : Key → Key × Key) (key : Key) (b bs : ℕ) (hb : b ≠ 0) (hbs : bs ≠ 0)
    (X : Key → Ω → Fin 2 → Fin (sampleCount bs (n + 2)) → Fin (2 * (n + 2)) → ℝ)
    (hX : ∀ i < b, HasLaw (X (batchKey split key i)) (normalsLaw (n + 2) (sampleCount bs (n + 2))) P) :
    ∀ᵐ ω ∂P, ∃ m v : ℝ, computeVol n V o roots ps split (fun k => asLists (lineDraws (X k ω))) key b bs = .ok (m, v) ∧
      0 < m ∧ 0 ≤ v := by
  have had := ae_admissible (count := sampleCount bs (n + 2)) F (smooth_ne_zero hsm) hF.homogeneous
  have hall : ∀ᵐ ω ∂P, ∀ i : Fin b, ∀ y ∈ lineDraws (X (batchKey split key i) ω), Admissible F y := by
    rw [ae_all_iff]
    intro i
    rw [← (hX i i.2).map_eq] at had
    filter_upwards [ae_of_ae_map (hX i i.2).aemeasurable had] with ω hω
    exact hω.2
  filter_upwards [hall] with ω hω
  obtain ⟨Zs, -, -, h1, h2, h3⟩ := C111_vol hS hF hsm ho hr split key b bs hb hbs (fun k => lineDraws (X k ω))
    (fun i hi => hω ⟨i, hi⟩) (fun i hi => by
      rw [lineDraws, List.length_ofFn]
      exact (sampleCount_mul bs (n + 2) (by omega)).1.trans (Nat.mul_le_mul_left _ he))
  exact ⟨_, _, h1, h2, h3⟩

end Sample

variable {A : AlgebraicMetric (n + 1)} (hS : Samplable A.variety (n + 1) e ps)
  (hF : Hypersurface A.variety (.vec ps) (n + 1) e F)

include ho hr hsm hS hF

/-- **C113.** `sigma_accuracy` succeeds almost surely, for all positive definite matrices at once, with a value between
zero and two. -/
theorem C113_sigma (he : e ≠ 0) (hB : SpansModulo F A.sections.degree A.sections.rows) (hk : A.sections.degree ≠ 0)
    (count : ℕ) (hc : count ≠ 0) (X : Ω → Fin 2 → Fin (sampleCount count (n + 2)) → Fin (2 * (n + 2)) → ℝ)
    (hX : HasLaw X (normalsLaw (n + 2) (sampleCount count (n + 2))) P) :
    ∀ᵐ ω ∂P, ∀ h : A.H, h.PosDef → ∃ σ : ℝ,
      A.sigmaAccuracy h o roots ps count (asLists (lineDraws (X ω))) = .ok σ ∧ 0 ≤ σ ∧ σ ≤ 2 := by
  have had := ae_admissible (count := sampleCount count (n + 2)) F (smooth_ne_zero hsm) hF.homogeneous
  rw [← hX.map_eq] at had
  filter_upwards [ae_of_ae_map hX.aemeasurable had] with ω hω h hh
  have hne : lineDraws (X ω) ≠ [] := by
    rw [← List.length_pos_iff, lineDraws, List.length_ofFn]
    have := (sampleCount_mul count (n + 2) (by omega)).1
    rcases Nat.eq_zero_or_pos (sampleCount count (n + 2)) with h0 | h0
    · rw [h0, zero_mul] at this
      omega
    · exact h0
  obtain ⟨Zs, η, w, σ, -, -, -, h1, -, h2, h3, -⟩ := C110_sigma hS hF hsm he hB hk h hh ho hr count hc _ hne hω.2
  exact ⟨σ, h1, h2, h3⟩

end Cyjax

namespace Cyjax

open Cyjax.Donaldson Cyjax.Spec Cyjax.Projective Cyjax.Variety Cyjax.Differential MvPolynomial MeasureTheory ProbabilityTheory
open Cyjax.Polynomial (PyErr Val DworkFactor)
open scoped ComplexConjugate ComplexOrder

theorem mono_homogeneous {m : ℕ} (r : Fin m → ℕ) : (mono r : MvPolynomial (Fin m) ℂ).IsHomogeneous (∑ i, r i) := by
  unfold mono
  refine IsHomogeneous.prod _ _ _ fun i _ => ?_
  have := (isHomogeneous_X ℂ i).pow (r i)
  rwa [one_mul] at this

variable {n : ℕ} {ps : List ℂ} {F : MvPolynomial (Fin (n + 2)) ℂ} {o : SymOrder} (ho : o.Valid)
  {roots : List ℂ → List ℂ} (hr : ExactRoots roots) (hsm : SmoothHypersurface F)
  {Ω : Type*} [MeasurableSpace Ω] {P : Measure Ω}
  {A : AlgebraicMetric (n + 1)} (hS : Samplable A.variety (n + 1) (n + 2) ps)
  (hF : Hypersurface A.variety (.vec ps) (n + 1) (n + 2) F) (hn : n ≠ 0)
  (hB : IsBasisModulo F A.sections.degree A.sections.rows) (b bs : ℕ)
  (hN : A.sections.size ≤ b * sampleCount bs (n + 2)) (vol : ℝ) (hvol : 0 < vol)

include ho hr hsm hS hF hn hB hN hvol

/-- **C116.** One step of Donaldson's algorithm on a smooth Calabi–Yau hypersurface, with a basis of sections and
independent normal draws for the keys of the batches: if there are at least as many lines as sections, then almost surely
the step succeeds for every positive definite matrix and returns a positive definite matrix. -/
theorem C116_step (X : Fin b → Ω → Fin 2 → Fin (sampleCount bs (n + 2)) → Fin (2 * (n + 2)) → ℝ)
    (hX : ∀ i, HasLaw (X i) (normalsLaw (n + 2) (sampleCount bs (n + 2))) P) (hind : iIndepFun X P) :
    ∀ᵐ ω ∂P, ∀ h : A.H, h.PosDef → ∃ h', A.donaldsonStep .complex h o roots ps vol bs
      (List.ofFn fun i => asLists (lineDraws (X i ω))) = .ok h' ∧ h'.PosDef := by
  have hirr : Irreducible F := smooth_irreducible (by omega) hF.homogeneous (by omega) hsm
  have hlaw := hind.hasLaw_pi hX
  have hsd : ∀ a, (sec A a).IsHomogeneous A.sections.degree := by
    intro a
    rw [← hB.1 _ (List.get_mem A.sections.rows a)]
    exact mono_homogeneous _
  have hs : ∀ c : Fin A.sections.size → ℂ, F ∣ ∑ a, C (c a) * sec A a → c = 0 := by
    intro c hc
    obtain ⟨c0, -, huniq⟩ := hB.2 0 (isHomogeneous_zero _ _ _)
    have h1 := huniq c (show F ∣ 0 - ∑ a, C (c a) * sec A a by rw [zero_sub, dvd_neg]; exact hc)
    have h2 := huniq 0 (by simp)
    exact h1.trans h2.symm
  have hae := ae_batches hirr hF.homogeneous (sec A) hsd hs hN
  rw [← hlaw.map_eq] at hae
  filter_upwards [ae_of_ae_map hlaw.aemeasurable hae] with ω hω h hh
  obtain ⟨c1, c2⟩ := sampleCount_mul bs (n + 2) (by omega)
  have hmem : ∀ x ∈ (List.ofFn fun i => lineDraws (X i ω)), bs ≤ x.length * (n + 2) ∧ ∀ y ∈ x, Admissible F y := by
    intro x hx
    obtain ⟨i, rfl⟩ := List.mem_ofFn.1 hx
    refine ⟨?_, hω.1 i⟩
    rw [lineDraws, List.length_ofFn]
    exact c1
  have hspan : SpansModulo F A.sections.degree A.sections.rows := ⟨hB.1, fun f hf => (hB.2 f hf).exists⟩
  obtain ⟨Zs, h1, h2⟩ := C112_step hS hF hsm ho hr bs hB.1 _ hmem
  have := (h2 h vol).2.2 hh hvol (fun Z hZ h0 => spans_ne hspan Z hZ h0) ?_
  · rwa [List.map_ofFn] at this
  intro c hc
  have key : ∀ (i : Fin b) (j : Fin (sampleCount bs (n + 2))), ∃ Z ∈ Zs (lineDraws (X i ω)), eval Z F = 0 ∧ ∃ r : ℂ,
      Z = fun l => Random.complexSphere (X i ω 0 j) l + r * Random.complexSphere (X i ω 1 j) l := by
    intro i j
    have hi : lineDraws (X i ω) ∈ List.ofFn fun i => lineDraws (X i ω) := List.mem_ofFn.2 ⟨i, rfl⟩
    obtain ⟨a1, a2, -⟩ := h1 _ hi
    obtain ⟨Zs', g1, -, g3⟩ := sample_lines hS hF ho hr bs (lineDraws (X i ω)) (hω.1 i)
    have he : Zs' = Zs (lineDraws (X i ω)) := List.map_injective_iff.2 List.ofFn_injective
      (Except.ok.inj (g1.symm.trans (hom_of_weights a1)))
    rw [he] at g3
    have hlt : (j : ℕ) * (n + 2) < (Zs (lineDraws (X i ω))).length := by
      rw [a2]
      exact c2 j j.2
    obtain ⟨-, b2, x, hx, r, hZ⟩ := g3 _ _ (List.getElem?_eq_getElem hlt)
    refine ⟨_, List.getElem_mem hlt, b2, r, ?_⟩
    rw [Nat.mul_div_cancel _ (by omega), lineDraws, List.getElem?_ofFn, dif_pos j.2] at hx
    obtain rfl := Option.some.inj hx
    exact hZ
  choose Z z1 z2 z3 using key
  refine hω.2 Z (fun i j => ⟨z2 i j, z3 i j⟩) c fun i j => hc _ ?_
  exact List.mem_flatMap.2 ⟨_, List.mem_ofFn.2 ⟨i, rfl⟩, z1 i j⟩

/-- **C116.** Any number of steps, each with its own draws, independent within the step: almost surely all succeed and
keep the matrix positive definite, from any positive definite start. -/
theorem C116_iterate (steps : ℕ)
    (X : Fin steps → Fin b → Ω → Fin 2 → Fin (sampleCount bs (n + 2)) → Fin (2 * (n + 2)) → ℝ)
    (hX : ∀ s i, HasLaw (X s i) (normalsLaw (n + 2) (sampleCount bs (n + 2))) P) (hind : ∀ s, iIndepFun (X s) P) :
    ∀ᵐ ω ∂P, ∀ h : A.H, h.PosDef → ∃ h', (List.finRange steps).foldlM (fun h s => A.donaldsonStep .complex h o roots ps vol bs
      (List.ofFn fun i => asLists (lineDraws (X s i ω)))) h = .ok h' ∧ h'.PosDef := by
  have hall := ae_all_iff.2 fun s => C116_step ho hr hsm hS hF hn hB b bs hN vol hvol (X s) (hX s) (hind s)
  filter_upwards [hall] with ω hω h hh
  have : ∀ (l : List (Fin steps)) (h : A.H), h.PosDef → ∃ h', l.foldlM (fun h s => A.donaldsonStep .complex h o roots ps vol bs
      (List.ofFn fun i => asLists (lineDraws (X s i ω)))) h = .ok h' ∧ h'.PosDef := by
    intro l
    induction l with
    | nil => exact fun h hh => ⟨h, rfl, hh⟩
    | cons s l ih =>
      intro h hh
      obtain ⟨h', h1, h2⟩ := hω s h hh
      rw [List.foldlM_cons, h1]
      exact ih h' h2
  exact this _ h hh

end Cyjax

namespace Cyjax

open Cyjax.Donaldson Cyjax.Spec Cyjax.Projective Cyjax.Variety Cyjax.Differential MvPolynomial MeasureTheory ProbabilityTheory
open Cyjax.Polynomial (PyErr Val DworkFactor)
open scoped ComplexConjugate ComplexOrder

private theorem vars_dwork {n : ℕ} (a : ℂ) :
    (∑ j, X j ^ (n + 2) + C a * ∏ j, X j : MvPolynomial (Fin (n + 2)) ℂ).vars = Finset.univ := by
  refine Finset.eq_univ_iff_forall.2 fun i => ?_
  by_contra hi
  have h0 := pderiv_eq_zero_of_notMem_vars hi
  have h1 := pderiv_dwork (m := n + 1) a (n + 2) (fun j => if j = i then 1 else 0) i
  rw [h0, map_zero] at h1
  obtain ⟨j, hj⟩ := exists_ne i
  rw [Finset.prod_eq_zero (Finset.mem_erase.2 ⟨hj, Finset.mem_univ j⟩) (if_neg hj)] at h1
  simp only [if_true, one_pow, mul_one, mul_zero, add_zero] at h1
  exact Nat.cast_ne_zero.2 (Nat.succ_ne_zero (n + 1)) h1.symm

/-- **C116.** All together for the Dwork family away from its singular members, with the sections of `MonomialBasisReduced`
of any degree `k`: the constructor succeeds, and Donaldson's algorithm runs almost surely through positive definite
matrices. -/
theorem C116_dwork {n : ℕ} (hn : n ≠ 0) (f : DworkFactor) (hf : f.value.im = 0) (psi : ℂ)
    (hpsi : (-(f.value * psi)) ^ (n + 2) ≠ ((n + 2 : ℕ) : ℂ) ^ (n + 2)) (k : ℕ) :
    ∃ rows, monomialBasisReduced (∑ j, X j ^ (n + 2) + C (f.value * psi) * ∏ j, X j : MvPolynomial (Fin (n + 2)) ℂ) k =
      .ok ⟨n + 1, rows⟩ ∧
    ∀ {o : SymOrder}, o.Valid → ∀ {roots : List ℂ → List ℂ}, ExactRoots roots → ∀ (b bs : ℕ),
      rows.length ≤ b * sampleCount bs (n + 2) → ∀ vol : ℝ, 0 < vol →
      ∀ {Ω : Type} [MeasurableSpace Ω] {P : Measure Ω} (steps : ℕ)
        (X : Fin steps → Fin b → Ω → Fin 2 → Fin (sampleCount bs (n + 2)) → Fin (2 * (n + 2)) → ℝ),
        (∀ s i, HasLaw (X s i) (normalsLaw (n + 2) (sampleCount bs (n + 2))) P) → (∀ s, iIndepFun (X s) P) →
        ∀ᵐ ω ∂P, ∀ h : (AlgebraicMetric.mk (.dwork (n + 2) f) ⟨k, rows⟩).H, h.PosDef → ∃ h',
          (List.finRange steps).foldlM (fun h s =>
            (AlgebraicMetric.mk (.dwork (n + 2) f) ⟨k, rows⟩).donaldsonStep .complex h o roots [psi] vol bs
              (List.ofFn fun i => asLists (lineDraws (X s i ω)))) h = .ok h' ∧ h'.PosDef := by
  have hyp := hypersurface_dwork_explicit (n + 1) f psi []
  obtain ⟨rows, h1, h2⟩ := C97_basis_partial _ (n + 2) k hyp.homogeneous (vars_dwork (f.value * psi))
  refine ⟨rows, h1, ?_⟩
  intro o ho roots hr b bs hN vol hvol Ω _ P steps X hX hind
  exact C116_iterate (A := ⟨.dwork (n + 2) f, ⟨k, rows⟩⟩) ho hr ((smooth_dwork _).2 hpsi) (.dwork (n + 1) f hf psi) hyp hn h2
    b bs hN vol hvol steps X hX hind

/-- Independent arrays of normal numbers exist, so the hypotheses of C113 and C116 can be met: the quintic with `psi = 0`
(smooth), one thousand lines in each of three batches and two steps. -/
example : ∃ (P : Measure (Fin 2 → Fin 3 → Fin 2 → Fin 1000 → Fin (2 * 5) → ℝ)) (_ : IsProbabilityMeasure P)
    (X : Fin 2 → Fin 3 → (Fin 2 → Fin 3 → Fin 2 → Fin 1000 → Fin (2 * 5) → ℝ) → Fin 2 → Fin 1000 → Fin (2 * 5) → ℝ),
    (∀ s i, HasLaw (X s i) (normalsLaw 5 1000) P) ∧ (∀ s, iIndepFun (X s) P) ∧ sampleCount 5000 5 = 1000 ∧
    (-((DworkFactor.flag true).value * 0)) ^ 5 ≠ ((5 : ℕ) : ℂ) ^ 5 ∧ (DworkFactor.flag true).value.im = 0 := by
  have hlaw : ∀ s, MeasurePreserving (fun ω : Fin 2 → Fin 3 → Fin 2 → Fin 1000 → Fin (2 * 5) → ℝ => ω s)
      (Measure.pi fun _ => Measure.pi fun _ => normalsLaw 5 1000) (Measure.pi fun _ => normalsLaw 5 1000) := fun s =>
    measurePreserving_eval (fun _ : Fin 2 => Measure.pi fun _ : Fin 3 => normalsLaw 5 1000) s
  have hX : ∀ s i, HasLaw (fun ω : Fin 2 → Fin 3 → Fin 2 → Fin 1000 → Fin (2 * 5) → ℝ => ω s i) (normalsLaw 5 1000)
      (Measure.pi fun _ => Measure.pi fun _ => normalsLaw 5 1000) := fun s i =>
    have h := (measurePreserving_eval (fun _ : Fin 3 => normalsLaw 5 1000) i).comp (hlaw s)
    ⟨h.measurable.aemeasurable, h.map_eq⟩
  refine ⟨Measure.pi fun _ => Measure.pi fun _ => normalsLaw 5 1000, inferInstance, fun s i ω => ω s i, hX, fun s => ?_,
    rfl, ?_, ?_⟩
  · rw [iIndepFun_iff_hasLaw_pi_pi (hX s)]
    exact ⟨(hlaw s).measurable.aemeasurable, (hlaw s).map_eq⟩
  · norm_num
  · simp [DworkFactor.value]

end Cyjax
