import Verif.Lemmas.VarietyGrad
import Verif.Lemmas.Density
import Verif.Props.Projective
import Mathlib.Algebra.MvPolynomial.PDeriv

/-! Euler's identity and scaling for homogeneous polynomials with parameters -/

namespace Cyjax.Variety

open Cyjax.Polynomial MvPolynomial Cyjax.Projective

/-- Multiply the homogeneous coordinates by `c`, leave every other symbol. -/
noncomputable def scaleAt (name : List Char) (m : ℕ) (c : ℂ) (ρ : Sym → ℂ) : Sym → ℂ := fun s =>
  if s ∈ (List.range (m + 1)).map (mergeSubscript name) then c * ρ s else ρ s

theorem merge_nat_inj {name : List Char} (hn : GoodName name) : Function.Injective (mergeSubscript name) :=
  fun _ _ h => (merge_inj _ _ hn hn _ _ h).2

theorem eval_scale {p : MvPolynomial Sym ℂ} {name : List Char} (hn : GoodName name) {m d : ℕ}
    (h : HomogeneousIn p name m d) (c : ℂ) (ρ : Sym → ℂ) :
    eval (scaleAt name m c ρ) p = c ^ d * eval ρ p := by
  rw [eval_eq, eval_eq, Finset.mul_sum]
  refine Finset.sum_congr rfl fun mon hmon => ?_
  have hd := h mon hmon
  have hinj := merge_nat_inj hn
  have : ∏ s ∈ mon.support, scaleAt name m c ρ s ^ mon s = c ^ d * ∏ s ∈ mon.support, ρ s ^ mon s := by
    have e : ∀ s, scaleAt name m c ρ s ^ mon s =
        (if s ∈ (List.range (m + 1)).map (mergeSubscript name) then c ^ mon s else 1) * ρ s ^ mon s := by
      intro s
      unfold scaleAt
      split_ifs
      · rw [mul_pow]
      · rw [one_mul]
    simp only [e, Finset.prod_mul_distrib]
    congr 1
    rw [Finset.prod_ite, Finset.prod_const_one, mul_one, Finset.prod_pow_eq_pow_sum]
    congr 1
    rw [← hd]
    rw [← Finset.sum_image (f := fun s => mon s) (s := Finset.range (m + 1)) (g := mergeSubscript name)
      (fun _ _ _ _ h => hinj h)]
    refine Finset.sum_subset ?_ ?_
    · intro s hs
      rw [Finset.mem_filter] at hs
      simpa using hs.2
    · intro s hs hns
      rw [Finset.mem_filter] at hns
      by_contra h0
      exact hns ⟨Finsupp.mem_support_iff.2 h0, by simpa using hs⟩
  rw [this]
  ring

theorem euler {p : MvPolynomial Sym ℂ} {name : List Char} {m d : ℕ}
    (h : HomogeneousIn p name m d) (ρ : Sym → ℂ) :
    ∑ i ∈ Finset.range (m + 1), ρ (mergeSubscript name i) * eval ρ (pderiv (mergeSubscript name i) p) =
      d * eval ρ p := by
  have key : ∑ i ∈ Finset.range (m + 1), X (mergeSubscript name i) * pderiv (mergeSubscript name i) p =
      (d : MvPolynomial Sym ℂ) * p := by
    conv_lhs => enter [2, i]; rw [p.as_sum, map_sum, Finset.mul_sum]
    rw [Finset.sum_comm]
    conv_rhs => rw [p.as_sum, Finset.mul_sum]
    refine Finset.sum_congr rfl fun mon hmon => ?_
    simp only [X_mul_pderiv_monomial, ← Finset.sum_smul, h mon hmon]
    rw [nsmul_eq_mul]
  have := congrArg (eval ρ) key
  simpa using this

theorem pderiv_homogeneous {p : MvPolynomial Sym ℂ} {name : List Char} (hn : GoodName name) {m d : ℕ}
    (h : HomogeneousIn p name m (d + 1)) (j : ℕ) (hj : j < m + 1) :
    HomogeneousIn (pderiv (mergeSubscript name j) p) name m d := by
  intro mon hmon
  have hinj := merge_nat_inj hn
  set s := mergeSubscript name j with hs
  have h1 : mon + Finsupp.single s 1 ∈ p.support := by
    by_contra h0
    rw [mem_support_iff] at hmon
    apply hmon
    rw [coeff_pderiv, notMem_support_iff.1 h0, zero_mul]
  have := h _ h1
  simp only [Finsupp.add_apply, Finset.sum_add_distrib, hs, Finsupp.single_apply] at this
  have e : ∑ x ∈ Finset.range (m + 1), (if mergeSubscript name j = mergeSubscript name x then 1 else 0) = 1 := by
    rw [Finset.sum_eq_single j]
    · simp
    · intro b _ hb
      rw [if_neg fun h => hb (hinj h).symm]
    · intro h; exact absurd (Finset.mem_range.2 hj) h
  omega

theorem scaleAt_coord (name : List Char) {m i : ℕ} (hi : i < m + 1) (c : ℂ) (ρ : Sym → ℂ) :
    scaleAt name m c ρ (mergeSubscript name i) = c * ρ (mergeSubscript name i) := by
  unfold scaleAt
  rw [if_pos]
  exact List.mem_map_of_mem (List.mem_range.2 hi)

theorem scaleAt_params {P : PolyObj} {name : List Char} {m : ℕ} (h : Proper P name m) (c : ℂ) (ρ : Sym → ℂ) :
    P.md.paramInput (scaleAt name m c ρ) = P.md.paramInput ρ := by
  unfold Meta.paramInput
  refine List.map_congr_left fun s hs => ?_
  unfold scaleAt
  rw [if_neg]
  intro h'
  obtain ⟨i, _, hi⟩ := List.mem_map.1 h'
  exact h.mem_params s hs i hi.symm

/-- Values of the symbols at a point given by homogeneous coordinates and parameters. -/
theorem exists_point {P : PolyObj} {name : List Char} {m : ℕ} (h : Proper P name m) (Z : Fin (m + 1) → ℂ)
    (ps : List ℂ) (hps : ps.length = P.md.params.length) :
    ∃ ρ : Sym → ℂ, (∀ i : Fin (m + 1), ρ (mergeSubscript name i) = Z i) ∧ P.md.paramInput ρ = ps := by
  obtain ⟨ρ, h1, h2⟩ := exists_assignment P.md h.wf [.vec (List.ofFn Z)] ps (by
    rw [h.vars]
    exact List.Forall₂.cons (by simp [ShapeOK]) List.Forall₂.nil) hps
  refine ⟨ρ, fun i => ?_, h2⟩
  simp only [Meta.inputs, h.vars, List.map_cons, List.map_nil, varInput, List.cons.injEq, Val.vec.injEq,
    and_true] at h1
  rw [← ofFn_range (fun i => ρ (mergeSubscript name i))] at h1
  exact congrFun (List.ofFn_injective h1) i

end Cyjax.Variety
