import Verif.Lemmas.RoundingPipeline
import Mathlib.RingTheory.RootsOfUnity.Complex

/-! # The accuracy reported after a numerical run of Donaldson's algorithm (C170) -/

namespace Cyjax

open Cyjax.Donaldson Cyjax.Variety Cyjax.Projective Cyjax.Fl Cyjax.Spec MvPolynomial
open Cyjax.Polynomial (Val)
open scoped ComplexOrder ComplexConjugate

variable {n : ℕ} {M : AlgebraicMetric (n + 1)} {params : Val} {B S : ℕ}

section Run

variable {p : ℕ → Fin B → Fin S → Fin (n + 2)} {z : ℕ → Fin B → Fin S → Fin (n + 1) → ℂ} {g : ℕ → Fin B → Fin S → Fin (n + 1) → ℂ}
  {w : ℕ → Fin B → Fin S → ℝ} {vol : ℕ → ℝ} {h : ℕ → M.H}
  (hB : B ≠ 0) (hvol : ∀ j, 0 < vol j)
  (hz : ∀ j i k l, ‖z j i k l‖ ≤ 1)
  (hg : ∀ j i k, gradDefining M.variety (z j i k) params (some (.index (p j i k))) = .ok (g j i k))
  (hg0 : ∀ j i k, g j i k ≠ 0)
  (hw : ∀ j i k, weight M.variety (z j i k) params (some (.index (p j i k))) none (some 1) = .ok (w j i k))
  (hmon : ∀ j i k, (sectionsJet M.sections (p j i k : ℕ) (z j i k)).s ≠ 0)
  (hspan : ∀ j, ∀ c : Fin M.sections.size → ℂ,
    (∀ i k, ∑ a, c a * (sectionsJet M.sections (p j i k : ℕ) (z j i k)).s a = 0) → c = 0)
  (h0 : (h 0).PosDef)
  (hh : ∀ j, donaldsonStep .complex (h j) (vol j) (fun i k => (sectionsJet M.sections (p j i k : ℕ) (z j i k)).s) (w j) = .ok (h (j + 1)))

include hB hvol hz hg hg0 hw hmon hspan h0 hh

/-- **C170, the matrices.** Let `h` be the matrices of Donaldson's algorithm at any points, with the exact weights. There are `C` and
`τ₀ > 0` such that in every arithmetic of accuracy `τ ≤ τ₀` the matrices `f` that are computed with computed sections, gradients and
weights have errors of at most `C τ` in every entry, for all steps up to step `k`. -/
theorem C170_matrices (d k : ℕ) : ∃ C τ₀ : ℝ, 0 ≤ C ∧ 0 < τ₀ ∧ ∀ (τ : ℝ) (A : Arith) (D : DivAbs) (inv : M.H → M.H),
    τ ≤ τ₀ → A.Accurate τ → D.Accurate τ → InvStable inv τ →
    ∀ c : ℕ → RunStep M.sections.size n B S,
      (∀ j < k, (c j).Accurate d τ (fun i k => (sectionsJet M.sections (p j i k : ℕ) (z j i k)).s) (g j) (vol j)) →
    ∀ f : ℕ → M.H, (∀ a b, ‖f 0 a b - h 0 a b‖ ≤ τ) → (∀ j < k, f (j + 1) = (c j).step A D inv (z j) (f j)) →
    ∀ j ≤ k, (∀ a b, ‖f j a b - h j a b‖ ≤ C * τ) ∧ (symmetrise (f j)).PosDef ∧ WithinFactor (1 + C * τ) (symmetrise (f j)) (h j) := by
  have hwl := fun j i k => weight_linear M.variety params (some (.index (p j i k))) (hz j i k) (hg j i k) (hg0 j i k) (some 1) (hw j i k) d
  have hw0 := fun j i k => (hwl j i k).1
  choose Cw τw hCw hτw Hw using fun j i k => (hwl j i k).2
  obtain ⟨C₁, τ₁, hC₁, hτ₁, H⟩ := C169_iteration hB hmon (fun j i k => (hw0 j i k).le) hvol
    (fun j c hc => hspan j c fun i k => hc i k (hw0 j i k)) h0 hh d k
  -- the largest constant of the weights
  obtain ⟨Q, hQ⟩ : ∃ x : ℝ, x = 1 + ∑ j ∈ Finset.range k, ∑ i, ∑ l, Cw j i l := ⟨_, rfl⟩
  have hsum0 : 0 ≤ ∑ j ∈ Finset.range k, ∑ i, ∑ l, Cw j i l :=
    Finset.sum_nonneg fun j _ => Finset.sum_nonneg fun i _ => Finset.sum_nonneg fun l _ => hCw j i l
  have hQ1 : 1 ≤ Q := by rw [hQ]; linarith
  have hQ0 : 0 < Q := by linarith
  have hCQ : ∀ j < k, ∀ i l, Cw j i l ≤ Q := by
    intro j hj i l
    have h1 := Finset.single_le_sum (f := fun j => ∑ i, ∑ l, Cw j i l)
      (fun j _ => Finset.sum_nonneg fun i _ => Finset.sum_nonneg fun l _ => hCw j i l) (Finset.mem_range.2 hj)
    have h2 := Finset.single_le_sum (f := fun i => ∑ l, Cw j i l) (fun i _ => Finset.sum_nonneg fun l _ => hCw j i l) (Finset.mem_univ i)
    have h3 := Finset.single_le_sum (f := fun l => Cw j i l) (fun l _ => hCw j i l) (Finset.mem_univ l)
    rw [hQ]
    linarith
  obtain ⟨τ₂, hτ₂, hτ₂le⟩ : ∃ τ₂ : ℝ, 0 < τ₂ ∧ ∀ j < k, ∀ i l, τ₂ ≤ τw j i l := by
    obtain ⟨τ₂, h1, h2⟩ := exists_min_pos (fun x : Fin k × Fin B × Fin S => τw x.1 x.2.1 x.2.2) fun x => hτw _ _ _
    exact ⟨τ₂, h1, fun j hj i l => h2 (⟨j, hj⟩, i, l)⟩
  refine ⟨C₁ * Q, min τ₂ (τ₁ / Q), by positivity, by positivity, ?_⟩
  intro τ A D inv hτ hA hD hi c hc f hf hstep j hj
  have hn := hA.nonneg
  have hτQ : τ ≤ Q * τ := by nlinarith
  have hτ1 : Q * τ ≤ τ₁ := by
    have := hτ.trans (min_le_right _ _)
    rw [le_div_iff₀ hQ0] at this
    linarith
  have key := H (Q * τ) A D inv hτ1 (hA.mono hτQ) (hD.mono hτQ) (hi.mono hτQ)
    (fun j => ⟨(c j).mon, (c j).weights A D (z j), (c j).vol, (c j).ta, (c j).tb, (c j).t⟩)
    (fun j hj => ⟨fun i l a => ((hc j hj).mon i l a).mono hτQ, fun i l => RelErr.of_abs (hw0 j i l).le ?_, (hc j hj).vol.mono hτQ,
      (hc j hj).ta, (hc j hj).tb, (hc j hj).t⟩) f (fun a b => (hf a b).trans hτQ) hstep j hj
  · rw [mul_assoc]
    exact key
  · have ha := hc j hj
    refine (Hw j i l τ A D ((hτ.trans (min_le_left _ _)).trans (hτ₂le j hj i l)) hA hD _ _ _ _ _ ha.det ha.tz.1 ha.tz.2 ha.tja ha.tjb ha.tj
      (ha.grad i l)).trans ?_
    exact mul_le_mul_of_nonneg_right (mul_le_mul_of_nonneg_right (hCQ j hj i l) hn) (hw0 j i l).le

/-- **C170.** The accuracy reported after `k` steps of the algorithm. Let the hypersurface be smooth, and let the sections of positive
degree span the coordinate ring. There are `C` and `τ₀ > 0` such that in every arithmetic of accuracy `τ ≤ τ₀` the value of
`sigma_accuracy` that is computed from the computed matrix, at any number of points on or near the hypersurface, differs by at most
`C τ` from the exact accuracy of the exact matrix at these points. -/
theorem C170_accuracy {e : ℕ} {F : MvPolynomial (Fin (n + 2)) ℂ} (hV : Hypersurface M.variety params (n + 1) e F)
    (hsm : SmoothHypersurface F) (hsp : SpansModulo F M.sections.degree M.sections.rows) (hk : M.sections.degree ≠ 0) (d k : ℕ) :
    ∃ C τ₀ : ℝ, 0 ≤ C ∧ 0 < τ₀ ∧ ∀ (τ : ℝ) (A : Arith) (D : DivAbs) (inv : M.H → M.H),
    τ ≤ τ₀ → A.Accurate τ → D.Accurate τ → InvStable inv τ →
    ∀ c : ℕ → RunStep M.sections.size n B S,
      (∀ j < k, (c j).Accurate d τ (fun i k => (sectionsJet M.sections (p j i k : ℕ) (z j i k)).s) (g j) (vol j)) →
    ∀ f : ℕ → M.H, (∀ a b, ‖f 0 a b - h 0 a b‖ ≤ τ) → (∀ j < k, f (j + 1) = (c j).step A D inv (z j) (f j)) →
    ∀ (count : ℕ) (q : Fin count → Fin (n + 2)) (x : Fin count → Fin (n + 1) → ℂ) (v : Fin count → ℂ) (G : Fin count → Fin (n + 1) → ℂ),
      (∀ j l, ‖x j l‖ ≤ 1) → (∀ j, defining M.variety (List.ofFn (x j)) params (some (.index (q j))) = .ok (v j)) → (∀ j, ‖v j‖ ≤ τ₀) →
      (∀ j, gradDefining M.variety (x j) params (some (.index (q j))) = .ok (G j)) →
    ∀ u : Fin count → Evaluation M.sections.size n, (∀ j, (u j).h = f k) →
      (∀ j, (u j).Accurate d τ (f k) (sectionsJet M.sections (q j : ℕ) (x j)) (G j)) →
    ∀ t : RTree (Fin count), t.Covers → t.depth ≤ d →
    ∃ η ω : Fin count → ℝ, (∀ j, M.eta (h k) (List.ofFn (x j)) params (some (q j : ℕ)) none none = .ok (η j : ℂ)) ∧
      (∀ j, weight M.variety (x j) params (some (.index (q j))) none (some 1) = .ok (ω j)) ∧
      |sigmaAccuracyF A D t (fun j => (u j).eta A D M.sections.degree) (fun j => (u j).weight A D (x j) (some 1)) -
        sigmaAccuracy (fun j => (η j : ℂ)) ω| ≤ C * τ := by
  obtain ⟨C₁, τ₁, hC₁, hτ₁, H₁⟩ := C170_matrices hB hvol hz hg hg0 hw hmon hspan h0 hh d k
  have hpd : (h k).PosDef := by
    have hw0 := fun j i k => (weight_linear M.variety params (some (.index (p j i k))) (hz j i k) (hg j i k) (hg0 j i k) (some 1) (hw j i k) d).1
    exact iterates_posDef hmon (fun j i k => (hw0 j i k).le) hvol (fun j c hc => hspan j c fun i k => hc i k (hw0 j i k)) h0 hh k
  obtain ⟨C₂, τ₂, hC₂, hτ₂, H₂⟩ := C168_accuracy hV hsm (h k) hpd hsp hk d
  refine ⟨C₂ * (1 + C₁), min τ₁ (min τ₂ (τ₂ / (1 + C₁))), by positivity, by positivity, ?_⟩
  intro τ A D inv hτ hA hD hi c hc f hf hstep count q x v G hx hv hv0 hG u hu huA t ht htd
  have hn := hA.nonneg
  have hτC : τ ≤ (1 + C₁) * τ := by nlinarith
  have hτ2 : (1 + C₁) * τ ≤ τ₂ := by
    have := (hτ.trans (min_le_right _ _)).trans (min_le_right _ _)
    rw [le_div_iff₀ (by linarith)] at this
    linarith
  obtain ⟨hfk, -, -⟩ := H₁ τ A D inv (hτ.trans (min_le_left _ _)) hA hD hi c hc f hf hstep k le_rfl
  obtain ⟨η, ω, h1, h2, h3⟩ := H₂ ((1 + C₁) * τ) A D hτ2 (hA.mono hτC) (hD.mono hτC) count q x v G (some 1) hx hv
    (fun j => (hv0 j).trans ((min_le_right _ _).trans (min_le_left _ _))) hG u
    (fun j => (huA j).mono hτC fun a b => by
      rw [hu j]
      have := hfk a b
      nlinarith) t ht htd
  exact ⟨η, ω, h1, h2, by rw [mul_assoc]; exact h3⟩

/-- **C170, binary digits.** With numbers of `p` binary digits the error is at most a constant times `2^(-p)`, for all sufficiently large
`p`, at points on the hypersurface. -/
theorem C170_binary {e : ℕ} {F : MvPolynomial (Fin (n + 2)) ℂ} (hV : Hypersurface M.variety params (n + 1) e F)
    (hsm : SmoothHypersurface F) (hsp : SpansModulo F M.sections.degree M.sections.rows) (hk : M.sections.degree ≠ 0) (d k : ℕ) :
    ∃ (C : ℝ) (b₀ : ℕ), ∀ b, b₀ ≤ b → ∀ inv : M.H → M.H, InvStable inv (4 * 2 ^ (-(b : ℤ))) →
    ∀ c : ℕ → RunStep M.sections.size n B S,
      (∀ j < k, (c j).Accurate d (4 * 2 ^ (-(b : ℤ))) (fun i k => (sectionsJet M.sections (p j i k : ℕ) (z j i k)).s) (g j) (vol j)) →
    ∀ f : ℕ → M.H, f 0 = h 0 → (∀ j < k, f (j + 1) = (c j).step (ofRounding (rnd b)) (divAbsOfRounding (rnd b)) inv (z j) (f j)) →
    ∀ (count : ℕ) (q : Fin count → Fin (n + 2)) (x : Fin count → Fin (n + 1) → ℂ) (G : Fin count → Fin (n + 1) → ℂ),
      (∀ j l, ‖x j l‖ ≤ 1) → (∀ j, defining M.variety (List.ofFn (x j)) params (some (.index (q j))) = .ok 0) →
      (∀ j, gradDefining M.variety (x j) params (some (.index (q j))) = .ok (G j)) →
    ∀ u : Fin count → Evaluation M.sections.size n, (∀ j, (u j).h = f k) →
      (∀ j, (u j).Accurate d (4 * 2 ^ (-(b : ℤ))) (f k) (sectionsJet M.sections (q j : ℕ) (x j)) (G j)) →
    ∀ t : RTree (Fin count), t.Covers → t.depth ≤ d →
    ∃ η ω : Fin count → ℝ, (∀ j, M.eta (h k) (List.ofFn (x j)) params (some (q j : ℕ)) none none = .ok (η j : ℂ)) ∧
      (∀ j, weight M.variety (x j) params (some (.index (q j))) none (some 1) = .ok (ω j)) ∧
      |sigmaAccuracyF (ofRounding (rnd b)) (divAbsOfRounding (rnd b)) t (fun j => (u j).eta (ofRounding (rnd b)) (divAbsOfRounding (rnd b))
          M.sections.degree) (fun j => (u j).weight (ofRounding (rnd b)) (divAbsOfRounding (rnd b)) (x j) (some 1)) -
        sigmaAccuracy (fun j => (η j : ℂ)) ω| ≤ C * 2 ^ (-(b : ℤ)) := by
  obtain ⟨C, τ₀, hC, hτ₀, H⟩ := C170_accuracy hB hvol hz hg hg0 hw hmon hspan h0 hh hV hsm hsp hk d k
  obtain ⟨b₀, hb₀⟩ := exists_pow_lt_of_lt_one (show 0 < τ₀ / 4 by positivity) (show (1 / 2 : ℝ) < 1 by norm_num)
  refine ⟨C * 4, max 1 b₀, fun b hb inv hi c hc f hf hstep count q x G hx hv hG u hu huA t ht htd => ?_⟩
  have e : (2 : ℝ) ^ (-(b : ℤ)) = (1 / 2) ^ b := by rw [zpow_neg, zpow_natCast, one_div, inv_pow]
  have hτ : 4 * (2 : ℝ) ^ (-(b : ℤ)) ≤ τ₀ := by
    have : (1 / 2 : ℝ) ^ b ≤ (1 / 2) ^ b₀ := pow_le_pow_of_le_one (by norm_num) (by norm_num) ((le_max_right _ _).trans hb)
    rw [e]
    linarith
  obtain ⟨η, ω, h1, h2, h3⟩ := H _ _ _ inv hτ (C159_floats b ((le_max_left _ _).trans hb)).2 (C161_floats b) hi c hc f
    (fun a b => by rw [hf, sub_self, norm_zero]; positivity) hstep count q x (fun _ => 0) G hx hv
    (fun _ => by rw [norm_zero]; exact hτ₀.le) hG u hu huA t ht htd
  refine ⟨η, ω, h1, h2, ?_⟩
  rwa [← mul_assoc] at h3

end Run

/-! The Fermat quintic with the five linear sections, and one batch of five points, the same in every step. -/

private theorem exists_zeta : ∃ ζ : ℂ, ζ ^ 5 = 1 ∧ ζ ≠ 1 ∧ ‖ζ‖ = 1 := by
  have h := Complex.isPrimitiveRoot_exp 5 (by norm_num)
  refine ⟨_, h.pow_eq_one, h.ne_one (by norm_num), ?_⟩
  exact Complex.norm_eq_one_of_pow_eq_one h.pow_eq_one (by norm_num)

private def exM : AlgebraicMetric 4 := ⟨.fermat 5, ⟨1, [![1, 0, 0, 0, 0], ![0, 1, 0, 0, 0], ![0, 0, 1, 0, 0], ![0, 0, 0, 1, 0], ![0, 0, 0, 0, 1]]⟩⟩

private theorem exM_sections : exM.sections = monomialBasisFull 4 1 := by
  show (⟨1, _⟩ : MonomialSections 4) = ⟨1, _⟩
  congr 1
  decide +kernel

private noncomputable def exZ (ζ : ℂ) : Fin 5 → Fin 4 → ℂ :=
  ![![-1, 0, 0, 0], ![0, -1, 0, 0], ![0, 0, -1, 0], ![0, 0, 0, -1], ![-ζ, 0, 0, 0]]

private theorem exZ_norm {ζ : ℂ} (hζ : ‖ζ‖ = 1) (k : Fin 5) (l : Fin 4) : ‖exZ ζ k l‖ ≤ 1 := by
  fin_cases k <;> fin_cases l <;> simp [exZ, hζ]

private theorem exZ_on {ζ : ℂ} (hζ : ζ ^ 5 = 1) (k : Fin 5) :
    eval (affineToHom (exZ ζ k) ((0 : Fin 5) : ℕ)) (∑ j, X j ^ 5 : MvPolynomial (Fin 5) ℂ) = 0 := by
  rw [map_sum, Fin.sum_univ_succAbove _ 0]
  simp only [map_pow, eval_X, affineToHom_same, affineToHom_succAbove, Fin.sum_univ_four]
  have h5 : (-ζ) ^ 5 = -1 := by rw [neg_pow, hζ]; norm_num
  fin_cases k <;> simp [exZ, h5] <;> norm_num

private theorem exS (z : Fin 4 → ℂ) (a : Fin 5) : (sectionsJet exM.sections ((0 : Fin 5) : ℕ) z).s a = affineToHom z ((0 : Fin 5) : ℕ) a := by
  have hB : ∀ a i, exM.sections.powers a i ≤ exM.sections.degree := by decide
  show exM.sections.call z ((0 : Fin 5) : ℕ) true a = _
  rw [show exM.sections.call z ((0 : Fin 5) : ℕ) true a = monomialsIndex z ((0 : Fin 5) : ℕ) exM.sections.powers exM.sections.degree a from rfl,
    C60_affine z 0 _ _ hB a]
  fin_cases a <;> simp [Fin.prod_univ_succ, exM, MonomialSections.powers]

private theorem exSpan {ζ : ℂ} (hζ : ζ ≠ 1) (c : Fin 5 → ℂ)
    (h : ∀ k, ∑ a, c a * affineToHom (exZ ζ k) ((0 : Fin 5) : ℕ) a = 0) : c = 0 := by
  have key : ∀ k, c 0 + (c 1 * exZ ζ k 0 + c 2 * exZ ζ k 1 + c 3 * exZ ζ k 2 + c 4 * exZ ζ k 3) = 0 := by
    intro k
    have := h k
    rw [Fin.sum_univ_succAbove _ 0] at this
    simp only [affineToHom_same, affineToHom_succAbove, Fin.sum_univ_four, mul_one] at this
    exact this
  have k0 := key 0
  have k1 := key 1
  have k2 := key 2
  have k3 := key 3
  have k4 := key 4
  simp [exZ] at k0 k1 k2 k3 k4
  have e : c 1 * (1 - ζ) = 0 := by linear_combination k4 - k0
  have c1 : c 1 = 0 := (mul_eq_zero.1 e).resolve_right (sub_ne_zero.2 hζ.symm)
  have c0 : c 0 = 0 := by linear_combination k0 + c1
  funext a
  fin_cases a
  · exact c0
  · exact c1
  · show c 2 = 0
    linear_combination c0 - k1
  · show c 3 = 0
    linear_combination c0 - k2
  · show c 4 = 0
    linear_combination c0 - k3

private noncomputable def exH (w : Fin 1 → Fin 5 → ℝ) (ζ : ℂ) : ℕ → exM.H
  | 0 => 1
  | j + 1 => (stepT (exH w ζ j) 1 (fun (_ : Fin 1) k => (sectionsJet exM.sections ((0 : Fin 5) : ℕ) (exZ ζ k)).s) w)⁻¹.transpose

private def exTr (a b c d e : Fin 5) : RTree (Fin 5) := .node (.leaf a) (.node (.leaf b) (.node (.leaf c) (.node (.leaf d) (.leaf e))))
private def exTr4 : RTree (Fin 4) := .node (.node (.leaf 0) (.leaf 1)) (.node (.leaf 2) (.leaf 3))

private theorem exTr_covers : ((exTr 0 1 2 3 4).Covers ∧ (exTr 0 1 2 3 4).depth ≤ 6) ∧ ((exTr 4 3 2 1 0).Covers ∧ (exTr 4 3 2 1 0).depth ≤ 6) ∧
    ((exTr 0 2 4 1 3).Covers ∧ (exTr 0 2 4 1 3).depth ≤ 6) := by
  unfold RTree.Covers
  decide

private theorem exTr4_covers : exTr4.Covers := by
  unfold RTree.Covers
  decide

/-- The hypotheses of the theorems are met, and there are accurate steps. -/
example : ∃ (z : Fin 5 → Fin 4 → ℂ) (g : Fin 5 → Fin 4 → ℂ) (w : Fin 5 → ℝ) (h : ℕ → exM.H), exM.sections = monomialBasisFull 4 1 ∧
    (∃ F, Hypersurface exM.variety (.vec []) 4 5 F ∧ SmoothHypersurface F ∧ SpansModulo F exM.sections.degree exM.sections.rows) ∧
    (∀ k l, ‖z k l‖ ≤ 1) ∧ (∀ k, defining exM.variety (List.ofFn (z k)) (.vec []) (some (.index 0)) = .ok 0) ∧
    (∀ k, weight exM.variety (z k) (.vec []) (some (.index 0)) none (some 1) = .ok (w k)) ∧ h 0 = 1 ∧
    (∀ j, donaldsonStep .complex (h j) 1 (fun (_ : Fin 1) l => (sectionsJet exM.sections ((0 : Fin 5) : ℕ) (z l)).s) (fun _ => w) =
      .ok (h (j + 1))) ∧
    (∀ d k, ∃ C τ₀ : ℝ, 0 ≤ C ∧ 0 < τ₀ ∧ ∀ (τ : ℝ) (A : Arith) (D : DivAbs) (inv : exM.H → exM.H),
      τ ≤ τ₀ → A.Accurate τ → D.Accurate τ → InvStable inv τ →
      ∀ c : ℕ → RunStep 5 3 1 5, (∀ j < k, (c j).Accurate d τ (fun _ l => (sectionsJet exM.sections ((0 : Fin 5) : ℕ) (z l)).s) (fun _ => g) 1) →
      ∀ f : ℕ → exM.H, (∀ a b, ‖f 0 a b - h 0 a b‖ ≤ τ) → (∀ j < k, f (j + 1) = (c j).step A D inv (fun _ => z) (f j)) →
      ∀ a b, ‖f k a b - h k a b‖ ≤ C * τ) ∧
    ∀ τ, 0 ≤ τ → ∃ c : RunStep 5 3 1 5, c.Accurate 6 τ (fun _ l => (sectionsJet exM.sections ((0 : Fin 5) : ℕ) (z l)).s) (fun _ => g) 1 := by
  obtain ⟨ζ, h5, h1, hn⟩ := exists_zeta
  obtain ⟨hF, hsm⟩ := C114_fermat (m := 4) (.vec [])
  have hon : ∀ k, defining exM.variety (List.ofFn (exZ ζ k)) (.vec []) (some (.index 0)) = .ok 0 := fun k => by
    rw [← exZ_on h5 k]
    exact hF.defining 0 (exZ ζ k)
  have hgr : ∀ k, ∃ g, gradDefining exM.variety (exZ ζ k) (.vec []) (some (.index 0)) = .ok g ∧ g ≠ 0 := fun k =>
    ⟨_, hF.grad 0 (exZ ζ k), fun h0 => (C114_gradient hF).1 hsm 0 (exZ ζ k) (hon k) (by rw [← h0]; exact hF.grad 0 (exZ ζ k))⟩
  choose g hg hg0 using hgr
  have hwt : ∀ k, ∃ w, weight exM.variety (exZ ζ k) (.vec []) (some (.index 0)) none (some 1) = .ok w := fun k => by
    obtain ⟨i, hi⟩ := Function.ne_iff.1 (hg0 k)
    obtain ⟨w, hw, -⟩ := C30_positive exM.variety (exZ ζ k) (.vec []) (some (.index 0)) (g k) (hg k) i hi none (Or.inl rfl) (some 1)
    exact ⟨w, hw⟩
  choose w hw using hwt
  have hmon : ∀ k, (sectionsJet exM.sections ((0 : Fin 5) : ℕ) (exZ ζ k)).s ≠ 0 := fun k h0 => by
    have h2 := congrFun h0 (0 : Fin 5)
    have h3 := exS (exZ ζ k) 0
    rw [affineToHom_same] at h3
    exact one_ne_zero (h3.symm.trans h2)
  refine ⟨exZ ζ, g, w, exH (fun _ => w) ζ, exM_sections, ⟨_, hF, hsm, by rw [exM_sections]; exact (C105_sections _ 1).1⟩, exZ_norm hn, hon, hw, rfl, fun j => rfl, fun d k => ?_, fun τ hτ => ?_⟩
  · obtain ⟨C, τ₀, hC, hτ₀, H⟩ := C170_matrices (M := exM) (params := .vec []) (B := 1) (S := 5) (p := fun _ _ _ => 0) (z := fun _ _ => exZ ζ)
      (g := fun _ _ => g) (w := fun _ _ => w) (vol := fun _ => 1) (h := exH (fun _ => w) ζ) one_ne_zero (fun _ => one_pos)
      (fun _ _ => exZ_norm hn) (fun _ _ => hg) (fun _ _ => hg0) (fun _ _ => hw) (fun _ _ => hmon)
      (fun _ c hc => exSpan h1 c fun k => (Finset.sum_congr rfl fun a _ => by rw [← exS]).trans (hc 0 k)) Matrix.PosDef.one (fun j => rfl) d k
    exact ⟨C, τ₀, hC, hτ₀, fun τ A D inv hτ hA hD hi c hc f hf hs => (H τ A D inv hτ hA hD hi c hc f hf hs k le_rfl).1⟩
  · have hr : ∀ x : ℂ, RelErr τ x x := fun x => by
      rw [RelErr, sub_self, norm_zero]
      positivity
    refine ⟨⟨_, fun _ => g, 1, Matrix.det, exTr 0 1 2 3 4, exTr 4 3 2 1 0, exTr 0 2 4 1 3, exTr4, exTr4, exTr4⟩, fun _ _ _ => hr _,
      fun i k a => by rw [sub_self, norm_zero]; exact hτ, hr _, fun X b hb => ⟨0, fun i j => ?_, by rw [add_zero]⟩,
      exTr_covers.1, exTr_covers.2.1, exTr_covers.2.2, ⟨exTr4_covers, ?_⟩, exTr4_covers, exTr4_covers, ?_⟩
    rotate_left
    · show exTr4.depth ≤ 6
      decide
    · show exTr4.depth + exTr4.depth + 2 ≤ 6
      decide
    rw [Matrix.zero_apply, norm_zero]
    exact mul_nonneg hτ ((norm_nonneg _).trans (hb i j))

end Cyjax
