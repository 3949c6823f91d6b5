import Verif.Lemmas.Homogeneous
import Verif.Lemmas.ChartMetric
import Mathlib.Algebra.MvPolynomial.Monad

/-! # The defining function in affine patches as one homogeneous polynomial (for C102) -/

namespace Cyjax.Variety

open Cyjax.Polynomial Cyjax.Projective MvPolynomial

variable {n : ℕ}

/-- In patch `p` the defining function with the given parameters is the polynomial `F` in the homogeneous coordinates. -/
def Represents (V : HomKind) (params : Val) (p : Fin (n + 1)) (F : MvPolynomial (Fin (n + 1)) ℂ) : Prop :=
  ∀ zs : Fin n → ℂ, defining V (List.ofFn zs) params (some (.index p)) = .ok (eval (affineToHom zs (p : ℕ)) F)

theorem Represents.grad {V : HomKind} {params : Val} {p : Fin (n + 1)} {F : MvPolynomial (Fin (n + 1)) ℂ}
    (h : Represents V params p F) (zs : Fin n → ℂ) :
    gradDefining V zs params (some (.index p)) =
      .ok fun k => eval (affineToHom zs (p : ℕ)) (pderiv (p.succAbove k) F) := by
  unfold gradDefining
  rw [h]
  simp only [Except.ok.injEq]
  funext k
  have h1 := Donaldson.eval_hasDerivAt F (p.succAbove k) (affineToHom zs (p : ℕ))
  rw [affineToHom_succAbove] at h1
  refine Eq.trans ?_ h1.deriv
  congr 1
  funext t
  rw [h, affineToHom_update]
  rfl

/-- Substitute values for the parameters. -/
noncomputable def fixParams (name : List Char) (m : ℕ) (ρ : Sym → ℂ) (P : MvPolynomial Sym ℂ) :
    MvPolynomial (Fin (m + 1)) ℂ :=
  open Classical in
  bind₁ (fun s => if h : ∃ i : Fin (m + 1), s = mergeSubscript name i then X h.choose else C (ρ s)) P

theorem choose_eq {name : List Char} (hn : GoodName name) {m : ℕ} (i : Fin (m + 1))
    (h : ∃ j : Fin (m + 1), mergeSubscript name i = mergeSubscript name j) : h.choose = i :=
  (Fin.ext (merge_nat_inj hn h.choose_spec)).symm

theorem eval_fixParams {name : List Char} (hn : GoodName name) (m : ℕ) (ρ : Sym → ℂ) (P : MvPolynomial Sym ℂ)
    (Z : Fin (m + 1) → ℂ) (hZ : ∀ i : Fin (m + 1), ρ (mergeSubscript name i) = Z i) :
    eval Z (fixParams name m ρ P) = eval ρ P := by
  unfold fixParams
  have h := eval₂Hom_bind₁ (RingHom.id ℂ) Z (fun s => open Classical in
    if h : ∃ i : Fin (m + 1), s = mergeSubscript name i then X h.choose else C (ρ s)) P
  refine h.trans ?_
  change eval _ P = eval ρ P
  congr 2
  funext s
  split_ifs with hs
  · obtain ⟨i, rfl⟩ := id hs
    rw [choose_eq hn i hs, hZ]
    simp
  · simp

theorem fixParams_homogeneous {name : List Char} (hn : GoodName name) (m : ℕ) (ρ : Sym → ℂ) {P : MvPolynomial Sym ℂ}
    {d : ℕ} (h : HomogeneousIn P name m d) : (fixParams name m ρ P).IsHomogeneous d := by
  classical
  unfold fixParams
  rw [P.as_sum, map_sum]
  refine IsHomogeneous.sum _ _ _ fun mon hmon => ?_
  rw [bind₁_monomial]
  rw [← zero_add d]
  refine IsHomogeneous.mul (isHomogeneous_C _ _) ?_
  have hd := h mon hmon
  have hinj := merge_nat_inj hn
  have e : d = ∑ s ∈ mon.support, if ∃ i : Fin (m + 1), s = mergeSubscript name i then mon s else 0 := by
    rw [← hd, ← Finset.sum_filter]
    rw [← Finset.sum_image (f := fun s => mon s) (s := Finset.range (m + 1)) (g := mergeSubscript name)
      (fun _ _ _ _ h => hinj h)]
    symm
    refine Finset.sum_subset ?_ ?_
    · intro s hs
      rw [Finset.mem_filter] at hs
      obtain ⟨i, rfl⟩ := hs.2
      exact Finset.mem_image_of_mem _ (Finset.mem_range.2 i.isLt)
    · intro s hs hns
      rw [Finset.mem_filter] at hns
      obtain ⟨i, hi, rfl⟩ := Finset.mem_image.1 hs
      by_contra h0
      exact hns ⟨Finsupp.mem_support_iff.2 h0, ⟨i, Finset.mem_range.1 hi⟩, rfl⟩
  rw [e]
  refine IsHomogeneous.prod _ _ _ fun s _ => ?_
  split_ifs with hs
  · simpa using (isHomogeneous_X ℂ hs.choose).pow (mon s)
  · simpa using (isHomogeneous_C (Fin (m + 1)) (ρ s)).pow (mon s)

/-- A polynomial with parameters fixed. -/
theorem represents_fixParams {P : PolyObj} {name : List Char} {m : ℕ} (h : Proper P name m) (ps : List ℂ) (ρ₀ : Sym → ℂ)
    (hρ₀ : P.md.paramInput ρ₀ = ps) (p : Fin (m + 1)) (hp : HasPatch P name p) :
    Represents (.generic P) (.vec ps) p (fixParams name m ρ₀ P.poly) := by
  intro zs
  set ρ : Sym → ℂ := open Classical in fun s =>
    if hs : ∃ i : Fin (m + 1), s = mergeSubscript name i then affineToHom zs (p : ℕ) hs.choose else ρ₀ s with hρ
  have h1 : ∀ i : Fin (m + 1), ρ (mergeSubscript name i) = affineToHom zs (p : ℕ) i := by
    intro i
    have hs : ∃ j : Fin (m + 1), mergeSubscript name i = mergeSubscript name j := ⟨i, rfl⟩
    simp only [hρ, dif_pos hs]
    rw [choose_eq h.goodName i hs]
  have h2 : P.md.paramInput ρ = ps := by
    rw [← hρ₀]
    unfold Meta.paramInput
    refine List.map_congr_left fun s hs => ?_
    have : ¬ ∃ i : Fin (m + 1), s = mergeSubscript name i := fun ⟨i, hi⟩ => h.mem_params s hs i hi
    simp only [hρ, dif_neg this]
  have h3 : fixParams name m ρ₀ P.poly = fixParams name m ρ P.poly := by
    unfold fixParams
    congr 2
    funext s
    split_ifs with hs
    · rfl
    · simp only [hρ, dif_neg hs]
  have h4 := defining_patch h p hp ρ (by rw [h1, affineToHom_same])
  rw [h2] at h4
  rw [h3, eval_fixParams h.goodName m ρ P.poly _ h1, ← h4]
  congr 2
  funext k
  rw [h1, affineToHom_succAbove]

theorem represents_generic {P : PolyObj} {name : List Char} {m d : ℕ} (h : Proper P name m)
    (hh : HomogeneousIn P.poly name m d) (ps : List ℂ) (hps : ps.length = P.md.params.length) :
    ∃ F : MvPolynomial (Fin (m + 1)) ℂ, F.IsHomogeneous d ∧
      ∀ p : Fin (m + 1), HasPatch P name p → Represents (.generic P) (.vec ps) p F := by
  obtain ⟨ρ₀, -, hρ₀⟩ := exists_point h (fun _ => 0) ps hps
  exact ⟨fixParams name m ρ₀ P.poly, fixParams_homogeneous h.goodName m ρ₀ hh, represents_fixParams h ps ρ₀ hρ₀⟩

/-- The Dwork polynomial. -/
theorem represents_dwork {m : ℕ} (f : DworkFactor) (psi : ℂ) (rest : List ℂ) :
    ∃ F : MvPolynomial (Fin (m + 1)) ℂ, F.IsHomogeneous (m + 1) ∧
      ∀ p : Fin (m + 1), Represents (.dwork (m + 1) f) (.vec (psi :: rest)) p F := by
  refine ⟨∑ j, X j ^ (m + 1) + C (f.value * psi) * ∏ j, X j, ?_, fun p zs => ?_⟩
  · refine IsHomogeneous.add (IsHomogeneous.sum _ _ _ fun j _ => isHomogeneous_X_pow j _) ?_
    have h := IsHomogeneous.prod Finset.univ (fun j => (X j : MvPolynomial (Fin (m + 1)) ℂ)) (fun _ => 1)
      fun j _ => isHomogeneous_X ℂ j
    simpa using (h.C_mul (f.value * psi))
  · rw [defining_dwork_patch]
    congr 1
    simp only [map_add, map_sum, map_pow, map_mul, map_prod, eval_X, eval_C]
    rw [Fin.sum_univ_succAbove _ p, Fin.prod_univ_succAbove _ p]
    simp only [affineToHom_same, affineToHom_succAbove]
    ring

/-- The Fermat polynomial. -/
theorem represents_fermat {m : ℕ} (v : Val) :
    ∃ F : MvPolynomial (Fin (m + 1)) ℂ, F.IsHomogeneous (m + 1) ∧
      ∀ p : Fin (m + 1), Represents (.fermat (m + 1)) v p F := by
  refine ⟨∑ j, X j ^ (m + 1), IsHomogeneous.sum _ _ _ fun j _ => isHomogeneous_X_pow j _, fun p zs => ?_⟩
  rw [defining_fermat_patch]
  congr 1
  simp only [map_sum, map_pow, eval_X]
  rw [Fin.sum_univ_succAbove _ p]
  simp only [affineToHom_same, affineToHom_succAbove]
  ring

end Cyjax.Variety
