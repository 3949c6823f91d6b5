import Verif.Lemmas.RoundingEta
import Verif.Props.RoundingWeights
import Verif.Props.RoundingAccuracy
import Verif.Props.AlgebraicMetric
import Mathlib.Analysis.Calculus.Deriv.Basic
import Mathlib.Analysis.Calculus.FDeriv.Mul
import Mathlib.Analysis.Calculus.FDeriv.Pow
import Mathlib.Analysis.Calculus.Deriv.Inv

/-! # Rounding errors in units of the accuracy of the arithmetic (for C168) -/

namespace Cyjax.Fl

open scoped Topology

/-! ## Growth factors as functions of the accuracy -/

/-- A differentiable growth factor, one for exact arithmetic. -/
def Gr (f : ℝ → ℝ) : Prop := f 0 = 1 ∧ DifferentiableAt ℝ f 0

theorem Gr.one_add (c : ℝ) : Gr fun τ => 1 + c * τ := ⟨by simp, by fun_prop⟩

theorem Gr.id_add : Gr fun τ => 1 + τ := ⟨by simp, by fun_prop⟩

theorem Gr.mul {f g : ℝ → ℝ} (hf : Gr f) (hg : Gr g) : Gr fun τ => f τ * g τ := ⟨by simp [hf.1, hg.1], hf.2.mul hg.2⟩

theorem Gr.pow {f : ℝ → ℝ} (hf : Gr f) (k : ℕ) : Gr fun τ => f τ ^ k := ⟨by simp [hf.1], hf.2.pow k⟩

theorem Gr.div_two_sub {f g : ℝ → ℝ} (hf : Gr f) (hg : Gr g) : Gr fun τ => f τ / (2 - g τ) := by
  have h : (2 : ℝ) - g 0 = 1 := by rw [hg.1]; norm_num
  refine ⟨by simp only [hf.1, h, div_one], hf.2.div ((differentiableAt_const _).sub hg.2) ?_⟩
  rw [h]
  exact one_ne_zero

theorem Gr.affine {f : ℝ → ℝ} (hf : Gr f) (c : ℝ) : Gr fun τ => 1 + c * (f τ - 1) :=
  ⟨by simp [hf.1], (differentiableAt_const _).add ((differentiableAt_const _).mul (hf.2.sub (differentiableAt_const _)))⟩

theorem Gr.lt_two {f : ℝ → ℝ} (hf : Gr f) : ∀ᶠ τ in 𝓝 0, f τ < 2 :=
  hf.2.continuousAt.eventually_lt_const (by rw [hf.1]; norm_num)

theorem Gr.linear {f : ℝ → ℝ} (hf : Gr f) : ∃ C, 0 ≤ C ∧ ∀ᶠ τ in 𝓝 0, 0 ≤ τ → f τ - 1 ≤ C * τ := by
  obtain ⟨C, hC, h⟩ := hf.2.isBigO_sub.exists_nonneg
  refine ⟨C, hC, ?_⟩
  filter_upwards [h.bound] with τ hτ h0
  rw [hf.1, sub_zero, Real.norm_of_nonneg h0] at hτ
  exact (le_abs_self _).trans hτ

variable {ε δ τ : ℝ} {A : Arith} {D : DivAbs}

theorem Arith.Accurate.mono (hA : A.Accurate ε) (h : ε ≤ δ) : A.Accurate δ where
  nonneg := hA.nonneg.trans h
  add a b := (hA.add a b).trans (mul_le_mul_of_nonneg_right h (norm_nonneg _))
  mul a b := (hA.mul a b).trans (mul_le_mul_of_nonneg_right h (norm_nonneg _))
  const r := (hA.const r).trans (mul_le_mul_of_nonneg_right h (abs_nonneg _))

theorem DivAbs.Accurate.mono (hD : D.Accurate ε) (h : ε ≤ δ) : D.Accurate δ where
  div a b hb := (hD.div a b hb).trans (mul_le_mul_of_nonneg_right h (norm_nonneg _))
  abs a := (hD.abs a).trans (mul_le_mul_of_nonneg_right h (norm_nonneg _))

theorem RelErr.mono {y x : ℂ} (hy : RelErr ε y x) (h : ε ≤ δ) : RelErr δ y x := hy.trans (mul_le_mul_of_nonneg_right h (norm_nonneg _))

end Cyjax.Fl

namespace Cyjax.Spec

theorem DetStable.mono {n : ℕ} {detF : Matrix (Fin n) (Fin n) ℂ → ℂ} {ε δ : ℝ} (hd : DetStable detF ε) (h : ε ≤ δ) : DetStable detF δ := by
  intro X b hb
  obtain ⟨E, hE, hX⟩ := hd X b hb
  refine ⟨E, fun i j => (hE i j).trans (mul_le_mul_of_nonneg_right h ((norm_nonneg _).trans (hb i j))), hX⟩

end Cyjax.Spec

namespace Cyjax.Donaldson

open Cyjax.Variety Cyjax.Projective Cyjax.Differential Cyjax.Fl Cyjax.Spec Cyjax.Util
open Cyjax.Polynomial (Val)
open scoped ComplexOrder ComplexConjugate Topology

variable {N n : ℕ} {A : Arith} {D : DivAbs} {τ a H : ℝ} {g g' : Fin (n + 1) → ℂ} {d : Fin (n + 1)}

/-! ## Gradients with absolute errors -/

/-- Growth of the errors of the Jacobian. -/
noncomputable def jacU (τ : ℝ) : ℝ := (1 + τ) * ((1 + τ) / (2 - (1 + 2 * τ)))

theorem gr_jacU : Gr jacU := Gr.id_add.mul (Gr.id_add.div_two_sub (Gr.one_add 2))

/-- Sizes of the entries of the Jacobian. -/
noncomputable def jacSize (d : Fin (n + 1)) (k : Fin n) : Fin (n + 1) → ℝ := d.insertNth 2 fun l : Fin n => if k = l then 1 else 0

theorem jacSize_sum (d : Fin (n + 1)) (k : Fin n) : ∑ j, jacSize d k j = 3 := by
  rw [Fin.sum_univ_succAbove _ d]
  simp only [jacSize, Fin.insertNth_apply_same, Fin.insertNth_apply_succAbove, Finset.sum_ite_eq, Finset.mem_univ, if_true]
  norm_num

/-- `g'` is an approximation of `g` with errors of at most `τ` in units of `a`, the largest entry, and `d` is an entry of at least half
this size. -/
structure GradNear (τ a : ℝ) (g' g : Fin (n + 1) → ℂ) (d : Fin (n + 1)) : Prop where
  err : ∀ i, ‖g' i - g i‖ ≤ τ * a
  size : ∀ i, ‖g i‖ ≤ a
  large : a ≤ 2 * ‖g d‖
  ne : g d ≠ 0

theorem GradNear.dep (h : GradNear τ a g' g d) (h0 : 0 ≤ τ) : NearG (1 + 2 * τ) (g' d) (g d) ‖g d‖ := by
  refine ⟨(h.err d).trans ?_, le_rfl, by linarith⟩
  have := mul_le_mul_of_nonneg_left h.large h0
  linarith

theorem jacU_near (h0 : 0 ≤ τ) (h1 : 2 * τ < 1) (hD : D.Accurate τ) (hg : GradNear τ a g' g d) (k : Fin n) (j : Fin (n + 1)) :
    NearG (jacU τ) (jacEmbedF D g' (d : ℕ) k j) (jacobianEmbed g (d : ℕ) k j) (jacSize d k j) := by
  have hn : 0 < ‖g d‖ := norm_pos_iff.2 hg.ne
  have hrel : ∀ i, NearG (1 + τ) (g' i) (g i) a := fun i => ⟨by rw [add_sub_cancel_left]; exact hg.err i, hg.size i, by linarith⟩
  have hq := (hrel (d.succAbove k)).neg.div h0 hD (hg.dep h0) hg.ne (by linarith)
  rw [jacEmbedF_eq]
  unfold jacF
  simp only [pop_fst, pop_snd]
  rw [insertCol1_insertNth]
  rcases eq_or_ne j d with rfl | hj
  · rw [Fin.insertNth_apply_same, jacobianEmbed_dep, jacSize, Fin.insertNth_apply_same]
    refine nearG_size hq ?_
    rw [div_le_iff₀ hn]
    exact hg.large
  · obtain ⟨l, rfl⟩ := Fin.exists_succAbove_eq hj
    rw [Fin.insertNth_apply_succAbove, jacobianEmbed_indep, jacSize, Fin.insertNth_apply_succAbove]
    have hr := (NearG.refl (if k = l then (1 : ℂ) else 0)).mono hq.one_le
    refine nearG_size hr ?_
    split_ifs <;> simp

theorem gLocU_near (hA : A.Accurate τ) (h1 : 2 * τ < 1) (hD : D.Accurate τ) {PJ : Path (n + 1)} {k : ℕ} (hP : PJ.Within k)
    {M M' : Matrix (Fin (n + 1)) (Fin (n + 1)) ℂ} {c : ℝ} (hM : ∀ i j, NearG H (M' i j) (M i j) c) (hg : GradNear τ a g' g d) (i j : Fin n) :
    NearG ((1 + τ) ^ k * (jacU τ ^ 2 * H)) (gLocF A D PJ M' g' (d : ℕ) i j) (inducedMetric M g (d : ℕ) none i j) (c * 9) := by
  set J := jacobianEmbed g ((d : ℕ) : ℤ) with hJ
  have hjac := jacU_near hA.nonneg h1 hD hg
  have h2 := contractF_full_near hA hP hM (fun a => hjac i a) (fun a => nearG_conj (hjac j a))
  have e1 : (1 + τ) ^ k * (jacU τ * H * jacU τ) = (1 + τ) ^ k * (jacU τ ^ 2 * H) := by ring
  rw [e1] at h2
  have e2 : (∑ a, ∑ b, J i a * M a b * conj (J j b)) = inducedMetric M g (d : ℕ) none i j := by
    rw [C28_pullback, ← hJ, Finset.sum_comm]
    simp only [Matrix.mul_apply, Matrix.conjTranspose_apply, Finset.sum_mul, RCLike.star_def]
  have e3 : ∑ a, ∑ b, jacSize d i a * c * jacSize d j b = c * 9 := by
    calc _ = c * ((∑ a, jacSize d i a) * ∑ b, jacSize d j b) := by
          rw [Finset.sum_mul_sum, Finset.mul_sum]
          refine Finset.sum_congr rfl fun a _ => ?_
          rw [Finset.mul_sum]
          exact Finset.sum_congr rfl fun b _ => by ring
      _ = _ := by rw [jacSize_sum, jacSize_sum]; ring
  rw [← hJ, e2, e3] at h2
  exact h2

theorem inducedF_eq (A : Arith) (D : DivAbs) (t ta tb : RTree (Fin (n + 1))) (z : Fin (n + 1) → ℂ) (dep : ℤ) :
    inducedF A D t ta tb g' z dep = gLocF A D ⟨true, ta, tb⟩ (fsMetricAtF A D t z) g' dep := rfl

/-- The chosen entry of the gradient is not small. -/
theorem chooseDepU (hA : A.Accurate τ) (hD : D.Accurate τ) (hτ : τ ≤ 1 / 20) (ha : 0 < a) (herr : ∀ i, ‖g' i - g i‖ ≤ τ * a)
    (hsize : ∀ i, ‖g i‖ ≤ a) (hmax : ∃ i, ‖g i‖ = a) :
    ∃ d : Fin (n + 1), chooseDepF D g' none = ((d : ℕ) : ℤ) ∧ GradNear τ a g' g d := by
  have h0 := hA.nonneg
  set d := argmax fun i => D.abs (g' i) with hdd
  have h2 := (C162_argmax D τ (by linarith) hD g').1
  rw [← hdd] at h2
  obtain ⟨i, hi⟩ := hmax
  have e1 : (1 - τ) * a ≤ ‖g' i‖ := by
    have := norm_sub_norm_le (g i) (g' i)
    rw [norm_sub_rev] at this
    linarith [herr i]
  have e2 : ‖g' d‖ ≤ ‖g d‖ + τ * a := by
    have := norm_sub_norm_le (g' d) (g d)
    linarith [herr d]
  have e3 := h2 i
  have p2 : 0 < 1 - τ := by linarith
  rw [div_mul_eq_mul_div, le_div_iff₀ p2] at e3
  have e4 : (1 - τ) * a * (1 - τ) ≤ (1 + τ) * (‖g d‖ + τ * a) :=
    (mul_le_mul_of_nonneg_right e1 p2.le).trans (e3.trans (mul_le_mul_of_nonneg_left e2 (by linarith)))
  have e5 : a ≤ 2 * ‖g d‖ := by
    nlinarith [mul_nonneg h0 ha.le, norm_nonneg (g d), mul_nonneg h0 (norm_nonneg (g d)), mul_nonneg (mul_nonneg h0 h0) ha.le]
  refine ⟨d, rfl, herr, hsize, e5, fun hc => ?_⟩
  rw [hc, norm_zero] at e5
  linarith

theorem sqU_near (hA : A.Accurate τ) (hD : D.Accurate τ) (hg : GradNear τ a g' g d) :
    NearG ((1 + τ) ^ 3 * (1 + 2 * τ) ^ 2) (intPow A.mul (D.abs (g' d)) 2) ((‖g d‖ ^ 2 : ℝ) : ℂ) (‖g d‖ ^ 2) := by
  have h2 := (hg.dep hA.nonneg).abs hA.nonneg hD
  have h3 := h2.mul hA h2
  rw [intPow_two]
  have e : (1 + τ) * ((1 + τ) * (1 + 2 * τ) * ((1 + τ) * (1 + 2 * τ))) = (1 + τ) ^ 3 * (1 + 2 * τ) ^ 2 := by ring
  rw [e, ← sq, ← sq] at h3
  push_cast
  exact h3

/-! ## Growth of the errors of `eta` -/

/-- The growth of the contractions, and of `psi` with sums of absolute values of at most `B` times the sum. -/
noncomputable def conU (k : ℕ) (τ : ℝ) : ℝ := (1 + τ) ^ k * (1 + τ) ^ 3
noncomputable def psiU (k : ℕ) (B τ : ℝ) : ℝ := 1 + B * (conU k τ - 1)
noncomputable def projU (k : ℕ) (B τ : ℝ) : ℝ := projGrowth τ (conU k τ) (psiU k B τ)
noncomputable def locU (k : ℕ) (B τ : ℝ) : ℝ := (1 + τ) ^ k * (jacU τ ^ 2 * projU k B τ)

/-- The growth of the determinant of a matrix with entries of at most `c` and lower bound `m`. -/
noncomputable def detU (n : ℕ) (c m : ℝ) (f : ℝ → ℝ) (τ : ℝ) : ℝ := (1 + n ^ 2 * ((f τ * (1 + τ) - 1) * c) / m) ^ n

noncomputable def etaU (n k : ℕ) (B c : ℝ) (τ : ℝ) : ℝ := (1 + τ) * (detU n c (1 / B) (locU k B) τ * ((1 + τ) ^ 3 * (1 + 2 * τ) ^ 2))

theorem gr_con (k : ℕ) : Gr (conU k) := (Gr.id_add.pow k).mul (Gr.id_add.pow 3)
theorem gr_psi (k : ℕ) (B : ℝ) : Gr (psiU k B) := (gr_con k).affine B

theorem gr_proj (k : ℕ) (B : ℝ) : Gr (projU k B) := by
  have h := (((Gr.id_add.pow 4).mul ((gr_con k).pow 2)).div_two_sub (Gr.id_add.mul ((gr_psi k B).pow 2))).div_two_sub (Gr.id_add.pow 2)
  have e : projU k B = fun τ => (1 + τ) ^ 4 * conU k τ ^ 2 / (2 - (1 + τ) * psiU k B τ ^ 2) / (2 - (1 + τ) ^ 2) := by
    funext τ
    rw [projU, projGrowth, div_div]
  rw [e]
  exact h

theorem gr_loc (k : ℕ) (B : ℝ) : Gr (locU k B) := (Gr.id_add.pow k).mul ((gr_jacU.pow 2).mul (gr_proj k B))

theorem gr_det (n : ℕ) (c m : ℝ) {f : ℝ → ℝ} (hf : Gr f) : Gr (detU n c m f) := by
  have h := ((hf.mul Gr.id_add).affine (n ^ 2 * c / m)).pow n
  have e : detU n c m f = fun τ => (1 + n ^ 2 * c / m * (f τ * (1 + τ) - 1)) ^ n := by
    funext τ
    rw [detU]
    congr 2
    ring
  rw [e]
  exact h

theorem gr_eta (n k : ℕ) (B c : ℝ) : Gr (etaU n k B c) :=
  Gr.id_add.mul ((gr_det n c _ (gr_loc k B)).mul ((Gr.id_add.pow 3).mul ((Gr.one_add 2).pow 2)))

/-- Bound of the terms of a contraction with a matrix that differs from `h` by at most one in every entry. -/
noncomputable def sizeTerms (h : Matrix (Fin N) (Fin N) ℂ) (x y : Fin N → ℂ) : ℝ := ∑ i, ∑ j, ‖x i‖ * (‖h i j‖ + 1) * ‖y j‖

/-- The conditions on the sections, the form and the gradient at a point for which the errors are bounded by `B`. -/
structure GoodAt (h : Matrix (Fin N) (Fin N) ℂ) (degree : ℕ) (B : ℝ) (S : Jet N (n + 1)) (g : Fin (n + 1) → ℂ) : Prop where
  pos : 0 < Graph.psi (.full h) S
  s0 : sizeTerms h S.s S.s ≤ B * (Graph.psi (.full h) S).re
  s1 : ∀ a, sizeTerms h (fun i => S.s1 i a) S.s ≤ B * (Graph.psi (.full h) S).re
  s2 : ∀ a b, sizeTerms h (fun i => S.s1 i a) (fun i => S.s1 i b) ≤ B * (Graph.psi (.full h) S).re
  grad : ∃ i, 1 / B ≤ ‖g i‖
  lower : ∀ d : Fin (n + 1), g d ≠ 0 → (∀ i, ‖g i‖ ≤ 2 * ‖g d‖) → ∀ u, 1 / B * qf 1 u ≤ qf (Graph.gLoc (.full h) degree S ⟨g, (d : ℕ), 0⟩) u

/-- `g_proj` from a matrix with absolute errors. -/
theorem gProjU_near (hA : A.Accurate τ) (hD : D.Accurate τ) {P P1 P2 : Path N} {k : ℕ} (hP : P.Within k) (hP1 : P1.Within k) (hP2 : P2.Within k)
    {h h' : Matrix (Fin N) (Fin N) ℂ} (hh : ∀ i j, ‖h' i j - h i j‖ ≤ τ) (S : Jet N n) {s' : Fin N → ℂ} {s1' : Fin N → Fin n → ℂ}
    (hs : ∀ i, RelErr τ (s' i) (S.s i)) (hs1 : ∀ i a, RelErr τ (s1' i a) (S.s1 i a)) (degree : ℕ) (hk : degree ≠ 0) {ψ B : ℝ}
    (hψ : Graph.psi (.full h) S = (ψ : ℂ)) (hψ0 : 0 < ψ) (hB : 0 ≤ B)
    (h0 : sizeTerms h S.s S.s ≤ B * ψ) (h1 : ∀ a, sizeTerms h (fun i => S.s1 i a) S.s ≤ B * ψ)
    (h2 : ∀ a b, sizeTerms h (fun i => S.s1 i a) (fun i => S.s1 i b) ≤ B * ψ)
    (hQ2 : (1 + τ) * psiU k B τ ^ 2 < 2) (hε : (1 + τ) ^ 2 < 2) (i j : Fin n) :
    NearG (projU k B τ) (gProjF A D P P1 P2 (.full h') s' s1' degree i j) (Graph.gProj (.full h) S degree i j)
      ((B + B ^ 2) / (Real.pi * degree)) := by
  have e0 := hA.nonneg
  have e1 : 1 ≤ 1 + τ := by linarith
  have hE1 : 1 ≤ conU k τ := one_le_mul_of_one_le_of_one_le (one_le_pow₀ e1) (one_le_pow₀ e1)
  have hQ1 : 1 ≤ psiU k B τ := by rw [psiU]; have := mul_nonneg hB (sub_nonneg.2 hE1); linarith
  have nh : ∀ i j, NearG (1 + τ) (h' i j) (h i j) (‖h i j‖ + 1) := fun i j =>
    ⟨by
      rw [add_sub_cancel_left]
      exact (hh i j).trans (le_mul_of_one_le_right e0 (le_add_of_nonneg_left (norm_nonneg _))), by linarith, e1⟩
  have ns : ∀ i, NearG (1 + τ) (s' i) (S.s i) ‖S.s i‖ := fun i => nearG_relErr e0 (hs i)
  have ns1 : ∀ i a, NearG (1 + τ) (s1' i a) (S.s1 i a) ‖S.s1 i a‖ := fun i a => nearG_relErr e0 (hs1 i a)
  have hEE : (1 + τ) ^ k * ((1 + τ) * (1 + τ) * (1 + τ)) = conU k τ := by rw [conU]; ring
  have nψ : ‖(ψ : ℂ)‖ = ψ := by rw [Complex.norm_real, Real.norm_of_nonneg hψ0.le]
  have p0 := contractF_full_near hA hP nh ns fun i => nearG_conj (ns i)
  rw [hEE] at p0
  have ep : (∑ i, ∑ j, S.s i * h i j * conj (S.s j)) = (ψ : ℂ) := by rw [← hψ]; rfl
  rw [ep] at p0
  have p0 := nearG_rel p0 hB (by rw [nψ]; exact h0)
  refine gProjF_core hA hD (.full h) (.full h') S degree hk hψ hψ0 hE1 hQ1 hQ2 hε p0 (fun a => ?_) i j ?_
  · have := contractF_full_near hA hP1 nh (fun i => ns1 i a) fun i => nearG_conj (ns i)
    rw [hEE] at this
    exact nearG_size this (h1 a)
  · have := contractF_full_near hA hP2 nh (fun a => ns1 a i) fun a => nearG_conj (ns1 a j)
    rw [hEE] at this
    exact nearG_size this (h2 i j)

theorem etaU_near (hA : A.Accurate τ) (hD : D.Accurate τ) (hτ : τ ≤ 1 / 20) {P P1 P2 : Path N} {PJ : Path (n + 1)} {k : ℕ}
    (hP : P.Within k) (hP1 : P1.Within k) (hP2 : P2.Within k) (hPJ : PJ.Within k) {h h' : Matrix (Fin N) (Fin N) ℂ} (hh : h.IsHermitian)
    (hh' : ∀ i j, ‖h' i j - h i j‖ ≤ τ)
    {S : Jet N (n + 1)} {s' : Fin N → ℂ} {s1' : Fin N → Fin (n + 1) → ℂ} (hs : ∀ i, RelErr τ (s' i) (S.s i))
    (hs1 : ∀ i a, RelErr τ (s1' i a) (S.s1 i a)) {degree : ℕ} (hk : degree ≠ 0) {B : ℝ} (hB : 0 < B) (hgood : GoodAt h degree B S g)
    (hQ2 : (1 + τ) * psiU k B τ ^ 2 < 2) (hε : (1 + τ) ^ 2 < 2) (ha : 0 < a) (herr : ∀ i, ‖g' i - g i‖ ≤ τ * a)
    (hsize : ∀ i, ‖g i‖ ≤ a) (hmax : ∃ i, ‖g i‖ = a) {detF : Matrix (Fin n) (Fin n) ℂ → ℂ} (hdet : DetStable detF τ)
    (d₀ : Fin (n + 1)) (hd₀ : g d₀ ≠ 0) (jH : Fin n → Fin (n + 1) → Fin (n + 1) → ℂ) :
    ∃ η : ℝ, Graph.eta (.full h) degree S ⟨g, (d₀ : ℕ), jH⟩ = (η : ℂ) ∧ 0 < η ∧
      NearG (etaU n k B ((B + B ^ 2) / (Real.pi * degree) * 9) τ)
        (etaF A D detF P P1 P2 PJ (.full h') degree s' s1' g' none) (η : ℂ) η := by
  have e0 := hA.nonneg
  have h2τ : 2 * τ < 1 := by linarith
  obtain ⟨d, hch, hg⟩ := chooseDepU hA hD hτ ha herr hsize hmax
  obtain ⟨ψ, hψ⟩ : ∃ x : ℝ, x = (Graph.psi (.full h) S).re := ⟨_, rfl⟩
  obtain ⟨hpos, g0, g1, g2, -, hlow⟩ := hgood
  have hψ0 : 0 < ψ := by rw [hψ]; exact (Complex.lt_def.1 hpos).1
  have hψe : Graph.psi (.full h) S = (ψ : ℂ) := by
    rw [hψ]
    exact Complex.ext rfl (by simpa using (Complex.lt_def.1 hpos).2.symm)
  rw [← hψ] at g0 g1 g2
  have hM := gProjU_near hA hD hP hP1 hP2 hh' S hs hs1 degree hk hψe hψ0 hB.le g0 g1 g2 hQ2 hε
  set K := Graph.gLoc (.full h) degree S ⟨g, (d : ℕ), 0⟩ with hK
  have hX : ∀ i j, NearG (locU k B τ) (gLocF A D PJ (gProjF A D P P1 P2 (.full h') s' s1' degree) g' (d : ℕ) i j) (K i j)
      ((B + B ^ 2) / (Real.pi * degree) * 9) := by
    intro i j
    have := gLocU_near hA h2τ hD hPJ hM hg i j
    rw [hK, C67_pullback]
    exact this
  have hL1 : 1 ≤ locU k B τ := by
    have h1 : 1 ≤ jacU τ := by
      have h2 : 1 ≤ (1 + τ) / (2 - (1 + 2 * τ)) := by rw [le_div_iff₀ (by linarith)]; linarith
      exact one_le_mul_of_one_le_of_one_le (by linarith) h2
    exact one_le_mul_of_one_le_of_one_le (one_le_pow₀ (by linarith)) (one_le_mul_of_one_le_of_one_le (one_le_pow₀ h1) (hM 0 0).one_le)
  have hKH : K.IsHermitian := by
    ext r s
    rw [Matrix.conjTranspose_apply, RCLike.star_def]
    exact gLoc_conj hh degree S _ r s
  have hlo : (K - ((1 / B : ℝ) : ℂ) • (1 : Matrix (Fin n) (Fin n) ℂ)).PosSemidef := by
    have h1 : (((1 / B : ℝ) : ℂ) • (1 : Matrix (Fin n) (Fin n) ℂ)).IsHermitian := by
      rw [Matrix.IsHermitian, Matrix.conjTranspose_smul, Matrix.conjTranspose_one, RCLike.star_def, Complex.conj_ofReal]
    refine (psd_iff (hKH.sub h1)).2 fun u => ?_
    rw [qf_sub, qf_smul]
    linarith [hlow d hg.ne (fun i => (hg.size i).trans hg.large) u]
  obtain ⟨hdpos, hreal, hnear⟩ := detF_near e0 hdet hKH (one_div_pos.2 hB) hlo hL1 (by positivity) hX
  have hgd : 0 < ‖g d‖ := norm_pos_iff.2 hg.ne
  refine ⟨K.det.re * ‖g d‖ ^ 2, ?_, by positivity, ?_⟩
  · rw [C70_dependent (.full h) degree S g d₀ d hd₀ hg.ne jH 0]
    simp only [Graph.eta, eta, ← hK, jget_nat]
    rw [hreal]
    push_cast
    rfl
  · have h3 := hnear.mul hA (sqU_near hA hD hg)
    rw [← Complex.ofReal_mul] at h3
    simp only [etaF, hch, jget_nat]
    exact h3

/-! ## Growth of the errors of the weights -/

noncomputable def fsU (k : ℕ) (τ : ℝ) : ℝ := (1 + τ) ^ (k + 5) / (2 - (1 + τ) ^ (2 * k + 5))
noncomputable def indU (k : ℕ) (τ : ℝ) : ℝ := (1 + τ) ^ k * (jacU τ ^ 2 * fsU k τ)
noncomputable def prodU (n k : ℕ) (τ : ℝ) : ℝ :=
  (1 + τ) * ((1 + τ) ^ 2 * detU n 18 (1 / (n + 2) ^ 2) (indU k) τ * ((1 + τ) ^ 3 * (1 + 2 * τ) ^ 2))
noncomputable def weightU (n k : ℕ) (τ : ℝ) : ℝ := (1 + τ) * (1 / (2 - prodU n k τ))

theorem gr_fs (k : ℕ) : Gr (fsU k) := (Gr.id_add.pow _).div_two_sub (Gr.id_add.pow _)
theorem gr_ind (k : ℕ) : Gr (indU k) := (Gr.id_add.pow k).mul ((gr_jacU.pow 2).mul (gr_fs k))
theorem gr_prod (n k : ℕ) : Gr (prodU n k) :=
  Gr.id_add.mul (((Gr.id_add.pow 2).mul (gr_det n _ _ (gr_ind k))).mul ((Gr.id_add.pow 3).mul ((Gr.one_add 2).pow 2)))
theorem gr_weight (n k : ℕ) : Gr (weightU n k) := Gr.id_add.mul (Gr.div_two_sub ⟨rfl, differentiableAt_const _⟩ (gr_prod n k))

private theorem const_nearU (hA : A.Accurate τ) {Δ : ℝ} {y : ℂ} {x : ℝ} (h : NearG Δ y (x : ℂ) x) :
    NearG ((1 + τ) ^ 2 * Δ) (A.mul y (A.const (n.factorial / Real.pi ^ n))) ((x * (n.factorial / Real.pi ^ n) : ℝ) : ℂ)
      (x * (n.factorial / Real.pi ^ n)) := by
  have hc : (0 : ℝ) ≤ n.factorial / Real.pi ^ n := by positivity
  have h1 : NearG (1 + τ) (A.const (n.factorial / Real.pi ^ n)) ((n.factorial / Real.pi ^ n : ℝ) : ℂ) (n.factorial / Real.pi ^ n) :=
    ⟨by
      rw [add_sub_cancel_left]
      have := hA.const (n.factorial / Real.pi ^ n)
      rwa [abs_of_nonneg hc] at this, by rw [Complex.norm_real, Real.norm_of_nonneg hc], by linarith [hA.nonneg]⟩
  have h2 := h.mul hA h1
  have e : (1 + τ) * (Δ * (1 + τ)) = (1 + τ) ^ 2 * Δ := by ring
  rw [e, ← Complex.ofReal_mul] at h2
  exact h2

theorem weightU_near (hA : A.Accurate τ) (hD : D.Accurate τ) (hτ : τ ≤ 1 / 20) {t ta tb : RTree (Fin (n + 1))} {k : ℕ} (ht : t.Covers)
    (htk : t.depth ≤ k) (hP : (⟨true, ta, tb⟩ : Path (n + 1)).Within k) (hfs2 : (1 + τ) ^ (2 * k + 5) < 2) (hW2 : prodU n k τ < 2)
    {z : Fin (n + 1) → ℂ} (hz : ∀ k, ‖z k‖ ≤ 1) (ha : 0 < a) (herr : ∀ i, ‖g' i - g i‖ ≤ τ * a)
    (hsize : ∀ i, ‖g i‖ ≤ a) (hmax : ∃ i, ‖g i‖ = a) {detF : Matrix (Fin n) (Fin n) ℂ → ℂ} (hdet : DetStable detF τ)
    (V : HomKind) (params : Val) (patch : Option PatchArg) (hV : gradDefining V z params patch = .ok g) (vol : Option ℝ) :
    ∃ w, weight V z params patch none vol = .ok w ∧ 0 < w ∧
      |weightF A D detF t ta tb g' z none vol - w| ≤ (weightU n k τ - 1) * w := by
  have e0 := hA.nonneg
  have h1τ : 1 ≤ 1 + τ := by linarith
  obtain ⟨d, hch, hg⟩ := chooseDepU hA hD hτ ha herr hsize hmax
  set s : ℝ := 1 + ∑ k, ‖z k‖ ^ 2 with hs
  have hs1 : 1 ≤ s := by rw [hs]; exact le_add_of_nonneg_right (by positivity)
  have hsn : s ≤ n + 2 := by
    have : ∑ k, ‖z k‖ ^ 2 ≤ ∑ _k : Fin (n + 1), (1 : ℝ) := Finset.sum_le_sum fun k _ => pow_le_one₀ (norm_nonneg _) (hz k)
    simp at this
    linarith
  have hle1 : (1 + τ) ^ (2 * t.depth + 5) ≤ (1 + τ) ^ (2 * k + 5) := pow_le_pow_right₀ h1τ (by omega)
  have hfs1 : 1 ≤ fsU k τ := by
    rw [fsU, le_div_iff₀ (by linarith)]
    linarith [one_le_pow₀ (n := k + 5) h1τ, one_le_pow₀ (n := 2 * k + 5) h1τ]
  have hfs : ∀ i j, NearG (fsU k τ) (fsMetricAtF A D t z i j) (fsMetricAt z i j) 2 := fun i j => by
    have e1 : (1 + τ) ^ (t.depth + 5) / (2 - (1 + τ) ^ (2 * t.depth + 5)) ≤ fsU k τ :=
      div_le_div₀ (by positivity) (pow_le_pow_right₀ h1τ (by omega)) (by linarith) (by linarith)
    have e2 : 2 / s ≤ 2 := div_le_self (by norm_num) hs1
    have e3 := (fs_terms z i j).trans e2
    refine ⟨(C162_metric A D τ hA hD t ht z (by linarith) i j).trans ?_, (norm_fs_le z i j).trans e3, hfs1⟩
    exact mul_le_mul (by linarith) e3 (by positivity) (by linarith)
  have hX := gLocU_near hA (by linarith) hD hP hfs hg
  set K := inducedMetric (fsMetricAt z) g (d : ℕ) none with hK
  have hKp : K.PosDef := C28_posDef (fsMetricAt z) (C22_fs_posDef z) g d
  have hlo : (K - ((1 / (n + 2) ^ 2 : ℝ) : ℂ) • (1 : Matrix (Fin n) (Fin n) ℂ)).PosSemidef := by
    have h1 : (((1 / (n + 2) ^ 2 : ℝ) : ℂ) • (1 : Matrix (Fin n) (Fin n) ℂ)).IsHermitian := by
      rw [Matrix.IsHermitian, Matrix.conjTranspose_smul, Matrix.conjTranspose_one, RCLike.star_def, Complex.conj_ofReal]
    refine (psd_iff (hKp.isHermitian.sub h1)).2 fun u => ?_
    rw [qf_sub, qf_smul]
    have h2 := induced_lower z g d u
    rw [← hs, ← hK] at h2
    have h3 : 1 / ((n : ℝ) + 2) ^ 2 * qf 1 u ≤ 1 / s ^ 2 * qf 1 u := by
      refine mul_le_mul_of_nonneg_right ?_ (by rw [qf_one]; positivity)
      exact one_div_le_one_div_of_le (by positivity) (pow_le_pow_left₀ (by linarith) hsn 2)
    linarith
  have hI1 : 1 ≤ (1 + τ) ^ k * (jacU τ ^ 2 * fsU k τ) := by
    have h1 : 1 ≤ jacU τ := by
      have h2 : 1 ≤ (1 + τ) / (2 - (1 + 2 * τ)) := by rw [le_div_iff₀ (by linarith)]; linarith
      exact one_le_mul_of_one_le_of_one_le (by linarith) h2
    exact one_le_mul_of_one_le_of_one_le (one_le_pow₀ h1τ) (one_le_mul_of_one_le_of_one_le (one_le_pow₀ h1) hfs1)
  obtain ⟨hpos, -, hdn⟩ := detF_near e0 hdet hKp.isHermitian (by positivity) hlo hI1 (by norm_num) hX
  have hdn : NearG (detU n 18 (1 / (n + 2) ^ 2) (indU k) τ) ((detF (inducedF A D t ta tb g' z (d : ℕ))).re : ℂ) (K.det.re : ℂ) K.det.re := by
    have h1 := hdn.re
    have e : (2 : ℝ) * 9 = 18 := by norm_num
    rw [e] at h1
    rw [inducedF_eq]
    exact h1
  have hsq := sqU_near hA hD hg
  have hgd : 0 < ‖g d‖ := norm_pos_iff.2 hg.ne
  have e1 : weight V z params patch (some (d : ℕ)) vol =
      .ok (1 / ((weightParts g z (some (d : ℕ)) vol).2.1 * (weightParts g z (some (d : ℕ)) vol).2.2)) := by
    simp only [weight, hV]
  rw [C30_automatic V z params patch g hV d hg.ne vol, e1]
  rw [weightParts_eq g z (some (d : ℕ)) d rfl vol]
  have fin : ∀ {y : ℂ} {x : ℝ}, 0 < x → NearG ((1 + τ) ^ 2 * detU n 18 (1 / (n + 2) ^ 2) (indU k) τ) y (x : ℂ) x →
      0 < 1 / (x * ‖g d‖ ^ 2) ∧ |(D.div 1 (A.mul y (intPow A.mul (D.abs (g' d)) 2))).re - 1 / (x * ‖g d‖ ^ 2)| ≤
        (weightU n k τ - 1) * (1 / (x * ‖g d‖ ^ 2)) := by
    intro y x hx h
    have hx' : 0 < x * ‖g d‖ ^ 2 := by positivity
    have h1 := h.mul hA hsq
    rw [← Complex.ofReal_mul] at h1
    have e3 : ‖((x * ‖g d‖ ^ 2 : ℝ) : ℂ)‖ = x * ‖g d‖ ^ 2 := by rw [Complex.norm_real, Real.norm_of_nonneg hx'.le]
    have h1 : NearG (prodU n k τ) (A.mul y (intPow A.mul (D.abs (g' d)) 2)) ((x * ‖g d‖ ^ 2 : ℝ) : ℂ) ‖((x * ‖g d‖ ^ 2 : ℝ) : ℂ)‖ := by
      rw [e3]; exact h1
    have h2 := (NearG.refl (1 : ℂ)).div hA.nonneg hD h1 (by exact_mod_cast hx'.ne') hW2
    rw [norm_one, e3] at h2
    have hone : (1 : ℂ) / ((x * ‖g d‖ ^ 2 : ℝ) : ℂ) = ((1 / (x * ‖g d‖ ^ 2) : ℝ) : ℂ) := by push_cast; rfl
    rw [hone] at h2
    have h3 := h2.re.err
    rw [← Complex.ofReal_sub, Complex.norm_real] at h3
    exact ⟨by positivity, h3⟩
  cases vol with
  | none =>
    have hp : weightF A D detF t ta tb g' z none none =
        (D.div 1 (A.mul ((detF (inducedF A D t ta tb g' z (d : ℕ))).re : ℂ) (intPow A.mul (D.abs (g' d)) 2))).re := by
      simp only [weightF, weightPartsF, hch, Util.pop_fst]
    rw [hp]
    exact ⟨_, rfl, fin hpos (hdn.mono (by
      exact le_mul_of_one_le_left (zero_le_one.trans hdn.one_le) (one_le_pow₀ h1τ)))⟩
  | some v =>
    have hp : weightF A D detF t ta tb g' z none (some v) =
        (D.div 1 (A.mul (A.mul ((detF (inducedF A D t ta tb g' z (d : ℕ))).re : ℂ) (A.const (n.factorial / Real.pi ^ n)))
          (intPow A.mul (D.abs (g' d)) 2))).re := by
      simp only [weightF, weightPartsF, hch, Util.pop_fst]
    rw [hp]
    exact ⟨_, rfl, fin (mul_pos hpos (by positivity)) (const_nearU hA hdn)⟩

end Cyjax.Donaldson
