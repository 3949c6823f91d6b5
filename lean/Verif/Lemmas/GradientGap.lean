import Verif.Lemmas.EtaDerivative
import Verif.Props.LossGrad
import Verif.Lemmas.LossLimit

/-! # The gradients of the loss with and without a constant average -/

namespace Cyjax

open MeasureTheory MvPolynomial Cyjax.Spec Cyjax.Donaldson Cyjax.Polynomial Cyjax.Variety Cyjax.Projective Cyjax.Ml Set Filter Topology
open scoped ENNReal ComplexOrder

/-- The loss for a constant average from means. -/
theorem stopped_means {N : ℕ} (hN : N ≠ 0) (η η₀ w : Fin N → ℝ) (hη : ∀ i, 0 < η i) (hη₀ : ∀ i, 0 < η₀ i) (hw : ∀ i, 0 < w i) :
    lossStopped η η₀ w = ((∑ i, w i) / N / ((∑ i, η₀ i * w i) / N)) ^ 2 * ((∑ i, η i ^ 2 * w i) / N) -
      2 * ((∑ i, w i) / N / ((∑ i, η₀ i * w i) / N)) * ((∑ i, η i * w i) / N) + (∑ i, w i) / N := by
  have : Nonempty (Fin N) := ⟨⟨0, Nat.pos_of_ne_zero hN⟩⟩
  have hW : 0 < ∑ i, w i := Finset.sum_pos (fun i _ => hw i) Finset.univ_nonempty
  have hE : 0 < ∑ i, η₀ i * w i := Finset.sum_pos (fun i _ => mul_pos (hη₀ i) (hw i)) Finset.univ_nonempty
  have hcomm : ∑ j, w j * η₀ j = ∑ j, η₀ j * w j := Finset.sum_congr rfl fun i _ => mul_comm _ _
  have hN' : (0 : ℝ) < N := Nat.cast_pos.2 (Nat.pos_of_ne_zero hN)
  unfold lossStopped
  simp only [mean]
  rw [hcomm]
  obtain ⟨m, hm⟩ : ∃ m, m = (∑ i, w i) / N / ((∑ i, η₀ i * w i) / N) := ⟨_, rfl⟩
  have hm' : (∑ i, η₀ i * w i) / N / ((∑ i, w i) / N) = m⁻¹ := by rw [hm, inv_div]
  rw [hm', ← hm]
  have e : ∀ i, (η i / m⁻¹ - 1) ^ 2 * w i = m ^ 2 * (η i ^ 2 * w i) - 2 * m * (η i * w i) + w i := fun i => by
    rw [div_inv_eq_mul]; ring
  have e2 : ∀ i, Real.log ((if η i < 0 then η i else 0) ^ 2 + 1) = 0 := fun i => by
    rw [if_neg (hη i).not_gt]; simp
  simp only [e, e2, Finset.sum_add_distrib, Finset.sum_sub_distrib, ← Finset.mul_sum, Finset.sum_const_zero, zero_div, add_zero]
  ring

variable {n : ℕ} {F : MvPolynomial (Fin (n + 2)) ℂ} {A : AlgebraicMetric (n + 1)} {ps : List ℂ} (hsm : SmoothHypersurface F)
  (hF : Hypersurface A.variety (.vec ps) (n + 1) (n + 2) F) (hB : SpansModulo F A.sections.degree A.sections.rows)
  (hk : A.sections.degree ≠ 0)

private theorem stopped_list {N : ℕ} (η η₀ w : Fin N → ℝ) (E E₀ : List ℂ) (W : List ℝ) (hE : E = List.ofFn fun i => (η i : ℂ))
    (hE₀ : E₀ = List.ofFn fun i => (η₀ i : ℂ)) (hW : W = List.ofFn w) :
    lossStopped (n := E.length) (fun i => (E.get i).re) (fun i => (E₀.getD i 0).re) (fun i => W.getD i 0) = lossStopped η η₀ w := by
  obtain rfl : E.length = N := by rw [hE, List.length_ofFn]
  congr 1
  · funext i
    have := congrArg (fun l : List ℂ => l[(i : ℕ)]?) hE
    simp only [List.getElem?_ofFn, i.2, dif_pos] at this
    rw [List.getElem?_eq_getElem i.2, Option.some_inj] at this
    rw [List.get_eq_getElem, this]
    rfl
  · funext i
    rw [hE₀, List.getD_eq_getElem?_getD, List.getElem?_ofFn, dif_pos i.2]
    rfl
  · funext i
    rw [hW, List.getD_eq_getElem?_getD, List.getElem?_ofFn, dif_pos i.2]
    rfl

private theorem quotient_deriv {S K : ℝ → ℝ} {a b c e g : ℝ} (hS : HasDerivAt S (2 * e) 0) (hK : HasDerivAt K g 0) (hc : S 0 = c)
    (hb : K 0 = b) (hb0 : b ≠ 0) :
    HasDerivAt (fun t => a ^ 2 * S t / K t ^ 2 - a) ((a / b) ^ 2 * (2 * e) - 2 * (a / b) * (a * c / b ^ 2) * g) 0 := by
  have h := ((hS.const_mul (a ^ 2)).fun_div (hK.fun_pow 2) (by rw [hb]; exact pow_ne_zero 2 hb0)).sub_const a
  refine h.congr_deriv ?_
  rw [hb, hc]
  norm_num
  field_simp

include hsm hF hB hk

/-- The loss for a constant average on a row made of points on the hypersurface and their weights. -/
theorem row_stopped (h h₀ : A.H) (hh : h.PosDef) (hh₀ : h₀.PosDef) (Zs : List (Fin (n + 2) → ℂ)) (hne : Zs ≠ [])
    (hZs : ∀ Z ∈ Zs, Z ≠ 0 ∧ eval Z F = 0) (w : (Fin (n + 2) → ℂ) → ℝ) (hw : ∀ Z ∈ Zs, 0 < w Z) :
    lossRowStopped A h h₀ ⟨ps, Zs.map homToAffineAuto, Zs.map w⟩ = .ok
      (((Zs.map w).sum / Zs.length / ((Zs.map fun Z => etaAt A h₀ ps Z * w Z).sum / Zs.length)) ^ 2 *
          ((Zs.map fun Z => etaAt A h ps Z ^ 2 * w Z).sum / Zs.length) -
        2 * ((Zs.map w).sum / Zs.length / ((Zs.map fun Z => etaAt A h₀ ps Z * w Z).sum / Zs.length)) *
          ((Zs.map fun Z => etaAt A h ps Z * w Z).sum / Zs.length) + (Zs.map w).sum / Zs.length) := by
  have hm : ∀ g : A.H, g.PosDef →
      (Zs.map homToAffineAuto).mapM (fun x => A.eta g (List.ofFn x.1) (.vec ps) (some (x.2 : ℕ)) none none) =
      .ok (Zs.map fun Z => (etaAt A g ps Z : ℂ)) := by
    intro g hg
    rw [List.mapM_map]
    refine mapM_ok fun Z hZ => ?_
    rw [← (etaAt_pos hF g hB hg hsm hk Z (hZs Z hZ).1 (hZs Z hZ).2).2]
    exact ((C103_homogeneous A hF.dim g (.vec ps) none none Z).2.2.1).symm
  unfold lossRowStopped
  simp only
  rw [hm h hh, hm h₀ hh₀]
  simp only [Bind.bind, Except.bind]
  rw [if_pos (by rw [List.length_map, List.length_map])]
  rw [stopped_list (fun i : Fin Zs.length => etaAt A h ps (Zs.get i)) (fun i => etaAt A h₀ ps (Zs.get i)) (fun i => w (Zs.get i)) _ _
      (Zs.map w) ?_ ?_ ?_,
    stopped_means (by simpa using hne) _ _ _ (fun i => (etaAt_pos hF h hB hh hsm hk _ (hZs _ (List.get_mem _ _)).1
      (hZs _ (List.get_mem _ _)).2).1) (fun i => (etaAt_pos hF h₀ hB hh₀ hsm hk _ (hZs _ (List.get_mem _ _)).1
      (hZs _ (List.get_mem _ _)).2).1) fun i => hw _ (List.get_mem _ _)]
  · rw [sum_get Zs w, sum_get Zs fun Z => etaAt A h ps Z ^ 2 * w Z, sum_get Zs fun Z => etaAt A h ps Z * w Z,
      sum_get Zs fun Z => etaAt A h₀ ps Z * w Z]
    rfl
  · conv_lhs => rw [← List.ofFn_get Zs, List.map_ofFn]
    rfl
  · conv_lhs => rw [← List.ofFn_get Zs, List.map_ofFn]
    rfl
  · conv_lhs => rw [← List.ofFn_get Zs, List.map_ofFn]
    rfl

/-- The derivatives of the loss on a row, with and without a constant average. -/
theorem row_gradients {h : ℝ → A.H} (hh : ∀ᶠ t in 𝓝 (0 : ℝ), (h t).PosDef) {D : (Fin (n + 2) → ℂ) → ℝ}
    (hD : ∀ Z, Z ≠ 0 → eval Z F = 0 → HasDerivAt (fun t => etaAt A (h t) ps Z) (D Z) 0) (Zs : List (Fin (n + 2) → ℂ)) (hne : Zs ≠ [])
    (hZs : ∀ Z ∈ Zs, Z ≠ 0 ∧ eval Z F = 0) (w : (Fin (n + 2) → ℂ) → ℝ) (hw : ∀ Z ∈ Zs, 0 < w Z) {a b c e g : ℝ}
    (ha : a = (Zs.map w).sum / Zs.length) (hb : b = (Zs.map fun Z => etaAt A (h 0) ps Z * w Z).sum / Zs.length)
    (hc : c = (Zs.map fun Z => etaAt A (h 0) ps Z ^ 2 * w Z).sum / Zs.length)
    (he : e = (Zs.map fun Z => etaAt A (h 0) ps Z * D Z * w Z).sum / Zs.length)
    (hg : g = (Zs.map fun Z => D Z * w Z).sum / Zs.length) (hb0 : b ≠ 0) :
    HasDerivAt (fun t => resultOrZero (lossRowStopped A (h t) (h 0) ⟨ps, Zs.map homToAffineAuto, Zs.map w⟩))
      ((a / b) ^ 2 * (2 * e) - 2 * (a / b) * g) 0 ∧
    HasDerivAt (fun t => resultOrZero (varianceEtaLossRow A (h t) ⟨ps, Zs.map homToAffineAuto, Zs.map w⟩))
      ((a / b) ^ 2 * (2 * e) - 2 * (a / b) * (a * c / b ^ 2) * g) 0 := by
  have hh0 : (h 0).PosDef := hh.self_of_nhds
  have hsum : ∀ (f : ℝ → (Fin (n + 2) → ℂ) → ℝ) (f' : (Fin (n + 2) → ℂ) → ℝ) (l : List (Fin (n + 2) → ℂ)),
      (∀ Z ∈ l, HasDerivAt (fun t => f t Z) (f' Z) 0) → HasDerivAt (fun t => (l.map (f t)).sum) (l.map f').sum 0 := by
    intro f f' l
    induction l with
    | nil => intro _; simpa using hasDerivAt_const (0 : ℝ) (0 : ℝ)
    | cons Z l ih =>
      intro hl
      simp only [List.map_cons, List.sum_cons]
      exact (hl Z (by simp)).add (ih fun Y hY => hl Y (by simp [hY]))
  have d1 : HasDerivAt (fun t => (Zs.map fun Z => etaAt A (h t) ps Z * w Z).sum / Zs.length) g 0 := by
    rw [hg]
    exact (hsum _ _ Zs fun Z hZ => (hD Z (hZs Z hZ).1 (hZs Z hZ).2).mul_const (w Z)).div_const _
  have d2 : HasDerivAt (fun t => (Zs.map fun Z => etaAt A (h t) ps Z ^ 2 * w Z).sum / Zs.length) (2 * e) 0 := by
    have := (hsum (fun t Z => etaAt A (h t) ps Z ^ 2 * w Z) (fun Z => 2 * (etaAt A (h 0) ps Z * D Z * w Z)) Zs fun Z hZ => by
      have := ((hD Z (hZs Z hZ).1 (hZs Z hZ).2).pow 2).mul_const (w Z)
      refine this.congr_deriv ?_
      norm_num
      ring).div_const (Zs.length : ℝ)
    rwa [List.sum_map_mul_left, mul_div_assoc, ← he] at this
  constructor
  · have e1 : (fun t => resultOrZero (lossRowStopped A (h t) (h 0) ⟨ps, Zs.map homToAffineAuto, Zs.map w⟩)) =ᶠ[𝓝 0] fun t =>
        (a / b) ^ 2 * ((Zs.map fun Z => etaAt A (h t) ps Z ^ 2 * w Z).sum / Zs.length) -
          2 * (a / b) * ((Zs.map fun Z => etaAt A (h t) ps Z * w Z).sum / Zs.length) + a := by
      filter_upwards [hh] with t ht
      rw [row_stopped hsm hF hB hk (h t) (h 0) ht hh0 Zs hne hZs w hw, ha, hb]
      rfl
    exact (((d2.const_mul _).sub (d1.const_mul _)).add_const a).congr_of_eventuallyEq e1
  · have e1 : (fun t => resultOrZero (varianceEtaLossRow A (h t) ⟨ps, Zs.map homToAffineAuto, Zs.map w⟩)) =ᶠ[𝓝 0] fun t =>
        a ^ 2 * ((Zs.map fun Z => etaAt A (h t) ps Z ^ 2 * w Z).sum / Zs.length) /
          ((Zs.map fun Z => etaAt A (h t) ps Z * w Z).sum / Zs.length) ^ 2 - a := by
      filter_upwards [hh] with t ht
      rw [row_loss hsm hF hB hk (h t) ht Zs hne hZs w hw, ha]
      rfl
    exact (quotient_deriv d2 d1 hc.symm hb.symm hb0).congr_of_eventuallyEq e1

omit hsm hF hB hk in
/-- The difference of the two derivatives. -/
theorem gradient_gap {a b c g m M : ℝ} (hm : 0 < m) (ha : 0 < a) (hb : 0 < b) (hc : 0 ≤ c) (hM : 0 ≤ M) (hab : m * a ≤ b) (hcb : c ≤ M * b) :
    |2 * (a / b) * (a * c / b ^ 2) * g - 2 * (a / b) * g| ≤ 2 / m * (M / m + 1) * |g| := by
  have h1 : a / b ≤ 1 / m := by
    rw [div_le_div_iff₀ hb hm]; linarith
  have h2 : a * c / b ^ 2 ≤ M / m := by
    have : a * c / b ^ 2 = a / b * (c / b) := by rw [sq, mul_div_mul_comm]
    rw [this]
    calc a / b * (c / b) ≤ 1 / m * M := mul_le_mul h1 ((div_le_iff₀ hb).2 hcb) (by positivity) (by positivity)
      _ = M / m := by ring
  have e : 2 * (a / b) * (a * c / b ^ 2) * g - 2 * (a / b) * g = 2 * (a / b) * (a * c / b ^ 2 - 1) * g := by ring
  rw [e, abs_mul]
  refine mul_le_mul_of_nonneg_right ?_ (abs_nonneg g)
  rw [abs_mul, abs_of_pos (by positivity : 0 < 2 * (a / b))]
  refine mul_le_mul (by rw [div_eq_mul_one_div 2 m]; linarith) ?_ (abs_nonneg _) (by positivity)
  have h3 : 0 ≤ a * c / b ^ 2 := by positivity
  have h4 : 0 ≤ M / m := by positivity
  rw [abs_le]
  constructor <;> linarith

end Cyjax
