import Verif.Lemmas.Coverage
import Mathlib.Probability.StrongLaw
import Mathlib.Probability.ProductMeasure
import Mathlib.Probability.Independence.InfinitePi

/-! # Asymptotic normality of a function of three means -/

namespace Cyjax

open MeasureTheory ProbabilityTheory Set Filter Topology
open scoped ENNReal NNReal

section Slutsky

variable {Ω : Type*} [MeasurableSpace Ω] {P : Measure Ω} [IsProbabilityMeasure P]

/-- A sequence that converges in distribution times one that converges to zero converges to zero. -/
theorem slutsky_zero {U B : ℕ → Ω → ℝ} {v : ℝ≥0}
    (hU : TendstoInDistribution U atTop id (fun _ => P) (gaussianReal 0 v))
    (hB : TendstoInMeasure P B atTop fun _ => 0) (hBm : ∀ b, AEMeasurable (B b) P) :
    TendstoInMeasure P (fun b ω => U b ω * B b ω) atTop fun _ => 0 := by
  have h := hU.continuous_comp_prodMk_of_tendstoInMeasure_const (g := fun x : ℝ × ℝ => |x.1 * x.2|) (by fun_prop) hB hBm
  rw [tendstoInMeasure_iff_norm]
  intro ε hε
  have hm : AEMeasurable (fun x : ℝ => |id x * 0|) (gaussianReal 0 v) := h.aemeasurable_limit
  have hnull : ∀ T : Set ℝ, MeasurableSet T → T ⊆ Ici ε → (gaussianReal 0 v).map (fun x : ℝ => |id x * 0|) T = 0 := by
    intro T hT hTε
    rw [Measure.map_apply_of_aemeasurable hm hT]
    have : (fun x : ℝ => |id x * 0|) ⁻¹' T = ∅ := by
      ext x
      simp only [mem_preimage, mul_zero, abs_zero, mem_empty_iff_false, iff_false]
      intro h0
      exact absurd (hTε h0) (by simpa using hε)
    rw [this, measure_empty]
  have key := ProbabilityMeasure.tendsto_measure_of_null_frontier_of_tendsto' h.tendsto (E := Ici ε)
    (by
      change (gaussianReal 0 v).map (fun x : ℝ => |id x * 0|) (frontier (Ici ε)) = 0
      exact hnull _ isClosed_frontier.measurableSet (isClosed_Ici.frontier_subset))
  have e : (((⟨(gaussianReal 0 v).map (fun x : ℝ => |id x * 0|), Measure.isProbabilityMeasure_map hm⟩ :
      ProbabilityMeasure ℝ) : Measure ℝ)) (Ici ε) = 0 := hnull _ measurableSet_Ici subset_rfl
  rw [← e]
  refine key.congr fun b => ?_
  change P.map _ (Ici ε) = _
  rw [Measure.map_apply_of_aemeasurable (h.forall_aemeasurable b) measurableSet_Ici]
  congr 1
  ext ω
  simp [Real.norm_eq_abs]

end Slutsky

/-- Convergence in distribution to a normal variable gives the probabilities of symmetric intervals. -/
theorem normal_interval {Ω : ℕ → Type*} [∀ b, MeasurableSpace (Ω b)] {P : (b : ℕ) → Measure (Ω b)} [∀ b, IsProbabilityMeasure (P b)]
    {U : (b : ℕ) → Ω b → ℝ} {v : ℝ≥0} (hU : TendstoInDistribution U atTop id P (gaussianReal 0 v)) {t : ℝ} (ht : 0 < t) :
    Tendsto (fun b => P b {ω | |U b ω| ≤ t}) atTop (𝓝 (gaussianReal 0 v (Icc (-t) t))) := by
  have hfr : (gaussianReal 0 v).map id (frontier (Icc (-t) t)) = 0 := by
    rw [Measure.map_id, frontier_Icc (by linarith)]
    by_cases hv : v = 0
    · rw [hv, gaussianReal_zero_var, Measure.dirac_apply' _ (by measurability)]
      have h1 : (0 : ℝ) ∉ ({-t, t} : Set ℝ) := by
        simp only [mem_insert_iff, mem_singleton_iff, not_or]
        exact ⟨by linarith, by linarith⟩
      simp [h1]
    · have := nullSingletonClass_gaussianReal (μ := 0) hv
      exact measure_union_null (measure_singleton _) (measure_singleton _)
  have key := ProbabilityMeasure.tendsto_measure_of_null_frontier_of_tendsto' hU.tendsto (E := Icc (-t) t) hfr
  have e : (((⟨(gaussianReal 0 v).map id, Measure.isProbabilityMeasure_map hU.aemeasurable_limit⟩ :
      ProbabilityMeasure ℝ) : Measure ℝ)) (Icc (-t) t) = gaussianReal 0 v (Icc (-t) t) := by
    change (gaussianReal 0 v).map id _ = _
    rw [Measure.map_id]
  rw [← e]
  refine key.congr fun b => ?_
  change (P b).map _ (Icc (-t) t) = _
  rw [Measure.map_apply_of_aemeasurable (hU.forall_aemeasurable b) measurableSet_Icc]
  congr 1
  ext ω
  exact abs_le.symm

section Sequence

variable {S : Type*} [MeasurableSpace S] {μ : Measure S} [IsProbabilityMeasure μ]

/-- The first `c` members of a sequence of independent draws. -/
theorem draws_prefix (c : ℕ) :
    HasLaw (fun (x : ℕ → S) (i : Fin c) => x i) (Measure.pi fun _ : Fin c => μ) (Measure.infinitePi fun _ : ℕ => μ) := by
  have hm : Measurable fun (x : ℕ → S) (i : Fin c) => x i := by fun_prop
  refine ⟨hm.aemeasurable, ?_⟩
  have hi : iIndepFun (fun (i : Fin c) (x : ℕ → S) => x i) (Measure.infinitePi fun _ : ℕ => μ) :=
    (iIndepFun_infinitePi (P := fun _ : ℕ => μ) (X := fun _ x => x) fun _ => measurable_id).precomp Fin.val_injective
  rw [(iIndepFun_iff_map_fun_eq_pi_map fun i => (measurable_pi_apply _).aemeasurable).1 hi]
  congr 1
  funext i
  exact (measurePreserving_eval_infinitePi (fun _ : ℕ => μ) (i : ℕ)).map_eq

private theorem draw_map {g : S → ℝ} (hg : Measurable g) (i : ℕ) :
    (Measure.infinitePi fun _ : ℕ => μ).map (fun x : ℕ → S => g (x i)) = μ.map g := by
  have h := (measurePreserving_eval_infinitePi (fun _ : ℕ => μ) i).map_eq
  have h2 := Measure.map_map hg (measurable_pi_apply (X := fun _ : ℕ => S) i) (μ := Measure.infinitePi fun _ : ℕ => μ)
  exact h2.symm.trans (congrArg (Measure.map g) h)

private theorem draw_measurable {g : S → ℝ} (hg : Measurable g) (i : ℕ) : Measurable fun x : ℕ → S => g (x i) :=
  hg.comp (measurable_pi_apply i)

private theorem draw_ident {g : S → ℝ} (hg : Measurable g) (i : ℕ) :
    IdentDistrib (fun x : ℕ → S => g (x i)) (fun x => g (x 0)) (Measure.infinitePi fun _ : ℕ => μ)
      (Measure.infinitePi fun _ : ℕ => μ) :=
  ⟨(draw_measurable hg i).aemeasurable, (draw_measurable hg 0).aemeasurable, by rw [draw_map hg, draw_map hg]⟩

private theorem draw_ident_one {g : S → ℝ} (hg : Measurable g) :
    IdentDistrib (fun x : ℕ → S => g (x 0)) g (Measure.infinitePi fun _ : ℕ => μ) μ :=
  ⟨(draw_measurable hg 0).aemeasurable, hg.aemeasurable, draw_map hg 0⟩

private theorem draw_indep {g : S → ℝ} (hg : Measurable g) :
    iIndepFun (fun (i : ℕ) (x : ℕ → S) => g (x i)) (Measure.infinitePi fun _ : ℕ => μ) :=
  iIndepFun_infinitePi (P := fun _ : ℕ => μ) (X := fun _ => g) fun _ => hg

/-- The mean over the values of `b + 1` draws with `k` values each. -/
noncomputable def drawMean (k : ℕ) (g : S → ℝ) (b : ℕ) (x : ℕ → S) : ℝ :=
  (∑ i ∈ Finset.range (b + 1), g (x i)) / ((b + 1) * k : ℕ)

theorem measurable_drawMean (k : ℕ) {g : S → ℝ} (hg : Measurable g) (b : ℕ) : Measurable (drawMean k g b) :=
  (Finset.measurable_sum _ fun i _ => draw_measurable hg i).div_const _

private theorem drawMean_tendsto {k : ℕ} (hk : k ≠ 0) {g : S → ℝ} (hg : Measurable g) (hi : Integrable g μ) {m : ℝ}
    (hm : ∫ s, g s ∂μ = k * m) :
    ∀ᵐ x ∂(Measure.infinitePi fun _ : ℕ => μ), Tendsto (fun b => drawMean k g b x) atTop (𝓝 m) := by
  have hl := strong_law_ae_real (fun (i : ℕ) (x : ℕ → S) => g (x i))
    ((measurePreserving_eval_infinitePi (fun _ : ℕ => μ) 0).integrable_comp_of_integrable hi)
    (fun i j hij => (draw_indep hg).indepFun hij) (draw_ident hg)
  filter_upwards [hl] with x hx
  rw [(draw_ident_one (μ := μ) hg).integral_eq, hm] at hx
  have hk0 : (k : ℝ) ≠ 0 := by exact_mod_cast hk
  have h2 := (hx.comp (tendsto_add_atTop_nat 1)).div_const (k : ℝ)
  rw [mul_div_cancel_left₀ _ hk0] at h2
  refine h2.congr fun b => ?_
  simp only [Function.comp_apply, drawMean, Nat.cast_mul]
  rw [div_div]

/-- Asymptotic normality of `W² Q / E² - W` for three means `W`, `E`, `Q` over independent draws. -/
theorem loss_normal {k : ℕ} (hk : k ≠ 0) {w e q : S → ℝ} (hw : Measurable w) (he : Measurable e) (hq : Measurable q)
    (hw2 : MemLp w 2 μ) (he2 : MemLp e 2 μ) (hq2 : MemLp q 2 μ) {α β δ : ℝ} (hα : ∫ s, w s ∂μ = k * α)
    (hβ : ∫ s, e s ∂μ = k * β) (hδ : ∫ s, q s ∂μ = k * δ) (hβ0 : 0 < β) (hpos : ∀ᵐ s ∂μ, 0 < e s) :
    TendstoInDistribution (fun (b : ℕ) (x : ℕ → S) => √((b + 1) * k : ℕ) *
        ((drawMean k w b x ^ 2 * drawMean k q b x / drawMean k e b x ^ 2 - drawMean k w b x) - (α ^ 2 * δ / β ^ 2 - α))) atTop id
      (fun _ => Measure.infinitePi fun _ : ℕ => μ)
      (gaussianReal 0 (Var[fun s => 2 * (α / β) * (δ / β) * (w s - α / β * e s) + (α / β) ^ 2 * q s - w s; μ] / k).toNNReal) := by
  obtain ⟨ρ, hρ⟩ : ∃ ρ : ℝ, ρ = α / β := ⟨_, rfl⟩
  obtain ⟨κ, hκ⟩ : ∃ κ : ℝ, κ = 2 * ρ * (δ / β) := ⟨_, rfl⟩
  rw [← hρ, ← hκ]
  have hp := measurePreserving_eval_infinitePi (fun _ : ℕ => μ) 0
  have iw := hw2.integrable one_le_two
  have ie := he2.integrable one_le_two
  have iq := hq2.integrable one_le_two
  have hρβ : ρ * β = α := by rw [hρ, div_mul_cancel₀ _ hβ0.ne']
  -- the two linear statistics
  have hum : Measurable fun s => w s - ρ * e s := hw.sub (he.const_mul ρ)
  have hu2 : MemLp (fun s => w s - ρ * e s) 2 μ := hw2.sub (he2.const_mul ρ)
  have hgm : Measurable fun s => κ * (w s - ρ * e s) + ρ ^ 2 * q s - w s := ((hum.const_mul κ).add (hq.const_mul _)).sub hw
  have hg2 : MemLp (fun s => κ * (w s - ρ * e s) + ρ ^ 2 * q s - w s) 2 μ :=
    ((hu2.const_mul κ).add (hq2.const_mul _)).sub hw2
  have iu := hu2.integrable one_le_two
  have hui : ∫ s, (w s - ρ * e s) ∂μ = k * 0 := by
    rw [integral_sub iw (ie.const_mul ρ), integral_const_mul, hα, hβ, ← hρβ]
    ring
  have hgi : ∫ s, (κ * (w s - ρ * e s) + ρ ^ 2 * q s - w s) ∂μ = k * (ρ ^ 2 * δ - α) := by
    have i1 : Integrable (fun s => κ * (w s - ρ * e s) + ρ ^ 2 * q s) μ := (iu.const_mul κ).add (iq.const_mul _)
    rw [integral_sub i1 iw, integral_add (iu.const_mul κ) (iq.const_mul _), integral_const_mul, integral_const_mul, hui, hα, hδ]
    ring
  have cltU := clt_batches (P := Measure.infinitePi fun _ : ℕ => μ) (T := fun (i : ℕ) (x : ℕ → S) => w (x i) - ρ * e (x i)) hk
    (m := 0) (hu2.comp_measurePreserving hp) (draw_indep hum) (draw_ident hum)
    (by rw [(draw_ident_one (μ := μ) hum).integral_eq, hui])
  have cltG := clt_batches (P := Measure.infinitePi fun _ : ℕ => μ)
    (T := fun (i : ℕ) (x : ℕ → S) => κ * (w (x i) - ρ * e (x i)) + ρ ^ 2 * q (x i) - w (x i)) hk
    (m := ρ ^ 2 * δ - α) (hg2.comp_measurePreserving hp) (draw_indep hgm) (draw_ident hgm)
    (by rw [(draw_ident_one (μ := μ) hgm).integral_eq, hgi])
  rw [(draw_ident_one (μ := μ) hgm).variance_eq] at cltG
  -- the factor that converges to zero
  obtain ⟨B, hB⟩ : ∃ B : ℕ → (ℕ → S) → ℝ, B = fun b x =>
    (drawMean k w b x / drawMean k e b x + ρ) * (drawMean k q b x / drawMean k e b x) - κ := ⟨_, rfl⟩
  have mw := fun b => measurable_drawMean k hw b
  have me := fun b => measurable_drawMean k he b
  have mq := fun b => measurable_drawMean k hq b
  have hBm : ∀ b, Measurable (B b) := fun b => by
    rw [hB]
    exact ((((mw b).div (me b)).add_const ρ).mul ((mq b).div (me b))).sub_const κ
  have hBt : ∀ᵐ x ∂(Measure.infinitePi fun _ : ℕ => μ), Tendsto (fun b => B b x) atTop (𝓝 0) := by
    filter_upwards [drawMean_tendsto hk hw iw hα, drawMean_tendsto hk he ie hβ, drawMean_tendsto hk hq iq hδ] with x h1 h2 h3
    have h4 := (((h1.div h2 hβ0.ne').add_const ρ).mul (h3.div h2 hβ0.ne')).sub_const κ
    have e0 : (α / β + ρ) * (δ / β) - κ = 0 := by rw [hκ, ← hρ]; ring
    rw [e0] at h4
    rw [hB]
    exact h4
  have hBM := tendstoInMeasure_of_tendsto_ae (fun b => (hBm b).aestronglyMeasurable) hBt
  have hz := slutsky_zero cltU hBM fun b => (hBm b).aemeasurable
  have hsum := cltG.add_of_tendstoInMeasure_const hz fun b =>
    (cltU.forall_aemeasurable b).mul (hBm b).aemeasurable
  refine hsum.congr (fun b => ?_) (Filter.Eventually.of_forall fun x => by simp)
  have hae : ∀ᵐ x ∂(Measure.infinitePi fun _ : ℕ => μ), ∀ i : ℕ, 0 < e (x i) :=
    ae_all_iff.2 fun i => (measurePreserving_eval_infinitePi (fun _ : ℕ => μ) i).quasiMeasurePreserving.ae hpos
  filter_upwards [hae] with x hx
  have hN : (0 : ℝ) < ((b + 1) * k : ℕ) := by
    exact_mod_cast Nat.mul_pos b.succ_pos (Nat.pos_of_ne_zero hk)
  have hE : drawMean k e b x ≠ 0 :=
    (div_pos (Finset.sum_pos (fun i _ => hx i) ⟨0, by simp⟩) hN).ne'
  have eU : (∑ i ∈ Finset.range (b + 1), (w (x i) - ρ * e (x i))) / ((b + 1) * k : ℕ) =
      drawMean k w b x - ρ * drawMean k e b x := by
    rw [Finset.sum_sub_distrib, ← Finset.mul_sum, drawMean, drawMean]
    ring
  have eG : (∑ i ∈ Finset.range (b + 1), (κ * (w (x i) - ρ * e (x i)) + ρ ^ 2 * q (x i) - w (x i))) / ((b + 1) * k : ℕ) =
      κ * (drawMean k w b x - ρ * drawMean k e b x) + ρ ^ 2 * drawMean k q b x - drawMean k w b x := by
    rw [Finset.sum_sub_distrib, Finset.sum_add_distrib, ← Finset.mul_sum, ← Finset.mul_sum, Finset.sum_sub_distrib,
      ← Finset.mul_sum, drawMean, drawMean, drawMean]
    ring
  simp only [Pi.add_apply]
  rw [eU, eG, hB]
  have hαβ : α ^ 2 * δ / β ^ 2 = ρ ^ 2 * δ := by rw [hρ]; ring
  rw [hαβ]
  obtain ⟨W, hW⟩ : ∃ W, W = drawMean k w b x := ⟨_, rfl⟩
  obtain ⟨E, hEd⟩ : ∃ E, E = drawMean k e b x := ⟨_, rfl⟩
  obtain ⟨Q, hQ⟩ : ∃ Q, Q = drawMean k q b x := ⟨_, rfl⟩
  simp only [← hW, ← hEd, ← hQ] at hE ⊢
  field_simp
  ring

end Sequence

end Cyjax
