import Verif.Props.LocalCoordinates

/-! # Property C109: metric and curvature are tensors on the variety -/

namespace Cyjax

open Cyjax.Donaldson Cyjax.Spec Cyjax.Projective Cyjax.Variety Cyjax.Differential
open Cyjax.Polynomial (PyErr Val PolyObj DworkFactor)
open MvPolynomial (eval pderiv)
open scoped ComplexConjugate ComplexOrder Topology

variable {n : ℕ}

private theorem affineToHom_contDiff (p q : Fin (n + 2)) : ContDiff ℂ 2 fun z : Fin (n + 1) → ℂ => affineToHom z (p : ℕ) q := by
  rcases Fin.eq_self_or_eq_succAbove p q with rfl | ⟨k, rfl⟩
  · simp only [affineToHom_same]
    exact contDiff_const
  · simp only [affineToHom_succAbove]
    exact contDiff_apply ℂ ℂ k

private theorem chart_contDiff (p q : Fin (n + 2)) (hpq : p ≠ q) (z : Fin (n + 1) → ℂ) (hq : affineToHom z (p : ℕ) q ≠ 0) :
    ContDiffAt ℂ 2 (fun w : Fin (n + 1) → ℂ => changeChart w (p : ℕ) (q : ℕ)) z := by
  rw [contDiffAt_pi]
  intro a
  simp only [C19_change_chart _ p q hpq, homToAffine_apply, div_eq_mul_inv]
  exact (affineToHom_contDiff p (q.succAbove a)).contDiffAt.mul ((affineToHom_contDiff p q).contDiffAt.inv hq)

private theorem levi_congr_matrix {k : ℕ} {f g : (Fin k → ℂ) → ℂ} {x : Fin k → ℂ} (h : f =ᶠ[𝓝 x] g) : levi f x = levi g x := by
  ext r s
  exact levi_congr h r s

private theorem logNorm_smooth {k : ℕ} {u : (Fin k → ℂ) → ℂ} {x : Fin k → ℂ} (hu : ContDiffAt ℂ 2 u x) (h0 : u x ≠ 0) (c : ℝ) :
    ContDiffAt ℝ 2 (fun y => ((c * Real.log (‖u y‖ ^ 2) : ℝ) : ℂ)) x :=
  Complex.ofRealCLM.contDiff.contDiffAt.comp x (contDiffAt_const.mul
    ((((hu.restrict_scalars ℝ).norm ℝ h0).pow 2).log (pow_ne_zero 2 (norm_ne_zero_iff.2 h0))))

section Tensor

variable {A : AlgebraicMetric (n + 1)} {params : Val} {e : ℕ} {F : MvPolynomial (Fin (n + 2)) ℂ}
  (hV : Hypersurface A.variety params (n + 1) e F) (h : A.H) (hh : h.PosDef)
  (hB : SpansModulo F A.sections.degree A.sections.rows) (hk : A.sections.degree ≠ 0) (p q : Fin (n + 2)) (hpq : p ≠ q)
  (d d' : Fin (n + 1)) (z : Fin (n + 1) → ℂ) (hq : affineToHom z (p : ℕ) q ≠ 0)
  (h0 : defining A.variety (List.ofFn z) params (some (.index p)) = .ok 0) (G G' : Fin (n + 1) → ℂ)
  (hG : gradDefining A.variety z params (some (.index p)) = .ok G) (hd : G d ≠ 0)
  (hG' : gradDefining A.variety (changeChart z (p : ℕ) (q : ℕ)) params (some (.index q)) = .ok G') (hd' : G' d' ≠ 0)

include hV hh hB hk hpq hq h0 hG hd hG' hd'

/-- **C109.** Let `z` be a point of the variety in patch `p` which also lies in patch `q`, and choose dependent coordinates
`d` and `d'`. With `M` the Jacobian of the change from the local coordinates of the first choice to those of the second,
the metric and the Ricci tensor transform as tensors. -/
theorem C109_tensor :
    ∃ (φ : (Fin n → ℂ) → Fin (n + 1) → ℂ) (x : Fin n → ℂ) (M g g' R R' : Matrix (Fin n) (Fin n) ℂ),
      LocalCoordinates A.variety params (p : ℕ) d φ x ∧ φ x = z ∧
      (∀ r s, HasDerivAt (fun t => changeChart (φ (Function.update x r t)) (p : ℕ) (q : ℕ) (d'.succAbove s)) (M r s) (x r)) ∧
      A.metric h (List.ofFn z) params (some (p : ℕ)) (some (d : ℕ)) none = .ok (g, (p : ℕ), ((d : ℕ) : ℤ)) ∧
      A.metric h (List.ofFn (changeChart z (p : ℕ) (q : ℕ))) params (some (q : ℕ)) (some (d' : ℕ)) none =
        .ok (g', (q : ℕ), ((d' : ℕ) : ℤ)) ∧
      A.ricci h (List.ofFn z) params (some (p : ℕ)) (some (d : ℕ)) none = .ok (R, (p : ℕ), ((d : ℕ) : ℤ)) ∧
      A.ricci h (List.ofFn (changeChart z (p : ℕ) (q : ℕ))) params (some (q : ℕ)) (some (d' : ℕ)) none =
        .ok (R', (q : ℕ), ((d' : ℕ) : ℤ)) ∧
      g = M * g' * M.conjTranspose ∧ R = M * R' * M.conjTranspose := by
  have hdef : ∀ (r : Fin (n + 2)) w, defining A.variety (List.ofFn w) params (some (.index r)) = .ok 0 ↔
      eval w (dehom r F) = 0 := by
    intro r w
    rw [hV.defining r, eval_dehom]
    exact ⟨fun h => by injection h, fun h => by rw [h]⟩
  have hGe : G = fun k => eval z (pderiv k (dehom p F)) := by
    have := hG.symm.trans (hV.grad p z)
    injection this
  have hGe' : G' = fun k => eval (changeChart z (p : ℕ) (q : ℕ)) (pderiv k (dehom q F)) := by
    have := hG'.symm.trans (hV.grad q _)
    injection this
  obtain ⟨φ, hpar, hφ2, hφz, -⟩ := parametrises_exists (dehom p F) d z ((hdef p z).1 h0) (by rw [hGe] at hd; exact hd)
  set x : Fin n → ℂ := fun r => z (d.succAbove r) with hx
  have hloc : LocalCoordinates A.variety params (p : ℕ) d φ x := hpar.mono fun y hy => ⟨hy.1, hy.2.1, (hdef p _).2 hy.2.2⟩
  -- the map to the other patch
  set c : (Fin (n + 1) → ℂ) → ℂ := fun w => affineToHom w (p : ℕ) q with hc
  set ψ : (Fin n → ℂ) → Fin (n + 1) → ℂ := fun y => changeChart (φ y) (p : ℕ) (q : ℕ) with hψ
  have hcx : c (φ x) ≠ 0 := by rw [hφz]; exact hq
  have hψ2 : ContDiffAt ℂ 2 ψ x := (chart_contDiff p q hpq (φ x) hcx).comp x hφ2
  have hcφ : ContDiffAt ℂ 2 (fun y => c (φ y)) x := (affineToHom_contDiff p q).contDiffAt.comp x hφ2
  have hψz : ψ x = changeChart z (p : ℕ) (q : ℕ) := by rw [hψ]; simp only [hφz]
  have hhom : ∀ w, c w ≠ 0 → eval w (dehom p F) = 0 → eval (changeChart w (p : ℕ) (q : ℕ)) (dehom q F) = 0 := by
    intro w hw h0w
    rw [eval_dehom] at h0w ⊢
    have : affineToHom (changeChart w (p : ℕ) (q : ℕ)) (q : ℕ) = fun i => (c w)⁻¹ * affineToHom w (p : ℕ) i := by
      funext i
      rw [← C19_same_point w p q hpq hw i, ← mul_assoc, inv_mul_cancel₀ hw, one_mul]
    rw [this, eval_smul_homogeneous hV.homogeneous, h0w, mul_zero]
  have hon : ∀ᶠ y in 𝓝 x, c (φ y) ≠ 0 ∧ eval (φ y) (dehom p F) = 0 ∧ eval (ψ y) (dehom q F) = 0 := by
    filter_upwards [hcφ.continuousAt.eventually_ne hcx, hpar] with y hy1 hy2
    exact ⟨hy1, hy2.2.2, hhom _ hy1 hy2.2.2⟩
  have h0' : defining A.variety (List.ofFn (changeChart z (p : ℕ) (q : ℕ))) params (some (.index q)) = .ok 0 :=
    (hdef q _).2 (hhom z hq ((hdef p z).1 h0))
  have hdd : eval (φ x) (pderiv d (dehom p F)) ≠ 0 := by rw [hφz]; rw [hGe] at hd; exact hd
  have hdd' : eval (ψ x) (pderiv d' (dehom q F)) ≠ 0 := by rw [hψz]; rw [hGe'] at hd'; exact hd'
  have hT := dhol_tangent (hψ2.differentiableAt (by norm_num)) (hon.mono fun y hy => hy.2.2) hdd'
  rw [hψz, ← hGe'] at hT
  set M : Matrix (Fin n) (Fin n) ℂ := Matrix.of fun r s => dhol ψ r x (d'.succAbove s) with hM
  obtain ⟨g, hg, hg'⟩ := C108_metric hV h hh hB hk p d φ x hloc G (by rw [hφz]; exact hG) hd
  obtain ⟨R, hR, hR'⟩ := C108_eta hV h hh hB hk p d φ x hloc G (by rw [hφz]; exact hG) hd
  obtain ⟨g2, hg2, hg2'⟩ := metric_levi hV h hh hB q d' _ h0' G' hG'
  obtain ⟨R2, hR2, hR2'⟩ := C107_eta hV h hh hB hk q _ d' G' hG' h0' hd'
  rw [hφz] at hg hR
  -- pull-back of a function of the other patch
  have hpull : ∀ f : (Fin (n + 1) → ℂ) → ℂ, ContDiffAt ℝ 2 f (ψ x) → levi (fun y => f (ψ y)) x =
      M * (jacobianEmbed G' (d' : ℕ) * levi f (ψ x) * (jacobianEmbed G' (d' : ℕ)).conjTranspose) * M.conjTranspose := by
    intro f hf
    rw [levi_comp_matrix hf hψ2, hT, Matrix.conjTranspose_mul]
    simp only [Matrix.mul_assoc]
  refine ⟨φ, x, M, g, g2, R, R2, hloc, hφz, fun r s => ?_, hg, hg2, hR, hR2, ?_, ?_⟩
  · have h2 : HasDerivAt (fun t => Function.update x r t) (Pi.single r (1 : ℂ)) (x r) := hasDerivAt_update x r (x r)
    have h3 : HasFDerivAt ψ (fderiv ℂ ψ x) (Function.update x r (x r)) := by
      rw [Function.update_eq_self]; exact (hψ2.differentiableAt (by norm_num)).hasFDerivAt
    exact hasDerivAt_pi.1 (h3.comp_hasDerivAt (x r) h2) (d'.succAbove s)
  · have hgl : g = levi (fun y => onOk id (A.kahlerPotential h (List.ofFn (φ y)) (some (p : ℕ)))) x := by
      ext r s
      exact hg' r s
    have hsm : ContDiffAt ℝ 2 (fun w => onOk id (A.kahlerPotential h (List.ofFn w) (some (q : ℕ)))) (ψ x) := by
      rw [hψz]
      exact kahler_smooth hV h hh hB q _ h0'
    have hev : (fun y => onOk id (A.kahlerPotential h (List.ofFn (φ y)) (some (p : ℕ)))) =ᶠ[𝓝 x] fun y =>
        onOk id (A.kahlerPotential h (List.ofFn (ψ y)) (some (q : ℕ))) +
          ((Real.pi⁻¹ * Real.log (‖c (φ y)‖ ^ 2) : ℝ) : ℂ) := by
      filter_upwards [hon] with y hy
      simp only [kahler_val hV h, onOk, id]
      have := C101_kahler A.sections (fun a => hB.1 _ (List.get_mem _ a)) hk p q hpq (sectionsJet A.sections (p : ℕ) (φ y))
        (sectionsJet A.sections (q : ℕ) (ψ y)) (φ y) rfl rfl h hy.1
        (psi_pos h hh hB p (φ y) (by rw [← eval_dehom]; exact hy.2.1)).ne'
      rw [inv_mul_eq_div]
      exact this
    rw [hgl, levi_congr_matrix hev, levi_add (f := fun y => onOk id (A.kahlerPotential h (List.ofFn (ψ y)) (some (q : ℕ))))
        (g := fun y => ((Real.pi⁻¹ * Real.log (‖c (φ y)‖ ^ 2) : ℝ) : ℂ)) (hsm.comp x (hψ2.restrict_scalars ℝ)) (logNorm_smooth hcφ hcx _),
      levi_logNorm (u := fun y => c (φ y)) hcφ hcx, add_zero, hpull _ hsm, hg2', hψz]
    rfl
  · have hRl : R = -levi (fun y => onOk (fun η => ((Real.log ‖η‖ : ℝ) : ℂ))
        (A.eta h (List.ofFn (φ y)) params (some (p : ℕ)) none none)) x := by
      ext r s
      exact hR' r s
    have hsm : ContDiffAt ℝ 2 (fun w => onOk (fun η => ((Real.log ‖η‖ : ℝ) : ℂ))
        (A.eta h (List.ofFn w) params (some (q : ℕ)) (some (d' : ℕ)) none)) (ψ x) := by
      rw [hψz]
      exact eta_smooth hV h hh hB hk q d' _ h0' G' hG' hd'
    have hdc : ContinuousAt (fun y => eval (ψ y) (pderiv d' (dehom q F))) x :=
      ((eval_contDiff (pderiv d' (dehom q F)) 1).continuous.continuousAt).comp hψ2.continuousAt
    have hev : (fun y => onOk (fun η => ((Real.log ‖η‖ : ℝ) : ℂ))
        (A.eta h (List.ofFn (φ y)) params (some (p : ℕ)) none none)) =ᶠ[𝓝 x] fun y =>
        onOk (fun η => ((Real.log ‖η‖ : ℝ) : ℂ)) (A.eta h (List.ofFn (ψ y)) params (some (q : ℕ)) (some (d' : ℕ)) none) +
          ((((e : ℝ) - (n + 2)) * Real.log (‖c (φ y)‖ ^ 2) : ℝ) : ℂ) := by
      filter_upwards [hon, hpar.eventually hdd, hdc.eventually_ne hdd'] with y hy hy2 hy3
      rw [C104_eta hV h q (ψ y) d' _ (hV.grad q (ψ y)) hy3]
      have hpp : affineToHom (φ y) (p : ℕ) p ≠ 0 := by rw [affineToHom_same]; exact one_ne_zero
      obtain ⟨a, b, ha, hb, hab⟩ := C106_patches hV h hh hB (affineToHom (φ y) (p : ℕ)) (by rw [← eval_dehom]; exact hy.2.1)
        ⟨p.succAbove d, by rw [← eval_pderiv_dehom]; exact hy2.2⟩ p q hpp hy.1
      have e1 : homToAffine (affineToHom (φ y) (p : ℕ)) (p : ℕ) = φ y := by
        funext k
        rw [homToAffine_apply, affineToHom_succAbove, affineToHom_same, div_one]
      rw [e1] at ha
      rw [← C19_change_chart _ p q hpq] at hb
      have ha0 : a ≠ 0 := by
        obtain ⟨_, _, η, _, _, -, -, -, -, hη, hη0, -⟩ := C105_affine hV h hh hB hk p (φ y) d (some (d : ℕ)) _
          (hV.grad p _) ((hdef p _).2 hy.2.1) hy2.2 (Or.inl rfl)
        rw [C104_eta hV h p (φ y) d _ (hV.grad p (φ y)) hy2.2, ha] at hη
        injection hη with hη
        rw [hη]
        exact hη0.ne'
      have hb0 : b ≠ 0 := by
        obtain ⟨_, _, η, _, _, -, -, -, -, hη, hη0, -⟩ := C105_affine hV h hh hB hk q (ψ y) d' (some (d' : ℕ)) _
          (hV.grad q _) ((hdef q _).2 hy.2.2) hy3 (Or.inl rfl)
        rw [C104_eta hV h q (ψ y) d' _ (hV.grad q (ψ y)) hy3] at hη
        rw [hη] at hb
        injection hb with hb
        rw [← hb]
        exact hη0.ne'
      rw [affineToHom_same, div_one] at hab
      simp only [ha, hψ, hb, onOk]
      have hn := congrArg (fun t : ℂ => Real.log ‖t‖) hab
      simp only [norm_mul, norm_pow, Complex.norm_real, norm_norm] at hn
      have hc0 : ‖c (φ y)‖ ≠ 0 := norm_ne_zero_iff.2 hy.1
      rw [Real.log_mul (norm_ne_zero_iff.2 ha0) (pow_ne_zero _ hc0), Real.log_mul (norm_ne_zero_iff.2 hb0) (pow_ne_zero _ hc0),
        Real.log_pow, Real.log_pow] at hn
      rw [← Complex.ofReal_add, Real.log_pow]
      congr 1
      push_cast at hn ⊢
      linear_combination hn
    rw [hRl, levi_congr_matrix hev, levi_add (f := fun y => onOk (fun η => ((Real.log ‖η‖ : ℝ) : ℂ))
        (A.eta h (List.ofFn (ψ y)) params (some (q : ℕ)) (some (d' : ℕ)) none))
        (g := fun y => ((((e : ℝ) - (n + 2)) * Real.log (‖c (φ y)‖ ^ 2) : ℝ) : ℂ)) (hsm.comp x (hψ2.restrict_scalars ℝ)) (logNorm_smooth hcφ hcx _),
      levi_logNorm (u := fun y => c (φ y)) hcφ hcx, add_zero, hpull _ hsm, hR2', hψz]
    have e3 : (Matrix.of fun a b => -dzbar (fun v => dz (fun w => onOk (fun η => ((Real.log ‖η‖ : ℝ) : ℂ))
        (A.eta h (List.ofFn w) params (some (q : ℕ)) (some (d' : ℕ)) none)) a v) b (changeChart z (p : ℕ) (q : ℕ))) =
        -levi (fun w => onOk (fun η => ((Real.log ‖η‖ : ℝ) : ℂ))
        (A.eta h (List.ofFn w) params (some (q : ℕ)) (some (d' : ℕ)) none)) (changeChart z (p : ℕ) (q : ℕ)) := rfl
    rw [e3]
    simp only [Matrix.mul_neg, Matrix.neg_mul]

end Tensor

section Scalar

variable {A : AlgebraicMetric (n + 1)} {params : Val} {e : ℕ} {F : MvPolynomial (Fin (n + 2)) ℂ}
  (hV : Hypersurface A.variety params (n + 1) e F) (h : A.H) (hh : h.PosDef)
  (hB : SpansModulo F A.sections.degree A.sections.rows) (hk : A.sections.degree ≠ 0) (Z : Fin (n + 2) → ℂ)
  (h0 : eval Z F = 0) (hs : ∃ i, eval Z (pderiv i F) ≠ 0)

include hV hh hB hk h0 hs

/-- **C109.** The Ricci scalar is a function on the variety, of any degree: homogeneous coordinates of a smooth point at any
scale, and affine coordinates in any patch that contains it with any admissible dependent coordinate, give the same
value. -/
theorem C109_scalar (hZ : Z ≠ 0) :
    ∃ x, (∀ c : ℂ, c ≠ 0 → A.ricciScalar h (List.ofFn fun i => c * Z i) params none none none = .ok x) ∧
      ∀ p : Fin (n + 2), Z p ≠ 0 →
        A.ricciScalar h (List.ofFn (homToAffine Z (p : ℕ))) params (some (p : ℕ)) none none = .ok x ∧
        ∀ G, gradDefining A.variety (homToAffine Z (p : ℕ)) params (some (.index p)) = .ok G → ∀ d : Fin (n + 1), G d ≠ 0 →
          A.ricciScalar h (List.ofFn (homToAffine Z (p : ℕ))) params (some (p : ℕ)) (some (d : ℕ)) none = .ok x := by
  obtain ⟨-, -, h3⟩ := C17_patch Z
  have hp0 : Z (homToAffineAuto Z).2 ≠ 0 := (C17_bounded Z hZ 0).1
  have hpt : ∀ r, Z r ≠ 0 → defining A.variety (List.ofFn (homToAffine Z ((r : Fin (n + 2)) : ℕ))) params
      (some (.index r)) = .ok 0 := by
    intro r hr
    rw [hV.defining, C16_roundtrip Z r hr, show (fun i => Z i / Z r) = fun i => (Z r)⁻¹ * Z i from funext fun i => by ring,
      eval_smul_homogeneous hV.homogeneous, h0, mul_zero]
  have hdep : ∀ r, Z r ≠ 0 → ∀ d, eval (homToAffine Z ((r : Fin (n + 2)) : ℕ)) (pderiv d (dehom r F)) ≠ 0 →
      A.ricciScalar h (List.ofFn (homToAffine Z (r : ℕ))) params (some (r : ℕ)) (some (d : ℕ)) none =
        A.ricciScalar h (List.ofFn (homToAffine Z (r : ℕ))) params (some (r : ℕ)) none none := by
    intro r hr d hd
    obtain ⟨r1, r2, r3⟩ := regular hV h hh hB hk r _ d _ (hV.grad r _) (hpt r hr) hd
    refine C104_ricci_scalar hV h r _ d _ (hV.grad r _) hd hh.isHermitian (spans_le hB) r1 ?_
    intro g i j hg
    rw [metric_val hV h r _ (some (d : ℕ))] at hg
    injection hg with hg
    have hg1 : _ = g := congrArg Prod.fst hg
    rw [← hg1]
    exact r3
  obtain ⟨d0, hd0⟩ := smooth_affine hV.homogeneous Z h0 hs _ hp0
  have hpair : ∀ p : Fin (n + 2), Z p ≠ 0 →
      A.ricciScalar h (List.ofFn (homToAffine Z (p : ℕ))) params (some (p : ℕ)) none none =
        A.ricciScalar h (List.ofFn (homToAffine Z ((homToAffineAuto Z).2 : ℕ))) params (some ((homToAffineAuto Z).2 : ℕ))
          none none := by
    intro p hp
    rcases eq_or_ne p (homToAffineAuto Z).2 with hpq | hpq
    · rw [hpq]
    set q := (homToAffineAuto Z).2
    obtain ⟨d, hd⟩ := smooth_affine hV.homogeneous Z h0 hs p hp
    have hcc : changeChart (homToAffine Z (p : ℕ)) (p : ℕ) (q : ℕ) = homToAffine Z (q : ℕ) := by
      rw [C19_change_chart _ p q hpq, C16_roundtrip Z p hp,
        show (fun i => Z i / Z p) = fun i => (Z p)⁻¹ * Z i from funext fun i => by ring,
        C18_fixed_patch Z q _ (inv_ne_zero hp)]
    have hc : affineToHom (homToAffine Z (p : ℕ)) (p : ℕ) q ≠ 0 := by
      rw [C16_roundtrip Z p hp]
      exact div_ne_zero hp0 hp
    obtain ⟨φ, x, M, g, g', R, R', hloc, hφ, -, t1, t2, t3, t4, t5, t6⟩ := C109_tensor hV h hh hB hk p q hpq d d0 _ hc
      (hpt p hp) _ _ (hV.grad p _) hd (hV.grad q _) (by rw [hcc]; exact hd0)
    obtain ⟨φ', x', hloc', hφ', -⟩ := C108_exists hV q (homToAffine Z (q : ℕ)) d0 _ (hV.grad q _) (hpt q hp0) hd0
    obtain ⟨g1, R1, c1, u1, u2, u3, u4, u5⟩ := C108_scalar hV h hh hB hk p d φ x hloc _ (hV.grad p _) (by rw [hφ]; exact hd)
    obtain ⟨g2, R2, c2, v1, v2, v3, v4, v5⟩ := C108_scalar hV h hh hB hk q d0 φ' x' hloc' _ (hV.grad q _)
      (by rw [hφ']; exact hd0)
    rw [hφ] at u1 u2 u3
    rw [hφ'] at v1 v2 v3
    rw [hcc] at t2 t4
    have e1 : g1 = g := congrArg Prod.fst (Except.ok.inj (u1.symm.trans t1))
    have e2 : g2 = g' := congrArg Prod.fst (Except.ok.inj (v1.symm.trans t2))
    have e3 : R1 = R := congrArg Prod.fst (Except.ok.inj (u2.symm.trans t3))
    have e4 : R2 = R' := congrArg Prod.fst (Except.ok.inj (v2.symm.trans t4))
    clear t1 t2 t3 t4 u1 u2 v1 v2
    subst e1 e2 e3 e4
    refine (hdep p hp d hd).symm.trans (u3.trans (Eq.trans ?_ (v3.symm.trans (hdep q hp0 d0 hd0))))
    rw [u5, v5]
    have hMdet : M.det ≠ 0 := by
      intro hM
      apply u4
      rw [t5, Matrix.det_mul, Matrix.det_mul, hM]
      simp
    congr 1
    have hMu : IsUnit M.det := isUnit_iff_ne_zero.2 hMdet
    have hMu' : IsUnit M.conjTranspose.det := by
      rw [Matrix.det_conjTranspose]
      exact hMu.star
    rw [t5, t6, Matrix.mul_inv_rev, Matrix.mul_inv_rev]
    rw [show M.conjTranspose⁻¹ * (g2⁻¹ * M⁻¹) * (M * R2 * M.conjTranspose) =
      M.conjTranspose⁻¹ * (g2⁻¹ * (M⁻¹ * M) * R2 * M.conjTranspose) by simp only [Matrix.mul_assoc],
      Matrix.nonsing_inv_mul _ hMu, Matrix.mul_one, Matrix.trace_mul_comm, Matrix.mul_assoc,
      Matrix.mul_nonsing_inv _ hMu', Matrix.mul_one]
  obtain ⟨c0, hc0⟩ : ∃ c0, A.ricciScalar h (List.ofFn (homToAffine Z ((homToAffineAuto Z).2 : ℕ))) params
      (some ((homToAffineAuto Z).2 : ℕ)) none none = .ok c0 := by
    obtain ⟨_, c, -, -, -, hc⟩ := ricci_val hV h _ (homToAffine Z ((homToAffineAuto Z).2 : ℕ)) d0 (some (d0 : ℕ)) rfl hd0
    exact ⟨c, by rw [← hdep _ hp0 d0 hd0, hc]⟩
  refine ⟨c0, fun c hc => ?_, fun p hp => ⟨(hpair p hp).trans hc0, fun G hG d hd => ?_⟩⟩
  · rw [(C103_scale A hV.dim h params none none Z c hc).2.2.2.2, (C103_homogeneous A hV.dim h params none none Z).2.2.2.2, h3]
    exact hc0
  · have hGe : G = fun k => eval (homToAffine Z (p : ℕ)) (pderiv k (dehom p F)) := by
      have := hG.symm.trans (hV.grad p _)
      injection this
    rw [hGe] at hd
    rw [hdep p hp d hd, hpair p hp, hc0]

end Scalar

/-- All hypotheses of C109 together: the Fermat cubic, full basis of degree 2, `h = 1`, the point `(1 : -1 : 0)`, which lies
in the patches 0 and 1. -/
example : ∃ (A : AlgebraicMetric 2) (F : MvPolynomial (Fin 3) ℂ) (Z : Fin 3 → ℂ),
    Hypersurface A.variety (.vec []) 2 3 F ∧ (1 : A.H).PosDef ∧ SpansModulo F A.sections.degree A.sections.rows ∧
    A.sections.degree ≠ 0 ∧ Z 0 ≠ 0 ∧ Z 1 ≠ 0 ∧ eval Z F = 0 ∧ ∃ i, eval Z (pderiv i F) ≠ 0 := by
  refine ⟨⟨.fermat 3, monomialBasisFull 2 2⟩, ∑ j, MvPolynomial.X j ^ (2 + 1), ![1, -1, 0], hypersurface_fermat 2 _,
    Matrix.PosDef.one, (C105_sections _ 2).1, two_ne_zero, by simp, by simp, ?_, 0, ?_⟩
  · simp [Fin.sum_univ_three]
    norm_num
  · simp [Fin.sum_univ_three, MvPolynomial.pderiv_X]

end Cyjax
