import Verif.Spec.Family
import Verif.Model.TrainScript
import Verif.Lemmas.AlgebraicMetric
import Verif.Lemmas.AlmostSure
import Verif.Props.Smooth
import Mathlib.Algebra.MvPolynomial.Funext

/-! # Families of hypersurfaces with random moduli -/

namespace Cyjax

open MvPolynomial Cyjax.Spec Cyjax.Polynomial Cyjax.Variety MeasureTheory Cyjax.TrainScript

/-! ## The families of the package -/

/-- Homogeneity can be checked on the members. -/
theorem homogeneous_of_members {m k e : ℕ} {Φ : MvPolynomial (Fin m) (MvPolynomial (Fin k) ℂ)}
    (h : ∀ ps, (map (eval ps) Φ).IsHomogeneous e) : Φ.IsHomogeneous e := by
  intro s hs
  obtain ⟨ps, hps⟩ : ∃ ps, eval ps (coeff s Φ) ≠ 0 := by
    by_contra hcon
    push Not at hcon
    exact hs (MvPolynomial.funext fun ps => by rw [hcon, map_zero])
  exact h ps (by rwa [coeff_map])

theorem family_generic {P : PolyObj} {name : List Char} {m d : ℕ} (h : Proper P name m)
    (hh : HomogeneousIn P.poly name m d) (hp : ∀ p : Fin (m + 1), HasPatch P name p) :
    ∃ Φ, Family (.generic P) P.md.params.length m d Φ := by
  classical
  set k := P.md.params.length with hk
  set par : Sym → MvPolynomial (Fin k) ℂ := fun s =>
    if hs : s ∈ P.md.params then X ⟨P.md.params.idxOf s, List.idxOf_lt_length_of_mem hs⟩ else 0 with hpar
  set Φ : MvPolynomial (Fin (m + 1)) (MvPolynomial (Fin k) ℂ) := eval₂Hom (C.comp C) (fun s : Sym =>
    if h : ∃ i : Fin (m + 1), s = mergeSubscript name i then X h.choose else C (par s)) P.poly with hΦ
  have hfix : ∀ ps, map (eval ps) Φ = fixParams name m (fun s => eval ps (par s)) P.poly := by
    intro ps
    rw [hΦ]
    unfold fixParams
    have e1 : ((map (eval ps)).comp (eval₂Hom (C.comp C) (fun s : Sym =>
        if h : ∃ i : Fin (m + 1), s = mergeSubscript name i then (X h.choose : MvPolynomial (Fin (m + 1)) (MvPolynomial (Fin k) ℂ))
          else C (par s)))) =
      (bind₁ (fun s => if h : ∃ i : Fin (m + 1), s = mergeSubscript name i then
        (X h.choose : MvPolynomial (Fin (m + 1)) ℂ) else C (eval ps (par s)))).toRingHom := by
      refine MvPolynomial.ringHom_ext (fun c => ?_) fun s => ?_
      · simp
      · simp only [RingHom.comp_apply, coe_eval₂Hom, eval₂_X, AlgHom.toRingHom_eq_coe, RingHom.coe_coe, bind₁_X_right]
        split_ifs
        · simp
        · simp
    exact DFunLike.congr_fun e1 P.poly
  have hin : ∀ ps : Fin k → ℂ, P.md.paramInput (fun s => eval ps (par s)) = List.ofFn ps := by
    intro ps
    unfold Meta.paramInput
    refine List.ext_getElem (by simp [hk]) fun i h1 h2 => ?_
    rw [List.getElem_map, List.getElem_ofFn]
    have hi : i < P.md.params.length := by simpa using h1
    have hmem : P.md.params[i] ∈ P.md.params := List.getElem_mem hi
    simp only [hpar, dif_pos hmem, eval_X]
    congr 1
    exact Fin.ext (h.wf.paramsNodup.idxOf_getElem i hi)
  have hhom : ∀ ps, (map (eval ps) Φ).IsHomogeneous d := fun ps => by
    rw [hfix]
    exact fixParams_homogeneous h.goodName m _ hh
  refine ⟨Φ, homogeneous_of_members hhom, fun ps => ⟨?_, hhom ps, fun p zs => ?_⟩⟩
  · simp [dimComplex, HomKind.md, h.vars]
  · rw [hfix]
    exact represents_fixParams h (List.ofFn ps) _ (hin ps) p (hp p) zs

theorem family_dwork (m : ℕ) (f : DworkFactor) :
    Family (.dwork (m + 1) f) 1 m (m + 1) (∑ j, X j ^ (m + 1) + C (C f.value * X 0) * ∏ j, X j) := by
  have hmap : ∀ ps : Fin 1 → ℂ, map (eval ps) (∑ j, X j ^ (m + 1) + C (C f.value * X 0) * ∏ j, X j :
      MvPolynomial (Fin (m + 1)) (MvPolynomial (Fin 1) ℂ)) = ∑ j, X j ^ (m + 1) + C (f.value * ps 0) * ∏ j, X j := by
    intro ps
    simp only [map_add, map_sum, map_pow, map_mul, map_prod, map_X, map_C, eval_C, eval_X]
  have hm : ∀ ps : Fin 1 → ℂ, Hypersurface (.dwork (m + 1) f) (.vec (List.ofFn ps)) m (m + 1)
      (map (eval ps) (∑ j, X j ^ (m + 1) + C (C f.value * X 0) * ∏ j, X j :
        MvPolynomial (Fin (m + 1)) (MvPolynomial (Fin 1) ℂ))) := by
    intro ps
    rw [hmap, List.ofFn_succ]
    exact hypersurface_dwork_explicit m f (ps 0) _
  exact ⟨homogeneous_of_members fun ps => (hm ps).homogeneous, hm⟩

theorem family_fermat (m : ℕ) : Family (.fermat (m + 1)) 0 m (m + 1) (∑ j, X j ^ (m + 1)) := by
  have hm : ∀ ps : Fin 0 → ℂ, Hypersurface (.fermat (m + 1)) (.vec (List.ofFn ps)) m (m + 1)
      (map (eval ps) (∑ j, X j ^ (m + 1) : MvPolynomial (Fin (m + 1)) (MvPolynomial (Fin 0) ℂ))) := by
    intro ps
    have : map (eval ps) (∑ j, X j ^ (m + 1) : MvPolynomial (Fin (m + 1)) (MvPolynomial (Fin 0) ℂ)) = ∑ j, X j ^ (m + 1) := by
      simp only [map_sum, map_pow, map_X]
    rw [this]
    exact hypersurface_fermat m _
  exact ⟨homogeneous_of_members fun ps => (hm ps).homogeneous, hm⟩

/-! ## Random moduli -/

theorem flatten_preserving (b k : ℕ) (μ : Measure ℝ) [IsProbabilityMeasure μ] :
    MeasurePreserving (fun (y : Fin b → Fin k → ℝ) (q : Fin (b * k)) => y (finProdFinEquiv.symm q).1 (finProdFinEquiv.symm q).2)
      (Measure.pi fun _ => Measure.pi fun _ => μ) (Measure.pi fun _ => μ) := by
  have h2 : MeasurePreserving (fun (y : Fin b → Fin k → ℝ) (q : Fin b × Fin k) => y q.1 q.2)
      (Measure.pi fun _ => Measure.pi fun _ => μ) (Measure.pi fun _ => μ) := by
    have hm : Measurable (fun (y : Fin b → Fin k → ℝ) (q : Fin b × Fin k) => y q.1 q.2) := by fun_prop
    refine ⟨hm, (Measure.pi_eq fun s hs => ?_).symm⟩
    rw [Measure.map_apply hm (MeasurableSet.univ_pi hs)]
    have e : (fun (y : Fin b → Fin k → ℝ) (q : Fin b × Fin k) => y q.1 q.2) ⁻¹' Set.univ.pi s =
        Set.univ.pi fun i => Set.univ.pi fun j => s (i, j) := by
      ext y
      simp
    rw [e, Measure.pi_pi, Fintype.prod_prod_type]
    exact Finset.prod_congr rfl fun i _ => Measure.pi_pi _ _
  have h3 := measurePreserving_piCongrLeft (fun _ : Fin (b * k) => μ) finProdFinEquiv
  convert h3.comp h2 using 1
  funext x q
  obtain ⟨q, rfl⟩ := finProdFinEquiv.surjective q
  simp only [Function.comp_apply, MeasurableEquiv.coe_piCongrLeft, Equiv.piCongrLeft_apply_apply, Equiv.symm_apply_apply]

instance : NullSingletonClass unifSym := by
  refine ⟨fun x => ?_⟩
  unfold unifSym
  rw [Measure.smul_apply, measure_singleton, smul_zero]

/-- Moduli number `i` drawn with bounds `b`. -/
noncomputable def cubeRow {rows k : ℕ} (b : Fin k → ℝ) (u : Fin 2 → Fin rows → Fin k → ℝ) (i : Fin rows) : Fin k → ℂ :=
  cubeParamSampler b (u 0 i) (u 1 i)

theorem continuous_cubeRow {rows k : ℕ} (b : Fin k → ℝ) (i : Fin rows) : Continuous fun u => cubeRow b u i := by
  unfold cubeRow cubeParamSampler Random.uniformComponents
  fun_prop

/-- Random moduli satisfy no given equation. -/
theorem ae_cube {rows k : ℕ} (b : Fin k → ℝ) (hb : ∀ j, b j ≠ 0) (a : MvPolynomial (Fin k) ℂ) (ha : a ≠ 0) (i : Fin rows) :
    ∀ᵐ u ∂cubeLaw rows k, eval (cubeRow b u i) a ≠ 0 := by
  have h1 : MeasurePreserving (fun (u : Fin 2 → Fin rows → Fin k → ℝ) c => u c i) (cubeLaw rows k)
      (Measure.pi fun _ : Fin 2 => Measure.pi fun _ : Fin k => unifSym) :=
    measurePreserving_pi (fun _ : Fin 2 => Measure.pi fun _ : Fin rows => Measure.pi fun _ : Fin k => unifSym)
      (fun _ : Fin 2 => Measure.pi fun _ : Fin k => unifSym) (f := fun _ v => v i)
      fun _ => measurePreserving_eval (fun _ : Fin rows => Measure.pi fun _ : Fin k => unifSym) i
  have h2 := (flatten_preserving 2 k unifSym).comp h1
  set G : MvPolynomial (Fin (2 * k)) ℂ := aeval (fun j : Fin k => (X (finProdFinEquiv (0, j)) + C Complex.I *
    X (finProdFinEquiv (1, j))) * C (b j : ℂ)) a with hG
  have hev : ∀ y : Fin 2 → Fin k → ℝ, eval (fun q => ((y (finProdFinEquiv.symm q).1 (finProdFinEquiv.symm q).2 : ℝ) : ℂ)) G =
      eval (cubeParamSampler b (y 0) (y 1)) a := by
    intro y
    rw [hG, ← aeval_eq_eval, ← aeval_eq_eval, comp_aeval_apply]
    refine congrArg (fun f => aeval f a) (funext fun j => ?_)
    simp only [map_mul, map_add, aeval_X, algHom_C, Algebra.algebraMap_self, RingHom.id_apply, Equiv.symm_apply_apply,
      cubeParamSampler, Random.uniformComponents]
  have hG0 : G ≠ 0 := by
    intro h0
    apply ha
    refine MvPolynomial.funext fun z => ?_
    have hz : cubeParamSampler b (fun j => (z j).re / b j) (fun j => (z j).im / b j) = z := by
      funext j
      have : (b j : ℂ) ≠ 0 := by exact_mod_cast hb j
      simp only [cubeParamSampler, Random.uniformComponents]
      push_cast
      field_simp
      rw [mul_comm]
      exact Complex.re_add_im _
    have := hev ![fun j => (z j).re / b j, fun j => (z j).im / b j]
    rw [h0, map_zero] at this
    simp only [Matrix.cons_val_zero, Matrix.cons_val_one] at this
    rw [hz] at this
    rw [← this, map_zero]
  have h3 := h2.quasiMeasurePreserving.ae (ae_eval_ne_zero (2 * k) (fun _ => unifSym) G hG0)
  filter_upwards [h3] with u hu
  have := hev fun c => u c i
  simp only [Function.comp_apply] at hu
  rw [this] at hu
  exact hu

end Cyjax
