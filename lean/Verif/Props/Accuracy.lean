import Verif.Model.Pipeline
import Verif.Lemmas.HypersurfaceWeight
import Verif.Props.AlgebraicMetric
import Verif.Props.DonaldsonStep
import Verif.Props.Smooth
import Verif.Props.Curvature

/-! # `sigma_accuracy` from the sampled lines to the result (C110) -/

namespace Cyjax

open Cyjax.Donaldson Cyjax.Spec Cyjax.Projective Cyjax.Variety Cyjax.Differential MvPolynomial
open Cyjax.Polynomial (PyErr Val)
open scoped ComplexOrder

theorem mapM_ok {α β : Type*} {f : α → Except PyErr β} {g : α → β} :
    ∀ {l : List α}, (∀ x ∈ l, f x = .ok (g x)) → l.mapM f = .ok (l.map g)
  | [], _ => rfl
  | x :: l, h => by
    rw [List.mapM_cons, h x (by simp), mapM_ok (l := l) fun y hy => h y (by simp [hy])]
    rfl

theorem sum_get {α : Type*} (l : List α) (f : α → ℝ) : ∑ i : Fin l.length, f (l.get i) = (l.map f).sum := by
  conv_rhs => rw [← List.ofFn_get l, List.map_ofFn, List.sum_ofFn]
  rfl

private theorem sigma_list (L : List (ℝ × ℝ)) (hL : L ≠ []) (hpos : ∀ x ∈ L, 0 < x.1 ∧ 0 < x.2) :
    let vals := L.map fun x => ((x.1 : ℂ), x.2)
    let W := (L.map Prod.snd).sum
    let E := (L.map fun x => x.1 * x.2).sum
    let σ := Donaldson.sigmaAccuracy (count := vals.length) (fun i => (vals.get i).1) fun i => (vals.get i).2
    σ = (L.map fun x => |1 - x.1 * W / E| * x.2).sum / W ∧ 0 ≤ σ ∧ σ ≤ 2 ∧
      (σ = 0 ↔ ∀ x ∈ L, ∀ y ∈ L, x.1 = y.1) := by
  intro vals W E σ
  have hlen : vals.length = L.length := List.length_map _
  let x : Fin vals.length → ℝ × ℝ := fun i => L.get (i.cast hlen)
  have hx : ∀ i, vals.get i = (((x i).1 : ℂ), (x i).2) := fun i => by simp [vals, x]
  have hxp : ∀ i, 0 < (x i).1 ∧ 0 < (x i).2 := fun i => hpos _ (List.get_mem _ _)
  have hn : vals.length ≠ 0 := by simpa [hlen] using hL
  have hσ : σ = Donaldson.sigmaAccuracy (fun i => ((x i).1 : ℂ)) fun i => (x i).2 := by
    simp only [σ, hx]
  have hsum : ∀ f : ℝ × ℝ → ℝ, ∑ i, f (x i) = (L.map f).sum := by
    intro f
    rw [← sum_get L f]
    exact Fintype.sum_equiv (finCongr hlen) _ _ fun i => rfl
  have : Nonempty (Fin vals.length) := ⟨⟨0, Nat.pos_of_ne_zero hn⟩⟩
  have hW : 0 < ∑ i, (x i).2 := Finset.sum_pos (fun i _ => (hxp i).2) Finset.univ_nonempty
  have b := C73_bounds (fun i => (x i).1) (fun i => (x i).2) hn (fun i => (hxp i).1) fun i => (hxp i).2
  have z := C73_zero (fun i => (x i).1) (fun i => (x i).2) hn (fun i => (hxp i).1) fun i => (hxp i).2
  refine ⟨?_, hσ ▸ b.1, hσ ▸ b.2, ?_⟩
  · rw [hσ, sigma_eq (fun i => (x i).1) (fun i => (x i).2) hn hW, hsum Prod.snd, hsum fun x => x.1 * x.2,
      hsum fun y => |1 - y.1 * W / E| * y.2]
  · rw [hσ, z]
    constructor
    · intro h a ha b hb
      obtain ⟨i, rfl⟩ := List.get_of_mem ha
      obtain ⟨j, rfl⟩ := List.get_of_mem hb
      exact h (i.cast hlen.symm) (j.cast hlen.symm)
    · intro h i j
      exact h _ (List.get_mem _ _) _ (List.get_mem _ _)

variable {n : ℕ} {A : AlgebraicMetric (n + 1)} {ps : List ℂ} {e : ℕ} {F : MvPolynomial (Fin (n + 2)) ℂ}

/-- The values computed by `sigma_accuracy` at one sampled point. -/
theorem point_values (hF : Hypersurface A.variety (.vec ps) (n + 1) e F) (h : A.H) (hh : h.PosDef)
    (hB : SpansModulo F A.sections.degree A.sections.rows) (hk : A.sections.degree ≠ 0) (Z : Fin (n + 2) → ℂ) (hZ : Z ≠ 0)
    (h0 : eval Z F = 0) (hs : ∃ i, eval Z (pderiv i F) ≠ 0) :
    ∃ η w : ℝ, 0 < η ∧ 0 < w ∧
      A.eta h (List.ofFn Z) (.vec ps) none none none = .ok (η : ℂ) ∧
      weight A.variety (homToAffineAuto Z).1 (.vec ps) (some (.index (homToAffineAuto Z).2)) none (some 1) = .ok w ∧
      ∃ G, gradDefining A.variety (homToAffineAuto Z).1 (.vec ps) (some (.index (homToAffineAuto Z).2)) = .ok G ∧
        weight A.variety (homToAffineAuto Z).1 (.vec ps) (some (.index (homToAffineAuto Z).2))
          (some ((argmax fun i => ‖G i‖ : Fin (n + 1)) : ℕ)) (some 1) = .ok w ∧
        A.eta h (List.ofFn (homToAffineAuto Z).1) (.vec ps) (some ((homToAffineAuto Z).2 : ℕ))
          (some ((argmax fun i => ‖G i‖ : Fin (n + 1)) : ℕ)) (some G) = .ok (η : ℂ) := by
  obtain ⟨-, -, h3⟩ := C17_patch Z
  have hp0 : Z (homToAffineAuto Z).2 ≠ 0 := (C17_bounded Z hZ 0).1
  set z := (homToAffineAuto Z).1 with hz
  set p := (homToAffineAuto Z).2 with hp
  have hG := hF.grad p z
  obtain ⟨k, hk0⟩ := smooth_affine hF.homogeneous Z h0 hs p hp0
  rw [← h3] at hk0
  have hd0 := argmax_ne (G := fun k => eval z (pderiv k (dehom p F))) hk0
  have hdef : defining A.variety (List.ofFn z) (.vec ps) (some (.index p)) = .ok 0 := by
    rw [hF.defining p z, h3, C16_roundtrip Z p hp0, show (fun i => Z i / Z p) = fun i => (Z p)⁻¹ * Z i from
      funext fun i => by ring, eval_smul_homogeneous hF.homogeneous, h0, mul_zero]
  obtain ⟨K, g, η, R, c, -, -, -, -, r5, r6, -⟩ := C105_affine hF h hh hB hk p z _ none _ hG hdef hd0 (Or.inr ⟨rfl, rfl⟩)
  obtain ⟨w, hw, hw0⟩ := C30_positive A.variety z (.vec ps) (some (.index p)) _ hG _ hd0 none (Or.inl rfl) (some 1)
  have hηr : ((η.re : ℝ) : ℂ) = η := by
    refine Complex.ext rfl ?_
    rw [Complex.ofReal_im]
    exact (Complex.pos_iff.1 r6).2
  refine ⟨η.re, w, (Complex.pos_iff.1 r6).1, hw0, ?_, hw, _, hG, ?_, ?_⟩
  · rw [hηr]
    exact (C103_homogeneous A hF.dim h (.vec ps) none none Z).2.2.1.trans r5
  · rw [← C30_automatic A.variety z (.vec ps) (some (.index p)) _ hG _ hd0 (some 1)]
    exact hw
  · rw [hηr, (C104_grad A hF.dim h (.vec ps) p z _ hG _).2.1, C104_eta hF h p z _ _ hG hd0]
    exact r5

/-- The list of points sampled by `sigma_accuracy` and the values at them. -/
theorem sigma_points (h : A.H) (o : SymOrder)
    (roots : List ℂ → List ℂ) (count : ℕ) (draws : List (List ℂ × List ℂ)) (Zs : List (Fin (n + 2) → ℂ))
    (hZs : sampleIntersect A.variety o roots ps count draws = .ok (Zs.map List.ofFn)) (η w : (Fin (n + 2) → ℂ) → ℝ)
    (hv : ∀ Z ∈ Zs, ∃ G, gradDefining A.variety (homToAffineAuto Z).1 (.vec ps) (some (.index (homToAffineAuto Z).2)) = .ok G ∧
        weight A.variety (homToAffineAuto Z).1 (.vec ps) (some (.index (homToAffineAuto Z).2))
          (some ((argmax fun i => ‖G i‖ : Fin (n + 1)) : ℕ)) (some 1) = .ok (w Z) ∧
        A.eta h (List.ofFn (homToAffineAuto Z).1) (.vec ps) (some ((homToAffineAuto Z).2 : ℕ))
          (some ((argmax fun i => ‖G i‖ : Fin (n + 1)) : ℕ)) (some G) = .ok (η Z : ℂ)) :
    A.sigmaAccuracy h o roots ps count draws =
      let vals := (Zs.map fun Z => (η Z, w Z)).map fun x => ((x.1 : ℂ), x.2)
      .ok (Donaldson.sigmaAccuracy (count := vals.length) (fun i => (vals.get i).1) fun i => (vals.get i).2) := by
  have hpts : sampleIntersectAffine (n + 1) A.variety o roots ps count draws = .ok (Zs.map homToAffineAuto) := by
    unfold sampleIntersectAffine
    rw [hZs]
    simp only [List.map_map]
    congr 1
    refine List.map_congr_left fun Z _ => ?_
    simp only [Function.comp_apply, toArr_ofFn']
  unfold AlgebraicMetric.sigmaAccuracy
  rw [hpts]
  simp only [bind, Except.bind]
  have e : (Zs.map fun Z => ((η Z : ℂ), w Z)) = (Zs.map fun Z => (η Z, w Z)).map fun x => ((x.1 : ℂ), x.2) := by
    rw [List.map_map]
    rfl
  rw [List.mapM_map, mapM_ok (g := fun Z => ((η Z : ℂ), w Z)), e]
  · rfl
  · intro Z hZ
    obtain ⟨G, g1, g2, g3⟩ := hv Z hZ
    simp only [Function.comp_apply]
    rw [g1]
    simp only
    rw [g2]
    simp only
    rw [g3]
    rfl

theorem eta_smul (hF : Hypersurface A.variety (.vec ps) (n + 1) e F) (h : A.H) (hh : h.PosDef)
    (hB : SpansModulo F A.sections.degree A.sections.rows) (c : ℝ) (hc : 0 < c) (Z : Fin (n + 2) → ℂ) (hZ : Z ≠ 0)
    (h0 : eval Z F = 0) :
    A.eta ((c : ℂ) • h) (List.ofFn Z) (.vec ps) none none none = A.eta h (List.ofFn Z) (.vec ps) none none none := by
  rw [(C103_homogeneous A hF.dim _ (.vec ps) none none Z).2.2.1, (C103_homogeneous A hF.dim _ (.vec ps) none none Z).2.2.1,
    eta_val hF, eta_val hF]
  obtain ⟨-, -, h3⟩ := C17_patch Z
  have hp0 : Z (homToAffineAuto Z).2 ≠ 0 := (C17_bounded Z hZ 0).1
  refine congrArg Except.ok (C71_induced c h hc.ne' _ _ _ (psi_pos h hh hB _ _ ?_).ne').2.2.2
  rw [h3, C16_roundtrip Z _ hp0, show (fun i => Z i / Z (homToAffineAuto Z).2) = fun i => (Z (homToAffineAuto Z).2)⁻¹ * Z i from
      funext fun i => by ring, eval_smul_homogeneous hF.homogeneous, h0, mul_zero]

section Sigma

variable (hS : Samplable A.variety (n + 1) e ps) (hF : Hypersurface A.variety (.vec ps) (n + 1) e F)
  (hsm : SmoothHypersurface F) (he : e ≠ 0) (hB : SpansModulo F A.sections.degree A.sections.rows)
  (hk : A.sections.degree ≠ 0) (h : A.H) (hh : h.PosDef) {o : SymOrder} (ho : o.Valid) {roots : List ℂ → List ℂ}
  (hr : ExactRoots roots) (count : ℕ) (hc : count ≠ 0) (draws : List ((Fin (n + 2) → ℂ) × (Fin (n + 2) → ℂ)))
  (hdr : draws ≠ []) (hd : ∀ x ∈ draws, Admissible F x)

include hS hF hsm he hB hk hh ho hr hc hdr hd

/-- **C110.** On a smooth hypersurface, for positive definite `h`, sections of positive degree that span the coordinate
ring and admissible lines, `sigma_accuracy` succeeds. Its result is the weighted average of `|1 - η vol_cy / vol_k|` over
the points `Zs` returned by `sample_intersect`, with the values that `eta` and `sample_intersect_weights` return there; it
lies between 0 and 2, and it is 0 exactly if `eta` is the same at all points. -/
theorem C110_sigma :
    ∃ (Zs : List (Fin (n + 2) → ℂ)) (η w : (Fin (n + 2) → ℂ) → ℝ) (σ : ℝ),
      sampleIntersect A.variety o roots ps count (asLists draws) = .ok (Zs.map List.ofFn) ∧
      Zs.length = min count (draws.length * e) ∧
      (∀ Z ∈ Zs, Z ≠ 0 ∧ eval Z F = 0 ∧ 0 < η Z ∧ 0 < w Z ∧
        A.eta h (List.ofFn Z) (.vec ps) none none none = .ok (η Z : ℂ) ∧
        weight A.variety (homToAffineAuto Z).1 (.vec ps) (some (.index (homToAffineAuto Z).2)) none (some 1) = .ok (w Z)) ∧
      A.sigmaAccuracy h o roots ps count (asLists draws) = .ok σ ∧
      σ = (Zs.map fun Z => |1 - η Z * (Zs.map w).sum / (Zs.map fun Z => η Z * w Z).sum| * w Z).sum / (Zs.map w).sum ∧
      0 ≤ σ ∧ σ ≤ 2 ∧ (σ = 0 ↔ ∀ Z ∈ Zs, ∀ Z' ∈ Zs, η Z = η Z') := by
  obtain ⟨Zs, h1, h2, h3⟩ := sample_points hS hF ho hr count draws hd
  have key : ∀ Z ∈ Zs, _ := fun Z hZ =>
    point_values hF h hh hB hk Z (h3 Z hZ).1 (h3 Z hZ).2.1 (hsm Z (h3 Z hZ).1 (h3 Z hZ).2.1)
  choose! η w hη hw k1 k2 k3 using key
  have hne : Zs ≠ [] := by
    have : 0 < draws.length := List.length_pos_iff.2 hdr
    have h4 : 0 < Zs.length := by
      rw [h2]
      exact lt_min (Nat.pos_of_ne_zero hc) (Nat.mul_pos this (Nat.pos_of_ne_zero he))
    exact List.length_pos_iff.1 h4
  obtain ⟨s1, s2, s3, s4⟩ := sigma_list (Zs.map fun Z => (η Z, w Z)) (by simpa using hne) (by
    intro x hx
    obtain ⟨Z, hZ, rfl⟩ := List.mem_map.1 hx
    exact ⟨hη Z hZ, hw Z hZ⟩)
  refine ⟨Zs, η, w, _, h1, h2, fun Z hZ => ⟨(h3 Z hZ).1, (h3 Z hZ).2.1, hη Z hZ, hw Z hZ, k1 Z hZ, k2 Z hZ⟩,
    sigma_points h o roots count _ Zs h1 η w k3, ?_, s2, s3, ?_⟩
  · rw [s1]
    simp only [List.map_map]
    rfl
  · rw [s4]
    constructor
    · intro h Z hZ Z' hZ'
      exact h _ (List.mem_map_of_mem hZ) _ (List.mem_map_of_mem hZ')
    · intro h x hx y hy
      obtain ⟨Z, hZ, rfl⟩ := List.mem_map.1 hx
      obtain ⟨Z', hZ', rfl⟩ := List.mem_map.1 hy
      exact h Z hZ Z' hZ'

/-- **C110.** Multiplying `h` by a positive number does not change the accuracy. -/
theorem C110_scale (c : ℝ) (hc0 : 0 < c) :
    A.sigmaAccuracy ((c : ℂ) • h) o roots ps count (asLists draws) = A.sigmaAccuracy h o roots ps count (asLists draws) := by
  have hh' : ((c : ℂ) • h).PosDef := hh.smul (by exact_mod_cast hc0)
  obtain ⟨Zs, η, w, σ, h1, -, h3, h4, h5, -⟩ := C110_sigma hS hF hsm he hB hk h hh ho hr count hc draws hdr hd
  obtain ⟨Zs', η', w', σ', h1', -, h3', h4', h5', -⟩ :=
    C110_sigma hS hF hsm he hB hk ((c : ℂ) • h) hh' ho hr count hc draws hdr hd
  obtain rfl : Zs' = Zs := List.map_injective_iff.2 List.ofFn_injective (Except.ok.inj (h1'.symm.trans h1))
  have hw : ∀ Z ∈ Zs', w' Z = w Z := fun Z hZ =>
    Except.ok.inj ((h3' Z hZ).2.2.2.2.2.symm.trans (h3 Z hZ).2.2.2.2.2)
  have hη : ∀ Z ∈ Zs', η' Z = η Z := by
    intro Z hZ
    obtain ⟨hZ0, hz0, -, -, e2, -⟩ := h3 Z hZ
    have e1 := (h3' Z hZ).2.2.2.2.1
    rw [eta_smul hF h hh hB c hc0 Z hZ0 hz0] at e1
    exact_mod_cast Except.ok.inj (e1.symm.trans e2)
  have e1 : Zs'.map w' = Zs'.map w := List.map_congr_left hw
  have e2 : (Zs'.map fun Z => η' Z * w' Z) = Zs'.map fun Z => η Z * w Z :=
    List.map_congr_left fun Z hZ => by rw [hw Z hZ, hη Z hZ]
  rw [h4, h4', h5, h5', e1, e2]
  congr 3
  refine List.map_congr_left fun Z hZ => ?_
  rw [hw Z hZ, hη Z hZ]

end Sigma

/-- All hypotheses together: the Fermat cubic, the full basis of degree two, `h = 1` and one line. -/
example : ∃ (A : AlgebraicMetric 2) (F : MvPolynomial (Fin 3) ℂ) (x : (Fin 3 → ℂ) × (Fin 3 → ℂ)),
    Samplable A.variety 2 3 [] ∧ Hypersurface A.variety (.vec []) 2 3 F ∧ SmoothHypersurface F ∧
    SpansModulo F A.sections.degree A.sections.rows ∧ A.sections.degree ≠ 0 ∧ (1 : A.H).PosDef ∧ someOrder.Valid ∧
    ExactRoots someRoots ∧ Admissible F x := by
  refine ⟨⟨.fermat 3, monomialBasisFull 2 2⟩, ∑ j, MvPolynomial.X j ^ (2 + 1), (![1, 0, 0], ![0, 1, 1]), .fermat 2,
    (C114_fermat _).1, (C114_fermat (.vec [])).2, (C105_sections _ 2).1, two_ne_zero, Matrix.PosDef.one, someOrder_valid,
    someRoots_exact, ?_, ?_⟩
  · rw [LinearIndependent.pair_iff]
    intro s t h
    have h0 := congrFun h 0
    have h1 := congrFun h 1
    simp at h0 h1
    exact ⟨h0, h1⟩
  · simp [Fin.sum_univ_three]

end Cyjax
