import Verif.Lemmas.ExampleCubic
import Verif.Props.Variety

/-! # Properties of varieties: gradient, conjugate coordinates, value of the weights (C90-C92) -/

namespace Cyjax

open Cyjax.Polynomial Cyjax.Projective Cyjax.Differential Cyjax.Variety MvPolynomial

/-! ## C90 -/

/-- C90: without patch, `defining` is the value of the polynomial and `grad_defining` has the partial
derivatives with respect to all homogeneous coordinates. -/
theorem C90_homogeneous {P : PolyObj} {name : List Char} {m : ℕ} (h : Proper P name m) (ρ : Sym → ℂ) :
    defining (.generic P) (List.ofFn fun i : Fin (m + 1) => ρ (mergeSubscript name i))
      (.vec (P.md.paramInput ρ)) none = .ok (eval ρ P.poly) ∧
    gradDefining (.generic P) (fun i : Fin (m + 1) => ρ (mergeSubscript name i)) (.vec (P.md.paramInput ρ)) none =
      .ok (fun i => eval ρ (pderiv (mergeSubscript name i) P.poly)) :=
  ⟨defining_none h ρ, grad_none h ρ⟩

/-- C90: in patch `p`, `defining` is the value of the polynomial at the homogeneous coordinates with a one inserted
at `p`, and `grad_defining` has the partial derivatives with respect to the remaining coordinates, in
order. -/
theorem C90_affine {P : PolyObj} {name : List Char} {m : ℕ} (h : Proper P name m) (p : Fin (m + 1))
    (hp : HasPatch P name p) (ρ : Sym → ℂ) (hρ : ρ (mergeSubscript name p) = 1) :
    defining (.generic P) (List.ofFn fun k : Fin m => ρ (mergeSubscript name (p.succAbove k)))
      (.vec (P.md.paramInput ρ)) (some (.index p)) = .ok (eval ρ P.poly) ∧
    gradDefining (.generic P) (fun k : Fin m => ρ (mergeSubscript name (p.succAbove k)))
      (.vec (P.md.paramInput ρ)) (some (.index p)) =
      .ok (fun k => eval ρ (pderiv (mergeSubscript name (p.succAbove k)) P.poly)) :=
  ⟨defining_patch h p hp ρ hρ, grad_patch h p hp ρ hρ⟩

/-- C90: the assignment `ρ` in the previous theorems covers every point and every parameter array of the right
length. -/
theorem C90_every_point {P : PolyObj} {name : List Char} {m : ℕ} (h : Proper P name m) (Z : Fin (m + 1) → ℂ)
    (ps : List ℂ) (hps : ps.length = P.md.params.length) :
    ∃ ρ : Sym → ℂ, (∀ i : Fin (m + 1), ρ (mergeSubscript name i) = Z i) ∧ P.md.paramInput ρ = ps :=
  exists_point h Z ps hps

/-- C90 for the Dwork family, in every patch and without patch. -/
theorem C90_dwork {m : ℕ} (f : DworkFactor) (psi : ℂ) (rest : List ℂ) :
    (∀ z : Fin m → ℂ, gradDefining (.dwork m f) z (.vec (psi :: rest)) none =
      .ok (fun i => m * z i ^ (m - 1) + f.value * psi * ∏ j ∈ Finset.univ.erase i, z j)) ∧
    (∀ (z : Fin m → ℂ) (p : Fin (m + 1)),
      gradDefining (.dwork (m + 1) f) z (.vec (psi :: rest)) (some (.index p)) =
      .ok (fun i => ((m + 1 : ℕ) : ℂ) * z i ^ m + f.value * psi * ∏ j ∈ Finset.univ.erase i, z j)) :=
  ⟨fun z => grad_dwork f z psi rest, fun z p => grad_dwork_patch f z psi rest p⟩

/-- C90 for the Fermat polynomial, in every patch and without patch. -/
theorem C90_fermat {m : ℕ} (v : Val) :
    (∀ z : Fin m → ℂ, gradDefining (.fermat m) z v none = .ok (fun i => m * z i ^ (m - 1))) ∧
    (∀ (z : Fin m → ℂ) (p : Fin (m + 1)),
      gradDefining (.fermat (m + 1)) z v (some (.index p)) = .ok (fun i => ((m + 1 : ℕ) : ℂ) * z i ^ m)) :=
  ⟨fun z => grad_fermat z v, fun z p => grad_fermat_patch z v p⟩

/-- The gradient of the cubic at `(1, -1, 0)`, `psi = 5`, in patch 0. -/
example : ∃ g : Fin 2 → ℂ, gradDefining (.generic cubic)
    (fun k : Fin 2 => cubicPoint (mergeSubscript "z".toList ((0 : Fin 3).succAbove k)))
    (.vec (cubic.md.paramInput cubicPoint)) (some (.index 0)) = .ok g ∧ g 0 = 3 :=
  ⟨_, (C90_affine cubic_proper 0 (cubic_patch 0) cubicPoint cubicPoint_values.1).2, cubicPoint_grad⟩

/-! ## C91 -/

/-- C91: at the conjugate coordinates and parameters, the gradient is the conjugate one. -/
theorem C91_gradient_conj {P : PolyObj} {name : List Char} {m : ℕ} (h : Proper P name m) (p : Fin (m + 1))
    (hp : HasPatch P name p) (zs : Fin m → ℂ) (ps : List ℂ) (hps : ps.length = P.md.params.length) :
    ∃ g, gradDefining (.generic P) zs (.vec ps) (some (.index p)) = .ok g ∧
      gradDefining (.generic P) (conjArr zs) (conjVal (.vec ps)) (some (.index p)) = .ok (fun i => star (g i)) := by
  obtain ⟨ρ, h1, h2⟩ := exists_point h (p.insertNth (α := fun _ => ℂ) 1 zs) ps hps
  have hz : zs = fun k : Fin m => ρ (mergeSubscript name (p.succAbove k)) := by
    funext k; rw [h1, Fin.insertNth_apply_succAbove]
  have hρ : ρ (mergeSubscript name p) = 1 := by rw [h1, Fin.insertNth_apply_same]
  have g1 := grad_patch h p hp ρ hρ
  rw [← hz, h2] at g1
  refine ⟨_, g1, ?_⟩
  have g2 := grad_patch h p hp (fun s => (starRingEnd ℂ) (ρ s)) (by rw [hρ, map_one])
  have e1 : P.md.paramInput (fun s => (starRingEnd ℂ) (ρ s)) = ps.map (starRingEnd ℂ) := by
    rw [← h2]; simp [Meta.paramInput]
  have e2 : conjArr zs = fun k : Fin m => (starRingEnd ℂ) (ρ (mergeSubscript name (p.succAbove k))) := by
    rw [hz]; rfl
  rw [conjVal, e2, ← e1, g2]
  congr 1
  funext k
  have hr : map (starRingEnd ℂ) (pderiv (mergeSubscript name (p.succAbove k)) P.poly) =
      pderiv (mergeSubscript name (p.succAbove k)) P.poly := by
    rw [← pderiv_map, (realCoeffs_iff _).1 h.real]
  have e3 := eval₂_comp_left (starRingEnd ℂ) (RingHom.id ℂ) ρ (pderiv (mergeSubscript name (p.succAbove k)) P.poly)
  have e4 : eval (fun s => (starRingEnd ℂ) (ρ s)) (pderiv (mergeSubscript name (p.succAbove k)) P.poly) =
      (starRingEnd ℂ) (eval ρ (pderiv (mergeSubscript name (p.succAbove k)) P.poly)) := by
    conv_lhs => rw [← hr]
    rw [eval_map]
    exact e3.symm
  exact e4

/-- C91 for the Dwork family with a real factor. -/
theorem C91_dwork_gradient_conj {m : ℕ} (f : DworkFactor) (hf : (starRingEnd ℂ) f.value = f.value) (psi : ℂ)
    (rest : List ℂ) (zs : Fin m → ℂ) (p : Fin (m + 1)) :
    ∃ g, gradDefining (.dwork (m + 1) f) zs (.vec (psi :: rest)) (some (.index p)) = .ok g ∧
      gradDefining (.dwork (m + 1) f) (conjArr zs) (conjVal (.vec (psi :: rest))) (some (.index p)) =
        .ok (fun i => star (g i)) := by
  refine ⟨_, grad_dwork_patch f zs psi rest p, ?_⟩
  rw [conjVal, List.map_cons, grad_dwork_patch]
  congr 1
  funext i
  change _ = (starRingEnd ℂ) _
  simp only [map_add, map_mul, map_pow, map_prod, hf, map_natCast, conjArr]

private theorem induced_of_conj {n : ℕ} (V : HomKind) (metric : Matrix (Fin (n + 1)) (Fin (n + 1)) ℂ)
    (zs : Fin (n + 1) → ℂ) (params : Val) (patch : Option PatchArg) (dep : Option (Fin (n + 1)))
    (h : ∃ g, gradDefining V zs params patch = .ok g ∧
      gradDefining V (conjArr zs) (conjVal params) patch = .ok (fun i => star (g i))) :
    inducedMetricAt V metric zs params patch (some (conjArr zs)) (dep.map fun d => ((d : ℕ) : ℤ)) =
      inducedMetricAt V metric zs params patch none (dep.map fun d => ((d : ℕ) : ℤ)) := by
  obtain ⟨g, h1, h2⟩ := h
  obtain ⟨d, hd, _⟩ := chooseDep_eq g dep
  unfold inducedMetricAt
  simp only [h1, h2, hd, C28_conjugate_gradient]

/-- C91: `induced_metric` and `induced_fs` with the conjugate coordinates given explicitly agree with the version
without, for every metric and every choice of the dependent coordinate. -/
theorem C91_induced {P : PolyObj} {name : List Char} {n : ℕ} (h : Proper P name (n + 1)) (p : Fin (n + 2))
    (hp : HasPatch P name p) (zs : Fin (n + 1) → ℂ) (ps : List ℂ) (hps : ps.length = P.md.params.length)
    (dep : Option (Fin (n + 1))) :
    (∀ metric, inducedMetricAt (.generic P) metric zs (.vec ps) (some (.index p)) (some (conjArr zs))
        (dep.map fun d => ((d : ℕ) : ℤ)) =
      inducedMetricAt (.generic P) metric zs (.vec ps) (some (.index p)) none (dep.map fun d => ((d : ℕ) : ℤ))) ∧
    inducedFs (.generic P) zs (.vec ps) (some (.index p)) (some (conjArr zs)) (dep.map fun d => ((d : ℕ) : ℤ)) =
      inducedFs (.generic P) zs (.vec ps) (some (.index p)) none (dep.map fun d => ((d : ℕ) : ℤ)) := by
  have hc := C91_gradient_conj h p hp zs ps hps
  exact ⟨fun metric => induced_of_conj _ metric zs _ _ dep hc, induced_of_conj _ (fsMetricAt zs) zs _ _ dep hc⟩

/-- C91 for the Dwork family with a real factor. -/
theorem C91_dwork_induced {n : ℕ} (f : DworkFactor) (hf : (starRingEnd ℂ) f.value = f.value) (psi : ℂ)
    (rest : List ℂ) (zs : Fin (n + 1) → ℂ) (p : Fin (n + 2)) (dep : Option (Fin (n + 1))) :
    inducedFs (.dwork (n + 2) f) zs (.vec (psi :: rest)) (some (.index p)) (some (conjArr zs))
        (dep.map fun d => ((d : ℕ) : ℤ)) =
      inducedFs (.dwork (n + 2) f) zs (.vec (psi :: rest)) (some (.index p)) none
        (dep.map fun d => ((d : ℕ) : ℤ)) :=
  induced_of_conj _ (fsMetricAt zs) zs _ _ dep (C91_dwork_gradient_conj f hf psi rest zs p)

example (zs : Fin 2 → ℂ) (psi : ℂ) (p : Fin 3) :
    inducedFs (.generic cubic) zs (.vec [psi]) (some (.index p)) (some (conjArr zs)) none =
      inducedFs (.generic cubic) zs (.vec [psi]) (some (.index p)) none none :=
  (C91_induced cubic_proper p (cubic_patch p) zs [psi] rfl none).2

example : (starRingEnd ℂ) (DworkFactor.value (.flag true)) = DworkFactor.value (.flag true) := by
  simp only [DworkFactor.value, if_true, map_neg]
  exact congrArg _ (map_ofNat (starRingEnd ℂ) 5)

/-! ## C92 -/

/-- The value of the weights at a point of the variety. -/
private theorem weight_value {P : PolyObj} {name : List Char} {n d : ℕ} (h : Proper P name (n + 1))
    (hh : HomogeneousIn P.poly name (n + 1) d) (p : Fin (n + 2)) (hp : HasPatch P name p) (ρ : Sym → ℂ)
    (hρ : ρ (mergeSubscript name p) = 1) (h0 : eval ρ P.poly = 0)
    (hg : ∃ i : Fin (n + 2), eval ρ (pderiv (mergeSubscript name i) P.poly) ≠ 0) (vol : Option ℝ) :
    weight (.generic P) (fun k : Fin (n + 1) => ρ (mergeSubscript name (p.succAbove k)))
      (.vec (P.md.paramInput ρ)) (some (.index p)) none vol =
      .ok ((if vol = none then 1 else Real.pi ^ n / n.factorial) *
        ((∑ i : Fin (n + 2), ‖ρ (mergeSubscript name i)‖ ^ 2) ^ (n + 1) /
          ∑ i : Fin (n + 2), ‖eval ρ (pderiv (mergeSubscript name i) P.poly)‖ ^ 2)) := by
  have g1 := grad_patch h p hp ρ hρ
  set g : Fin (n + 1) → ℂ := fun k => eval ρ (pderiv (mergeSubscript name (p.succAbove k)) P.poly) with hgd
  set z : Fin (n + 1) → ℂ := fun k => ρ (mergeSubscript name (p.succAbove k)) with hzd
  have heu : eval ρ (pderiv (mergeSubscript name p) P.poly) = -∑ k, z k * g k := by
    have := euler hh ρ
    rw [h0, mul_zero, ← Fin.sum_univ_eq_sum_range
      (fun i => ρ (mergeSubscript name i) * eval ρ (pderiv (mergeSubscript name i) P.poly)) (n + 1 + 1),
      Fin.sum_univ_succAbove _ p, hρ, one_mul] at this
    exact eq_neg_of_add_eq_zero_left this
  have hgrad : ∑ i : Fin (n + 2), ‖eval ρ (pderiv (mergeSubscript name i) P.poly)‖ ^ 2 =
      ∑ k, ‖g k‖ ^ 2 + ‖∑ k, z k * g k‖ ^ 2 := by
    rw [Fin.sum_univ_succAbove _ p, heu, norm_neg, add_comm]
  have hnorm : ∑ i : Fin (n + 2), ‖ρ (mergeSubscript name i)‖ ^ 2 = 1 + ∑ k, ‖z k‖ ^ 2 := by
    rw [Fin.sum_univ_succAbove _ p, hρ, norm_one, one_pow]
  obtain ⟨e, he, _, hmax⟩ := chooseDep_eq g none
  have he0 : g e ≠ 0 := by
    intro hz0
    have hall : ∀ k, g k = 0 := by
      intro k
      have := hmax rfl k
      rw [hz0, norm_zero] at this
      exact norm_le_zero_iff.1 this
    obtain ⟨i, hi⟩ := hg
    apply hi
    rcases eq_or_ne i p with rfl | hip
    · rw [heu]; simp [hall]
    · obtain ⟨k, rfl⟩ := Fin.exists_succAbove_eq hip
      exact hall k
  unfold weight
  simp only [g1, weightParts_eq g z none e he vol]
  have hd := fs_density z g e he0
  congr 1
  rw [hgrad, hnorm]
  cases vol with
  | none =>
    simp only [if_true]
    rw [hd, one_mul, one_div_div]
  | some v =>
    simp only [reduceCtorEq, if_false]
    rw [mul_right_comm, hd, one_div, mul_inv, inv_div, inv_div, mul_comm]

/-- C92: at a point of the variety where the gradient does not vanish, the weight in any patch is
`|Z|^(2 (n+1)) / Σ_i |∂P/∂Z_i|^2` in terms of the homogeneous coordinates with a one at the patch and
all homogeneous derivatives, times `π^n/n!` unless `vol` is `None`; `n` is the dimension of
the variety. -/
theorem C92_value {P : PolyObj} {name : List Char} {n d : ℕ} (h : Proper P name (n + 1))
    (hh : HomogeneousIn P.poly name (n + 1) d) (p : Fin (n + 2)) (hp : HasPatch P name p) (ρ : Sym → ℂ)
    (hρ : ρ (mergeSubscript name p) = 1) (h0 : eval ρ P.poly = 0)
    (hg : ∃ i : Fin (n + 2), eval ρ (pderiv (mergeSubscript name i) P.poly) ≠ 0) (vol : Option ℝ) :
    weight (.generic P) (fun k : Fin (n + 1) => ρ (mergeSubscript name (p.succAbove k)))
      (.vec (P.md.paramInput ρ)) (some (.index p)) none vol =
      .ok ((if vol = none then 1 else Real.pi ^ n / n.factorial) *
        ((∑ i : Fin (n + 2), ‖ρ (mergeSubscript name i)‖ ^ 2) ^ (n + 1) /
          ∑ i : Fin (n + 2), ‖eval ρ (pderiv (mergeSubscript name i) P.poly)‖ ^ 2)) :=
  weight_value h hh p hp ρ hρ h0 hg vol

private theorem sum_norm_pos {m : ℕ} (f : Fin m → ℂ) (i : Fin m) (hi : f i ≠ 0) : 0 < ∑ k, ‖f k‖ ^ 2 :=
  Finset.sum_pos' (fun k _ => by positivity) ⟨i, Finset.mem_univ i, by have := norm_pos_iff.2 hi; positivity⟩

/-- C92: behaviour under a change of patch, for a defining polynomial of degree `d + 1`: with `c` the homogeneous
coordinate `q` of the point, `weight_q |c|^(2 (n+2)) = weight_p |c|^(2 (d+1))`. -/
theorem C92_chart {P : PolyObj} {name : List Char} {n d : ℕ} (h : Proper P name (n + 1))
    (hh : HomogeneousIn P.poly name (n + 1) (d + 1)) (p q : Fin (n + 2)) (hpq : p ≠ q) (hp : HasPatch P name p)
    (hq : HasPatch P name q) (zs : Fin (n + 1) → ℂ) (ps : List ℂ) (hps : ps.length = P.md.params.length)
    (hc : affineToHom zs (p : ℕ) q ≠ 0) (h0 : defining (.generic P) (List.ofFn zs) (.vec ps) (some (.index p)) = .ok 0)
    (hg : gradDefining (.generic P) zs (.vec ps) (some (.index p)) ≠ .ok 0) (vol : Option ℝ) :
    ∃ w w', weight (.generic P) zs (.vec ps) (some (.index p)) none vol = .ok w ∧
      weight (.generic P) (changeChart zs (p : ℕ) (q : ℕ)) (.vec ps) (some (.index q)) none vol = .ok w' ∧
      w' * ‖affineToHom zs (p : ℕ) q‖ ^ (2 * (n + 2)) = w * ‖affineToHom zs (p : ℕ) q‖ ^ (2 * (d + 1)) := by
  obtain ⟨ρ, h1, h2⟩ := exists_point h (affineToHom zs (p : ℕ)) ps hps
  have hz : zs = fun k : Fin (n + 1) => ρ (mergeSubscript name (p.succAbove k)) := by
    funext k; rw [h1, affineToHom_succAbove]
  have hρ : ρ (mergeSubscript name p) = 1 := by rw [h1, affineToHom_same]
  set c := affineToHom zs (p : ℕ) q with hcd
  have hzero : eval ρ P.poly = 0 := by
    have := defining_patch h p hp ρ hρ
    rw [← hz, h2, h0] at this
    simpa using this.symm
  have hgr : ∃ i : Fin (n + 2), eval ρ (pderiv (mergeSubscript name i) P.poly) ≠ 0 := by
    by_contra hno
    push Not at hno
    apply hg
    have := grad_patch h p hp ρ hρ
    rw [← hz, h2] at this
    rw [this]
    congr 1
    funext k
    exact hno _
  have w1 := weight_value h hh p hp ρ hρ hzero hgr vol
  rw [← hz, h2] at w1
  set ρ' := scaleAt name (n + 1) c⁻¹ ρ with hρ'd
  have hcoord : ∀ i : Fin (n + 2), ρ' (mergeSubscript name i) = c⁻¹ * ρ (mergeSubscript name i) := fun i =>
    scaleAt_coord name i.isLt c⁻¹ ρ
  have hρ' : ρ' (mergeSubscript name q) = 1 := by rw [hcoord, h1, ← hcd, inv_mul_cancel₀ hc]
  have hderiv : ∀ i : Fin (n + 2), eval ρ' (pderiv (mergeSubscript name i) P.poly) =
      c⁻¹ ^ d * eval ρ (pderiv (mergeSubscript name i) P.poly) := fun i =>
    eval_scale h.goodName (pderiv_homogeneous h.goodName hh i i.isLt) c⁻¹ ρ
  have hci : c⁻¹ ≠ 0 := inv_ne_zero hc
  have w2 := weight_value h hh q hq ρ' hρ' (by
    rw [hρ'd, eval_scale h.goodName hh, hzero, mul_zero]) (by
    obtain ⟨i, hi⟩ := hgr
    exact ⟨i, by rw [hderiv]; exact mul_ne_zero (pow_ne_zero _ hci) hi⟩) vol
  rw [hρ'd, scaleAt_params h, h2, ← hρ'd] at w2
  have hz' : changeChart zs (p : ℕ) (q : ℕ) = fun k : Fin (n + 1) => ρ' (mergeSubscript name (q.succAbove k)) := by
    rw [changeChart_eq zs p q hpq]
    funext k
    rw [hcoord, h1, homToAffine_apply, ← hcd, div_eq_inv_mul]
  rw [← hz'] at w2
  refine ⟨_, _, w1, w2, ?_⟩
  simp only [hcoord, hderiv, norm_mul, mul_pow, ← Finset.mul_sum]
  have hcn : ‖c‖ ≠ 0 := norm_ne_zero_iff.2 hc
  have hS : ∑ i : Fin (n + 2), ‖eval ρ (pderiv (mergeSubscript name i) P.poly)‖ ^ 2 ≠ 0 := by
    obtain ⟨i, hi⟩ := hgr
    exact (sum_norm_pos (fun i : Fin (n + 2) => eval ρ (pderiv (mergeSubscript name i) P.poly)) i hi).ne'
  rw [norm_pow, norm_inv]
  generalize (∑ i : Fin (n + 2), ‖eval ρ (pderiv (mergeSubscript name i) P.poly)‖ ^ 2) = S at *
  generalize (∑ i : Fin (n + 2), ‖ρ (mergeSubscript name i)‖ ^ 2) = N at *
  simp only [inv_pow, ← pow_mul]
  field_simp
  ring

/-- C92: for a Calabi-Yau variety (degree equal to the number of homogeneous coordinates) the weights do not
depend on the patch. -/
theorem C92_patch_independent {P : PolyObj} {name : List Char} {n : ℕ} (h : Proper P name (n + 1))
    (hh : HomogeneousIn P.poly name (n + 1) (n + 2)) (p q : Fin (n + 2)) (hpq : p ≠ q) (hp : HasPatch P name p)
    (hq : HasPatch P name q) (zs : Fin (n + 1) → ℂ) (ps : List ℂ) (hps : ps.length = P.md.params.length)
    (hc : affineToHom zs (p : ℕ) q ≠ 0) (h0 : defining (.generic P) (List.ofFn zs) (.vec ps) (some (.index p)) = .ok 0)
    (hg : gradDefining (.generic P) zs (.vec ps) (some (.index p)) ≠ .ok 0) (vol : Option ℝ) :
    weight (.generic P) (changeChart zs (p : ℕ) (q : ℕ)) (.vec ps) (some (.index q)) none vol =
      weight (.generic P) zs (.vec ps) (some (.index p)) none vol := by
  obtain ⟨w, w', h1, h2, h3⟩ := C92_chart h hh p q hpq hp hq zs ps hps hc h0 hg vol
  rw [h1, h2, mul_right_cancel₀ (pow_ne_zero _ (norm_ne_zero_iff.2 hc)) h3]

/-- The cubic at `(1, -1, 0)`: patches 0 and 1. -/
example (vol : Option ℝ) :
    weight (.generic cubic) (changeChart ![-1, 0] 0 1) (.vec [5]) (some (.index 1)) none vol =
      weight (.generic cubic) ![-1, 0] (.vec [5]) (some (.index 0)) none vol := by
  obtain ⟨a, b, c, d⟩ := cubicPoint_values
  have hz : (fun k : Fin 2 => cubicPoint (mergeSubscript "z".toList ((0 : Fin 3).succAbove k))) = ![-1, 0] := by
    funext k
    fin_cases k
    · exact b
    · exact c
  have hps : cubic.md.paramInput cubicPoint = [5] := by
    change [cubicPoint "psi".toList] = [5]
    rw [d]
  refine C92_patch_independent cubic_proper cubic_homogeneous 0 1 (by decide) (cubic_patch 0) (cubic_patch 1) ![-1, 0]
    [5] rfl ?_ ?_ ?_ vol
  · have := affineToHom_succAbove (K := ℂ) ![-1, 0] (0 : Fin 3) 0
    rw [show (1 : Fin 3) = (0 : Fin 3).succAbove 0 from rfl, this]
    simp
  · have := (C90_affine cubic_proper 0 (cubic_patch 0) cubicPoint a).1
    rw [hz, hps, cubicPoint_zero] at this
    exact this
  · have := (C90_affine cubic_proper 0 (cubic_patch 0) cubicPoint a).2
    rw [hz, hps] at this
    intro h
    rw [show gradDefining (.generic cubic) ![-1, 0] (.vec [5]) (some (.index ((0 : Fin 3) : ℕ))) = _ from this] at h
    have h2 := congrFun (Except.ok.inj h) 0
    rw [show ((0 : Fin 3).succAbove 0 : ℕ) = 1 from rfl, show mergeSubscript "z".toList 1 = zSym 1 from rfl,
      cubicPoint_grad] at h2
    norm_num at h2

end Cyjax
