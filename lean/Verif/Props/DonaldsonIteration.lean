import Verif.Props.Volume
import Verif.Spec.DonaldsonStep

/-! # `donaldson_step` from the sampled lines to the new matrix (C112)

That almost all draws meet the hypotheses is shown in `Verif.Props.AlmostSure` (C116). -/

namespace Cyjax

open Cyjax.Donaldson Cyjax.Spec Cyjax.Projective Cyjax.Variety Cyjax.Differential MvPolynomial
open Cyjax.Polynomial (PyErr Val)
open scoped ComplexConjugate ComplexOrder

variable {n : ℕ} {A : AlgebraicMetric (n + 1)} {ps : List ℂ} {e : ℕ} {F : MvPolynomial (Fin (n + 2)) ℂ}

/-- The sections as polynomials in homogeneous coordinates. -/
noncomputable abbrev sec (A : AlgebraicMetric (n + 1)) (a : Fin A.sections.size) : MvPolynomial (Fin (n + 2)) ℂ :=
  mono (A.sections.rows.get a)

private theorem deltaT_list {N : ℕ} (h : Matrix (Fin N) (Fin N) ℂ) {α : Type*} (L : List α) (f : α → Fin N → ℂ) (g : α → ℝ)
    (bs : ℕ) (hL : L.length = bs) :
    deltaT h (size := L.length) (fun i => f (L.get i)) (fun i => g (L.get i)) =
      deltaT h (size := bs) (fun k => f (L.get (k.cast hL.symm))) fun k => g (L.get (k.cast hL.symm)) := by
  subst hL
  rfl

private theorem ofFn_cast {α : Type*} (L : List α) (bs : ℕ) (hL : L.length = bs) :
    List.ofFn (fun k : Fin bs => L.get (k.cast hL.symm)) = L := by
  subst hL
  exact List.ofFn_get L

theorem call_point (hdeg : ∀ r ∈ A.sections.rows, ∑ i, r i = A.sections.degree) (Z : Fin (n + 2) → ℂ) (hZ : Z ≠ 0)
    (a : Fin A.sections.size) :
    A.sections.call (homToAffineAuto Z).1 ((homToAffineAuto Z).2 : ℕ) true a =
      (Z (homToAffineAuto Z).2)⁻¹ ^ A.sections.degree * eval Z (sec A a) := by
  obtain ⟨-, -, h3⟩ := C17_patch Z
  have hp0 : Z (homToAffineAuto Z).2 ≠ 0 := (C17_bounded Z hZ 0).1
  have hle : ∀ a i, A.sections.powers a i ≤ A.sections.degree := by
    intro a i
    rw [← hdeg _ (List.get_mem _ a)]
    exact Finset.single_le_sum (f := fun i => A.sections.powers a i) (fun _ _ => Nat.zero_le _) (Finset.mem_univ i)
  refine (C60_affine _ _ A.sections.powers A.sections.degree hle a).trans ?_
  rw [h3, C16_roundtrip Z _ hp0]
  simp only [sec, mono, map_prod, map_pow, eval_X]
  rw [← hdeg _ (List.get_mem _ a), ← Finset.prod_pow_eq_pow_sum, ← Finset.prod_mul_distrib]
  refine Finset.prod_congr rfl fun i _ => ?_
  rw [div_eq_inv_mul, mul_pow]
  rfl

/-- What a batch adds, for a list of points. -/
private theorem batchDelta_eq (h : A.H) (o : SymOrder) (roots : List ℂ → List ℂ) (bs : ℕ) (x : List (List ℂ × List ℂ))
    (Zs : List (Fin (n + 2) → ℂ)) (w : (Fin (n + 2) → ℂ) → ℝ) (hl : Zs.length = bs)
    (hs : sampleIntersectOpt n A.variety o roots ps bs x true true =
      .ok (.affineWeights (Zs.map homToAffineAuto) (Zs.map w))) :
    A.batchDelta h o roots ps bs x = .ok (deltaT h
      (fun k : Fin bs => A.sections.call (homToAffineAuto (Zs.get (k.cast hl.symm))).1
        ((homToAffineAuto (Zs.get (k.cast hl.symm))).2 : ℕ)) fun k => w (Zs.get (k.cast hl.symm))) := by
  unfold AlgebraicMetric.batchDelta
  rw [hs]
  simp only [bind, Except.bind, pure, Except.pure]
  congr 1
  have hl2 : (Zs.map homToAffineAuto).length = Zs.length := List.length_map _
  rw [← deltaT_list h Zs (fun Z => A.sections.call (homToAffineAuto Z).1 ((homToAffineAuto Z).2 : ℕ)) w bs hl]
  ext a b
  simp only [deltaT, meanC, Matrix.of_apply]
  refine congrArg₂ (· / ·) ?_ (congrArg Nat.cast hl2)
  refine Fintype.sum_equiv (finCongr hl2) _ _ fun i => ?_
  have h1 : (Zs.map homToAffineAuto).get i = homToAffineAuto (Zs.get (i.cast hl2)) := by simp
  have h2 : (Zs.map w).getD i 0 = w (Zs.get (i.cast hl2)) := by
    have : (i : ℕ) < Zs.length := hl2 ▸ i.2
    simp [List.getD_eq_getElem?_getD, this]
  rw [h1, h2]
  rfl

section Step

variable (hS : Samplable A.variety (n + 1) e ps) (hF : Hypersurface A.variety (.vec ps) (n + 1) e F)
  (hsm : SmoothHypersurface F) {o : SymOrder} (ho : o.Valid) {roots : List ℂ → List ℂ} (hr : ExactRoots roots) (bs : ℕ)

include hS hF hsm ho hr

private theorem step_core (draws : List (List ((Fin (n + 2) → ℂ) × (Fin (n + 2) → ℂ))))
    (hd : ∀ x ∈ draws, bs ≤ x.length * e ∧ ∀ y ∈ x, Admissible F y) :
    ∃ Zs : List ((Fin (n + 2) → ℂ) × (Fin (n + 2) → ℂ)) → List (Fin (n + 2) → ℂ),
      (∀ x ∈ draws, sampleIntersectOpt n A.variety o roots ps bs (asLists x) false true =
        .ok (.homWeights ((Zs x).map List.ofFn) ((Zs x).map (pointWeight e F))) ∧
        ∀ Z ∈ Zs x, Z ≠ 0 ∧ eval Z F = 0 ∧ 0 < pointWeight e F Z) ∧
      ∃ P : Fin draws.length → Fin bs → Fin (n + 2) → ℂ, (∀ i, List.ofFn (P i) = Zs (draws.get i)) ∧
      ∀ (dtype : DType) (h : A.H) (vol : ℝ),
        A.donaldsonStep dtype h o roots ps vol bs (draws.map asLists) =
        donaldsonStep dtype h vol (fun i k => A.sections.call (homToAffineAuto (P i k)).1 ((homToAffineAuto (P i k)).2 : ℕ))
          fun i k => pointWeight e F (P i k) := by
  have key : ∀ x ∈ draws, _ := fun x hx => C111_sample hS hF hsm ho hr bs x (hd x hx).2
  choose! Zs h1 h2 _ h3 _ h4 using key
  have hl : ∀ x ∈ draws, (Zs x).length = bs := fun x hx => by rw [h1 x hx, min_eq_left (hd x hx).1]
  refine ⟨Zs, fun x hx => ⟨h3 x hx, h2 x hx⟩,
    fun i k => (Zs (draws.get i)).get (k.cast (hl _ (List.get_mem _ i)).symm), ?_, ?_⟩
  · exact fun i => ofFn_cast _ _ (hl _ (List.get_mem draws i))
  intro dtype h vol
  unfold AlgebraicMetric.donaldsonStep donaldsonStep
  simp only
  set hs := symmetrise h with hhs
  set D : Fin draws.length → A.H := fun i => deltaT hs
    (fun k : Fin bs => A.sections.call (homToAffineAuto ((Zs (draws.get i)).get (k.cast (hl _ (List.get_mem _ i)).symm))).1
        ((homToAffineAuto ((Zs (draws.get i)).get (k.cast (hl _ (List.get_mem _ i)).symm))).2 : ℕ))
    fun k => pointWeight e F ((Zs (draws.get i)).get (k.cast (hl _ (List.get_mem _ i)).symm)) with hD
  have hm : (draws.map asLists).mapM (A.batchDelta hs o roots ps bs) = .ok (List.ofFn D) := by
    have e1 : draws.map asLists = (List.finRange draws.length).map fun i => asLists (draws.get i) := by
      conv_lhs => rw [← List.ofFn_get draws, List.map_ofFn, List.ofFn_eq_map]
      rfl
    rw [e1, List.mapM_map, List.ofFn_eq_map]
    refine mapM_ok fun i _ => ?_
    exact batchDelta_eq hs o roots bs _ (Zs (draws.get i)) (pointWeight e F) (hl _ (List.get_mem _ i))
      (h4 _ (List.get_mem _ i))
  rw [hm]
  cases dtype with
  | real => rfl
  | complex =>
    simp only [bind, Except.bind, pure, Except.pure, foriLoopCheck, stepType, DType.promote, if_true, List.length_map]
    congr 4
    rw [List.ofFn_eq_map, List.foldl_map]

omit hS hF hsm ho hr in
private theorem sum_flat {β : Type*} [AddCommMonoid β] (draws : List (List ((Fin (n + 2) → ℂ) × (Fin (n + 2) → ℂ))))
    (Zs : List ((Fin (n + 2) → ℂ) × (Fin (n + 2) → ℂ)) → List (Fin (n + 2) → ℂ))
    (P : Fin draws.length → Fin bs → Fin (n + 2) → ℂ) (hP : ∀ i, List.ofFn (P i) = Zs (draws.get i))
    (f : (Fin (n + 2) → ℂ) → β) : ∑ i, ∑ k, f (P i k) = ((draws.flatMap Zs).map f).sum := by
  have h1 : ∀ i, ∑ k, f (P i k) = ((Zs (draws.get i)).map f).sum := by
    intro i
    rw [← hP, List.map_ofFn, List.sum_ofFn]
    rfl
  simp only [h1]
  have h2 : ∑ i, ((Zs (draws.get i)).map f).sum = (draws.map fun x => ((Zs x).map f).sum).sum := by
    conv_rhs => rw [← List.ofFn_get draws, List.map_ofFn, List.sum_ofFn]
    rfl
  rw [h2]
  clear h1 h2 hP P
  induction draws with
  | nil => rfl
  | cons x l ih => simp [List.flatMap_cons, ih]

variable (hdeg : ∀ r ∈ A.sections.rows, ∑ i, r i = A.sections.degree)
  (draws : List (List ((Fin (n + 2) → ℂ) × (Fin (n + 2) → ℂ))))
  (hd : ∀ x ∈ draws, bs ≤ x.length * e ∧ ∀ y ∈ x, Admissible F y)

include hdeg hd

/-- **C112.** `donaldson_step` on admissible lines: the points `Zs x` are those that `sample_intersect` returns for the
batch `x`. A real-valued matrix is rejected. For a complex-valued Hermitian `h` the result is the transposed inverse of
Donaldson's T operator over all points of all batches. If `h` is positive definite, the volume positive, the sections have
no common zero on the variety and are independent on the sampled points, the result is positive definite. -/
theorem C112_step :
    ∃ Zs : List ((Fin (n + 2) → ℂ) × (Fin (n + 2) → ℂ)) → List (Fin (n + 2) → ℂ),
      (∀ x ∈ draws, sampleIntersectOpt n A.variety o roots ps bs (asLists x) false true =
        .ok (.homWeights ((Zs x).map List.ofFn) ((Zs x).map (pointWeight e F))) ∧ (Zs x).length = bs ∧
        ∀ Z ∈ Zs x, Z ≠ 0 ∧ eval Z F = 0 ∧ 0 < pointWeight e F Z) ∧
      ∀ (h : A.H) (vol : ℝ),
        A.donaldsonStep .real h o roots ps vol bs (draws.map asLists) = .error .typeError ∧
        (h.IsHermitian → A.donaldsonStep .complex h o roots ps vol bs (draws.map asLists) =
          .ok (tOperator (sec A) h vol (pointWeight e F) (draws.flatMap Zs))⁻¹.transpose) ∧
        (h.PosDef → 0 < vol → (∀ Z, Z ≠ 0 → eval Z F = 0 → ∃ a, eval Z (sec A a) ≠ 0) →
          IndependentOn (sec A) (draws.flatMap Zs) →
          ∃ h', A.donaldsonStep .complex h o roots ps vol bs (draws.map asLists) = .ok h' ∧ h'.PosDef) := by
  obtain ⟨Zs, h1, P, hP, h2⟩ := step_core hS hF hsm ho hr bs draws hd
  have hl : ∀ x ∈ draws, (Zs x).length = bs := by
    intro x hx
    obtain ⟨i, rfl⟩ := List.get_of_mem hx
    rw [← hP i, List.length_ofFn]
  have hmem : ∀ i k, P i k ∈ Zs (draws.get i) := fun i k => by
    rw [← hP]
    exact List.mem_ofFn.2 ⟨k, rfl⟩
  have hPz : ∀ i k, P i k ≠ 0 ∧ eval (P i k) F = 0 ∧ 0 < pointWeight e F (P i k) := fun i k =>
    (h1 _ (List.get_mem draws i)).2 _ (hmem i k)
  have hlen : (draws.flatMap Zs).length = draws.length * bs := by
    rw [List.length_flatMap, List.map_congr_left hl]
    simp
  refine ⟨Zs, fun x hx => ⟨(h1 x hx).1, hl x hx, (h1 x hx).2⟩, fun h vol => ⟨?_, ?_, ?_⟩⟩
  · rw [h2]
    rfl
  · intro hh
    rw [h2]
    have e1 : stepT h vol (fun i k => A.sections.call (homToAffineAuto (P i k)).1 ((homToAffineAuto (P i k)).2 : ℕ))
        (fun i k => pointWeight e F (P i k)) = tOperator (sec A) h vol (pointWeight e F) (draws.flatMap Zs) := by
      ext a b
      rw [C75_average h hh]
      unfold tOperator
      rw [Matrix.of_apply, hlen]
      congr 2
      rw [← sum_flat bs draws Zs P hP]
      refine Finset.sum_congr rfl fun i _ => Finset.sum_congr rfl fun k _ => ?_
      have hZ := (hPz i k).1
      have hp0 : P i k (homToAffineAuto (P i k)).2 ≠ 0 := (C17_bounded _ hZ 0).1
      set q := (P i k (homToAffineAuto (P i k)).2)⁻¹ ^ A.sections.degree with hq
      have hq0 : q ≠ 0 := pow_ne_zero _ (inv_ne_zero hp0)
      have hqc : conj q ≠ 0 := by simpa using hq0
      have e2 : ∀ a, A.sections.call (homToAffineAuto (P i k)).1 ((homToAffineAuto (P i k)).2 : ℕ) true a =
          q * eval (P i k) (sec A a) := fun a => call_point hdeg _ hZ a
      have e3 : psi (.full h) (A.sections.call (homToAffineAuto (P i k)).1 ((homToAffineAuto (P i k)).2 : ℕ))
          (conjS (A.sections.call (homToAffineAuto (P i k)).1 ((homToAffineAuto (P i k)).2 : ℕ))) =
          (q * conj q) * ∑ c, ∑ d, eval (P i k) (sec A c) * h c d * conj (eval (P i k) (sec A d)) := by
        rw [Finset.mul_sum]
        refine Finset.sum_congr rfl fun c _ => ?_
        rw [Finset.mul_sum]
        refine Finset.sum_congr rfl fun d _ => ?_
        simp only [conjS, e2, map_mul]
        ring
      rw [e3, e2, e2, map_mul, show q * eval (P i k) (sec A a) * (conj q * conj (eval (P i k) (sec A b))) *
        (pointWeight e F (P i k) : ℂ) = (q * conj q) * (eval (P i k) (sec A a) * conj (eval (P i k) (sec A b)) *
          (pointWeight e F (P i k) : ℂ)) by ring]
      exact mul_div_mul_left _ _ (mul_ne_zero hq0 hqc)
    rw [← e1]
    rfl
  · intro hh hvol hz hind
    rw [h2]
    refine ⟨_, rfl, ?_⟩
    refine (C74_invertible h (hh.add (by rwa [hh.isHermitian.eq])) vol hvol _ (fun i k h0 => ?_) _
      (fun i k => (hPz i k).2.2.le) fun c hc => ?_).inv.transpose
    · obtain ⟨a, ha⟩ := hz _ (hPz i k).1 (hPz i k).2.1
      have := congrFun h0 a
      rw [call_point hdeg _ (hPz i k).1] at this
      exact mul_ne_zero (pow_ne_zero _ (inv_ne_zero (C17_bounded _ (hPz i k).1 0).1)) ha this
    · refine hind c fun Z hZ => ?_
      obtain ⟨x, hx, hZx⟩ := List.mem_flatMap.1 hZ
      obtain ⟨i, rfl⟩ := List.get_of_mem hx
      rw [← hP i] at hZx
      obtain ⟨k, rfl⟩ := List.mem_ofFn.1 hZx
      have := hc i k (hPz i k).2.2
      simp only [call_point hdeg _ (hPz i k).1] at this
      have h3 : (P i k (homToAffineAuto (P i k)).2)⁻¹ ^ A.sections.degree * ∑ a, c a * eval (P i k) (sec A a) = 0 := by
        rw [Finset.mul_sum, ← this]
        exact Finset.sum_congr rfl fun a _ => by ring
      exact (mul_eq_zero.1 h3).resolve_left (pow_ne_zero _ (inv_ne_zero (C17_bounded _ (hPz i k).1 0).1))

end Step

/-- Sections that span have no common zero. -/
theorem spans_ne (hB : SpansModulo F A.sections.degree A.sections.rows) (Z : Fin (n + 2) → ℂ) (hZ : Z ≠ 0)
    (h0 : eval Z F = 0) : ∃ a, eval Z (sec A a) ≠ 0 := by
  obtain ⟨p, hp⟩ : ∃ p, Z p ≠ 0 := Function.ne_iff.1 hZ
  have hX : (X p ^ A.sections.degree : MvPolynomial (Fin (n + 2)) ℂ).IsHomogeneous A.sections.degree := by
    have := (isHomogeneous_X ℂ p).pow A.sections.degree
    rwa [one_mul] at this
  obtain ⟨c, q, hq⟩ := hB.2 _ hX
  by_contra hcon
  push Not at hcon
  have h1 := congrArg (eval Z) hq
  rw [map_mul, h0, zero_mul, map_sub, map_pow, eval_X, map_sum, Finset.sum_eq_zero, sub_zero] at h1
  · exact pow_ne_zero _ hp h1
  · intro a _
    rw [map_mul]
    exact mul_eq_zero_of_right _ (hcon a)

/-- **C112.** Repeated steps, each with its own lines, keep `H` positive definite, as long as the sections are independent
on the points of each step. -/
theorem C112_iterate (hS : Samplable A.variety (n + 1) e ps) (hF : Hypersurface A.variety (.vec ps) (n + 1) e F)
    (hsm : SmoothHypersurface F) {o : SymOrder} (ho : o.Valid) {roots : List ℂ → List ℂ} (hr : ExactRoots roots) (bs : ℕ)
    (hB : SpansModulo F A.sections.degree A.sections.rows) (vol : ℝ) (hvol : 0 < vol)
    (steps : List (List (List ((Fin (n + 2) → ℂ) × (Fin (n + 2) → ℂ)))))
    (hd : ∀ draws ∈ steps, ∀ x ∈ draws, bs ≤ x.length * e ∧ ∀ y ∈ x, Admissible F y)
    (hind : ∀ draws ∈ steps, ∀ Zs : List ((Fin (n + 2) → ℂ) × (Fin (n + 2) → ℂ)) → List (Fin (n + 2) → ℂ),
      (∀ x ∈ draws, sampleIntersect A.variety o roots ps bs (asLists x) = .ok ((Zs x).map List.ofFn)) →
      IndependentOn (sec A) (draws.flatMap Zs)) (h : A.H) (hh : h.PosDef) :
    ∃ h', steps.foldlM (fun h draws => A.donaldsonStep .complex h o roots ps vol bs (draws.map asLists)) h = .ok h' ∧
      h'.PosDef := by
  induction steps generalizing h with
  | nil => exact ⟨h, rfl, hh⟩
  | cons draws steps ih =>
    obtain ⟨Zs, h1, h2⟩ := C112_step hS hF hsm ho hr bs hB.1 draws (hd draws (by simp))
    obtain ⟨h', h3, h4⟩ := (h2 h vol).2.2 hh hvol (fun Z hZ h0 => spans_ne hB Z hZ h0) (hind draws (by simp) Zs (by
      intro x hx
      have h5 := (h1 x hx).1
      unfold sampleIntersectOpt at h5
      cases h6 : sampleIntersect A.variety o roots ps bs (asLists x) with
      | error err => rw [h6] at h5; cases h5
      | ok zs =>
        rw [h6] at h5
        simp only [bind, Except.bind] at h5
        split at h5
        · cases h5
        · injection h5 with h5
          injection h5 with h5 _
          rw [h5]))
    rw [List.foldlM_cons, h3]
    exact ih (fun d hd' => hd d (by simp [hd'])) (fun d hd' => hind d (by simp [hd'])) h' h4

end Cyjax
