import Verif.Props.TrainingLoss
import Verif.Props.LossGrad
import Mathlib.Analysis.Calculus.FDeriv.Star
import Mathlib.Analysis.Complex.Basic

/-! # Differentiability of the loss in the parameters of the network -/

namespace Cyjax

open Cyjax.Donaldson Cyjax.Spec Cyjax.Projective Cyjax.Variety Cyjax.Differential Cyjax.Ml MvPolynomial
open Cyjax.Polynomial (PyErr Val)
open scoped ComplexOrder Matrix ComplexConjugate

variable {E : Type*} [NormedAddCommGroup E] [NormedSpace ℝ E] {θ : E}

/-! ## Complex valued functions -/

private theorem diff_conj {f : E → ℂ} (hf : DifferentiableAt ℝ f θ) : DifferentiableAt ℝ (fun t => conj (f t)) θ :=
  (Complex.conjCLE.differentiableAt (x := f θ)).comp θ hf

private theorem diff_div {f g : E → ℂ} (hf : DifferentiableAt ℝ f θ) (hg : DifferentiableAt ℝ g θ) (h0 : g θ ≠ 0) :
    DifferentiableAt ℝ (fun t => f t / g t) θ := by
  simp only [div_eq_mul_inv]
  refine hf.mul ?_
  have h1 : DifferentiableAt ℝ (fun z : ℂ => z⁻¹) (g θ) := (differentiableAt_inv (𝕜 := ℂ) h0).restrictScalars ℝ
  exact h1.comp θ hg

private theorem diff_prod {ι : Type*} (s : Finset ι) {f : E → ι → ℂ} (hf : ∀ i, DifferentiableAt ℝ (fun t => f t i) θ) :
    DifferentiableAt ℝ (fun t => ∏ i ∈ s, f t i) θ := by
  classical
  induction s using Finset.induction_on with
  | empty => simp
  | insert a s ha ih =>
    simp only [Finset.prod_insert ha]
    exact (hf a).mul ih

private theorem diff_det {m : ℕ} {M : E → Matrix (Fin m) (Fin m) ℂ} (hM : ∀ i j, DifferentiableAt ℝ (fun t => M t i j) θ) :
    DifferentiableAt ℝ (fun t => (M t).det) θ := by
  simp only [Matrix.det_apply]
  refine DifferentiableAt.fun_sum fun σ _ => ?_
  have := (diff_prod Finset.univ (f := fun t i => M t (σ i) i) fun i => hM _ _)
  simp only [Units.smul_def, zsmul_eq_mul]
  exact this.const_mul _

/-- `eta` is a differentiable function of the entries of the matrix where `psi` does not vanish. -/
theorem eta_differentiable {N n k : ℕ} {h : E → Matrix (Fin N) (Fin N) ℂ}
    (hd : ∀ a b, DifferentiableAt ℝ (fun t => h t a b) θ) (S : Jet N (n + 1)) (B : Graph.Emb n)
    (hpsi : Graph.psi (.full (h θ)) S ≠ 0) :
    DifferentiableAt ℝ (fun t => Graph.eta (.full (h t)) k S B) θ := by
  have bil : ∀ x y : Fin N → ℂ, DifferentiableAt ℝ (fun t => ∑ i, ∑ j, x i * h t i j * y j) θ := fun x y =>
    DifferentiableAt.fun_sum fun i _ => DifferentiableAt.fun_sum fun j _ => ((hd i j).const_mul _).mul_const _
  have h0 : DifferentiableAt ℝ (fun t => Graph.psi (.full (h t)) S) θ := bil _ _
  have h1 : ∀ a, DifferentiableAt ℝ (fun t => Graph.psiH (.full (h t)) S a) θ := fun a => bil (fun i => S.s1 i a) _
  have h2 : ∀ a b, DifferentiableAt ℝ (fun t => Graph.psiHA (.full (h t)) S a b) θ := fun a b =>
    bil (fun i => S.s1 i a) (fun j => conjS1 S.s1 j b)
  have h3 : ∀ i j, DifferentiableAt ℝ (fun t => Graph.gProj (.full (h t)) S k i j) θ := by
    intro i j
    unfold Graph.gProj Donaldson.gProj
    simp only [Matrix.of_apply, div_eq_mul_inv _ ((k : ℂ) * (Real.pi : ℂ))]
    refine DifferentiableAt.mul_const (DifferentiableAt.sub (diff_div (h2 i j) h0 hpsi) ?_) _
    refine diff_div ((h1 i).mul ?_) (h0.pow 2) (pow_ne_zero 2 hpsi)
    exact diff_conj (h1 j)
  unfold Graph.eta Donaldson.eta
  refine DifferentiableAt.mul_const (diff_det fun r s => ?_) _
  unfold Graph.gLoc Donaldson.gLoc
  simp only [Matrix.of_apply]
  exact DifferentiableAt.fun_sum fun i _ => DifferentiableAt.fun_sum fun j _ => ((h3 i j).const_mul _).mul_const _

/-! ## The loss on one row -/

/-- The values of `eta` at the points of a row. -/
noncomputable def rowEtas {n : ℕ} (A : AlgebraicMetric (n + 1)) (F : MvPolynomial (Fin (n + 2)) ℂ) (row : SampleRow (n + 1))
    (h : A.H) : Fin row.pts.length → ℝ := fun i =>
  let z := (row.pts.get i).1
  let p := (row.pts.get i).2
  let G := fun k => eval z (pderiv k (dehom p F))
  (Graph.eta (.full h) A.degree (sectionsJet A.sections p z) ⟨G, chooseDep G none, fun _ _ _ => 0⟩).re


private theorem getD_map_ofFn {N : ℕ} (f : Fin N → ℂ) (i : Fin N) : (List.ofFn f).getD i 0 = f i := by
  rw [List.getD_eq_getElem?_getD, List.getElem?_ofFn, dif_pos i.2]
  rfl

section Row

variable {n e count : ℕ} {A : AlgebraicMetric (n + 1)} {F : MvPolynomial (Fin (n + 2)) ℂ} {row : SampleRow (n + 1)}

theorem rowEtas_eq (hF : Hypersurface A.variety (.vec row.params) (n + 1) e F) (h : A.H) (i : Fin row.pts.length) :
    ∃ y, A.eta h (List.ofFn (row.pts.get i).1) (.vec row.params) (some ((row.pts.get i).2 : ℕ)) none none = .ok y ∧
      rowEtas A F row h i = y.re :=
  ⟨_, eta_val hF h _ _ none, rfl⟩

private theorem etas_mapM (hF : Hypersurface A.variety (.vec row.params) (n + 1) e F) (h : A.H) :
    ∃ ys : Fin row.pts.length → ℂ,
      row.pts.mapM (fun x => A.eta h (List.ofFn x.1) (.vec row.params) (some (x.2 : ℕ)) none none) = .ok (List.ofFn ys) ∧
      ∀ i, rowEtas A F row h i = (ys i).re := by
  choose ys h1 h2 using rowEtas_eq hF h
  refine ⟨ys, ?_, h2⟩
  conv_lhs => rw [← List.ofFn_get row.pts]
  exact mapM_ofFn h1

/-- The weights of a row as a function. -/
def rowWeights (row : SampleRow (n + 1)) : Fin row.pts.length → ℝ := fun i => row.weights.getD i 0

private theorem stopped_cast {N M : ℕ} (h : N = M) (a b w : Fin N → ℝ) (a' b' w' : Fin M → ℝ)
    (ha : ∀ i, a i = a' (i.cast h)) (hb : ∀ i, b i = b' (i.cast h)) (hw : ∀ i, w i = w' (i.cast h)) :
    lossStopped a b w = lossStopped a' b' w' := by
  subst h
  congr 1 <;> funext i
  exacts [ha i, hb i, hw i]

theorem lossRowStopped_eq (hrow : GoodRow A.variety count row)
    (hF : Hypersurface A.variety (.vec row.params) (n + 1) e F) (h h0 : A.H) :
    lossRowStopped A h h0 row = .ok (lossStopped (rowEtas A F row h) (rowEtas A F row h0) (rowWeights row)) := by
  obtain ⟨ys, y1, y2⟩ := etas_mapM hF h
  obtain ⟨zs, z1, z2⟩ := etas_mapM hF h0
  obtain ⟨hl, -⟩ := mapM_inv hrow.weights
  unfold lossRowStopped
  rw [y1, z1]
  simp only [bind, Except.bind]
  rw [if_pos (by rw [hl, List.length_ofFn])]
  refine congrArg Except.ok (stopped_cast (List.length_ofFn) _ _ _ _ _ _ (fun i => ?_) (fun i => ?_) fun i => rfl)
  · rw [y2]; simp; rfl
  · rw [z2, ← getD_map_ofFn zs]; rfl

theorem lossRow_eq (hrow : GoodRow A.variety count row)
    (hF : Hypersurface A.variety (.vec row.params) (n + 1) e F) (h : A.H) :
    varianceEtaLossRow A h row = .ok (varianceEtaLoss (rowEtas A F row h) (rowWeights row)) := by
  obtain ⟨ys, y1, y2⟩ := etas_mapM hF h
  obtain ⟨hl, -⟩ := mapM_inv hrow.weights
  unfold varianceEtaLossRow
  rw [y1]
  simp only [bind, Except.bind]
  rw [if_pos (by rw [hl, List.length_ofFn])]
  refine congrArg Except.ok ?_
  exact stopped_cast (List.length_ofFn) (fun i => ((List.ofFn ys).get i).re) (fun i => ((List.ofFn ys).get i).re) _ _ _ _
    (fun i => by rw [y2]; simp; rfl) (fun i => by rw [y2]; simp; rfl) fun i => rfl

variable (hrow : GoodRow A.variety count row) (hc : count ≠ 0)
  (hF : Hypersurface A.variety (.vec row.params) (n + 1) e F) (hsm : SmoothHypersurface F)
  (hB : SpansModulo F A.sections.degree A.sections.rows) (hk : A.sections.degree ≠ 0)

include hrow hc in
theorem rowWeights_pos : (∀ i, 0 < rowWeights row i) ∧ 0 < ∑ i, rowWeights row i ∧ row.weights = List.ofFn (rowWeights row) := by
  obtain ⟨hl, -⟩ := mapM_inv hrow.weights
  have h1 : ∀ i, 0 < rowWeights row i := by
    intro i
    have hi : (i : ℕ) < row.weights.length := by rw [hl]; exact i.2
    unfold rowWeights
    rw [List.getD_eq_getElem?_getD, List.getElem?_eq_getElem hi]
    exact hrow.positive _ (List.getElem_mem hi)
  have : Nonempty (Fin row.pts.length) := ⟨⟨0, Nat.pos_of_ne_zero (by rw [hrow.count_eq]; exact hc)⟩⟩
  refine ⟨h1, Finset.sum_pos (fun i _ => h1 i) Finset.univ_nonempty, ?_⟩
  apply List.ext_getElem
  · simp [hl]
  · intro i h2 h3
    simp [rowWeights, h2]

include hrow hF hsm hB hk in
theorem rowEtas_pos (h : A.H) (hh : h.PosDef) (i : Fin row.pts.length) : 0 < rowEtas A F row h i := by
  obtain ⟨y, y1, y2⟩ := rowEtas_eq hF h i
  obtain ⟨η, w, L, p1, p2, -⟩ := C121_loss (count := count) hrow
    (by rw [← hrow.count_eq]; exact fun h0 => absurd i.2 (by omega)) hF hsm hB hk h hh
  rw [p2 i] at y1
  rw [y2, ← Except.ok.inj y1, Complex.ofReal_re]
  exact (p1 i).1

include hrow hF hB in
theorem rowEtas_differentiable {h : E → A.H} (hd : ∀ a b, DifferentiableAt ℝ (fun t => h t a b) θ) (hh : (h θ).PosDef) :
    DifferentiableAt ℝ (fun t => rowEtas A F row (h t)) θ := by
  refine differentiableAt_pi.mpr fun i => ?_
  have hz0 : eval (affineToHom (row.pts.get i).1 ((row.pts.get i).2 : ℕ)) F = 0 :=
    Except.ok.inj ((hF.defining _ _).symm.trans (hrow.on_variety _ (List.get_mem _ _)))
  exact (Complex.reCLM.differentiableAt).comp θ (eta_differentiable hd _ _ (psi_pos (h θ) hh hB _ _ hz0).ne')

end Row

/-! ## The network -/

/-- A list of fixed length whose entries are differentiable at `θ`. -/
private structure DiffList (θ : E) (x : E → List ℝ) (len : ℕ) : Prop where
  length : ∀ t, (x t).length = len
  diff : ∀ i, DifferentiableAt ℝ (fun t => (x t).getD i 0) θ

private theorem getD_map_range (f : ℕ → ℝ) (N i : ℕ) : ((List.range N).map f).getD i 0 = if i < N then f i else 0 := by
  rw [List.getD_eq_getElem?_getD, List.getElem?_map]
  by_cases h : i < N
  · rw [List.getElem?_range h, if_pos h]; rfl
  · rw [List.getElem?_eq_none (by simpa using h), if_neg h]; rfl

private theorem diffList_const (x : List ℝ) : DiffList θ (fun _ : E => x) x.length :=
  ⟨fun _ => rfl, fun _ => differentiableAt_const _⟩

private theorem diffList_dense {x : E → List ℝ} {len : ℕ} (hx : DiffList θ x len) (m : ℕ) {p : E → DenseParams}
    (hk : ∀ i j, DifferentiableAt ℝ (fun t => (p t).kernel i j) θ) (hb : ∀ j, DifferentiableAt ℝ (fun t => (p t).bias j) θ) :
    DiffList θ (fun t => dense m (p t) (x t)) m := by
  refine ⟨fun t => by simp [dense], fun j => ?_⟩
  unfold dense
  simp only [getD_map_range, hx.length]
  by_cases hj : j < m
  · simp only [if_pos hj]
    refine DifferentiableAt.add ?_ (hb j)
    simp only [← List.sum_toFinset _ (List.nodup_range (n := len))]
    exact DifferentiableAt.fun_sum fun i _ => (hx.diff i).mul (hk i j)
  · simp only [if_neg hj]
    exact differentiableAt_const _

private theorem diffList_map {x : E → List ℝ} {len : ℕ} (hx : DiffList θ x len) {a : ℝ → ℝ} (ha : Differentiable ℝ a) :
    DiffList θ (fun t => (x t).map a) len := by
  refine ⟨fun t => by simp [hx.length], fun i => ?_⟩
  have : (fun t => ((x t).map a).getD i 0) = fun t => if i < len then a ((x t).getD i 0) else 0 := by
    funext t
    by_cases h : i < len
    · have h' : i < (x t).length := by rw [hx.length]; exact h
      simp [h, h', List.getD_eq_getElem?_getD]
    · have h' : (x t).length ≤ i := by rw [hx.length]; omega
      simp [h, h', List.getD_eq_getElem?_getD]
  rw [this]
  by_cases h : i < len
  · simp only [if_pos h]
    exact (ha _).comp θ (hx.diff i)
  · simp only [if_neg h]
    exact differentiableAt_const _

/-- Dropout with a given key multiplies every entry by a number (zero or one over the rate of the entries that are kept). -/
def IsMask (drop : ℕ → ℚ → List ℝ → List ℝ) : Prop :=
  ∀ k r, ∃ c : ℕ → ℝ, ∀ x, drop k r x = x.mapIdx fun i v => c i * v

theorem isMask_dropout (deterministic : Bool) (keep : ℕ → ℕ → ℕ → Bool) (row : ℕ) : IsMask (dropout deterministic keep row) := by
  intro k r
  unfold dropout
  split_ifs with h1 h2
  · exact ⟨fun _ => 1, fun x => by apply List.ext_getElem <;> simp⟩
  · exact ⟨fun _ => 0, fun x => by apply List.ext_getElem <;> simp⟩
  · refine ⟨fun j => if keep row k j then 1 / (1 - r) else 0, fun x => List.ext_getElem (by simp) fun j h h' => ?_⟩
    simp only [List.getElem_mapIdx]
    split_ifs
    · ring
    · ring

private theorem diffList_mask {x : E → List ℝ} {len : ℕ} (hx : DiffList θ x len) (c : ℕ → ℝ) :
    DiffList θ (fun t => (x t).mapIdx fun i v => c i * v) len := by
  refine ⟨fun t => by simp [hx.length], fun i => ?_⟩
  have : (fun t => ((x t).mapIdx fun i v => c i * v).getD i 0) = fun t => c i * (x t).getD i 0 := by
    funext t
    rw [List.getD_eq_getElem?_getD, List.getD_eq_getElem?_getD, List.getElem?_mapIdx]
    cases (x t)[i]? <;> simp
  rw [this]
  exact (hx.diff i).const_mul _

private theorem diffList_hidden {drop : ℕ → ℚ → List ℝ → List ℝ} (hdrop : IsMask drop) {a : ℝ → ℝ} (ha : Differentiable ℝ a)
    {params : E → ℕ → DenseParams} (hk : ∀ l i j, DifferentiableAt ℝ (fun t => (params t l).kernel i j) θ)
    (hb : ∀ l j, DifferentiableAt ℝ (fun t => (params t l).bias j) θ) (sizes : List ℕ)
    (rates : Option (List (Option ℚ))) (x : List ℝ) :
    ∃ len, DiffList θ (fun t => hidden a drop (params t) sizes rates x) len := by
  have key : ∀ (ls : List ((ℕ × Option ℚ) × ℕ)) (x : E → List ℝ) (len : ℕ), DiffList θ x len →
      ∃ len', DiffList θ (fun t => ls.foldl (fun x l =>
        let x := (dense l.1.1 (params t l.2) x).map a
        match l.1.2 with
        | none => x
        | some rate => drop l.2 rate x) (x t)) len' := by
    intro ls
    induction ls with
    | nil => intro x len hx; exact ⟨len, hx⟩
    | cons l ls ih =>
      intro x len hx
      have h1 := diffList_map (diffList_dense hx l.1.1 (hk l.2) (hb l.2)) ha
      rcases hl : l.1.2 with _ | rate
      · obtain ⟨len', h⟩ := ih _ _ h1
        refine ⟨len', ?_⟩
        simpa only [List.foldl_cons, hl] using h
      · obtain ⟨c, hc⟩ := hdrop l.2 rate
        obtain ⟨len', h⟩ := ih _ _ (diffList_mask h1 c)
        refine ⟨len', ?_⟩
        simpa only [List.foldl_cons, hl, hc] using h
  exact key _ _ _ (diffList_const x)

private theorem getD_zipWith_sig (u v : List ℝ) (i : ℕ) (h : u.length = v.length) :
    (List.zipWith (fun a b => Real.sigmoid a * b) u v).getD i 0 = Real.sigmoid (u.getD i 0) * v.getD i 0 := by
  rw [List.getD_eq_getElem?_getD, List.getD_eq_getElem?_getD, List.getD_eq_getElem?_getD, List.getElem?_zipWith]
  by_cases hi : i < u.length
  · have hj : i < v.length := by omega
    simp [hi, hj]
  · have hj : ¬ i < v.length := by omega
    simp [hi, hj]

private theorem diffList_output {x : E → List ℝ} {len : ℕ} (hx : DiffList θ x len) (sig : Bool) (m : ℕ) {final : E → DenseParams}
    (hk : ∀ i j, DifferentiableAt ℝ (fun t => (final t).kernel i j) θ)
    (hb : ∀ j, DifferentiableAt ℝ (fun t => (final t).bias j) θ) :
    DiffList θ (fun t => output sig m (final t) (x t)) (m ^ 2) := by
  cases sig
  · exact diffList_dense hx (m ^ 2) hk hb
  · have h1 := diffList_dense hx (m ^ 2 * 2) hk hb
    refine ⟨fun t => ?_, fun i => ?_⟩
    · simp [output, dense]
      omega
    · have h2 : (fun t => (output true m (final t) (x t)).getD i 0) = fun t =>
          Real.sigmoid (if i < m ^ 2 then (dense (m ^ 2 * 2) (final t) (x t)).getD i 0 else 0) *
            (dense (m ^ 2 * 2) (final t) (x t)).getD (m ^ 2 + i) 0 := by
        funext t
        unfold output
        simp only [if_true]
        rw [getD_zipWith_sig _ _ _ (by simp [h1.length]; omega)]
        congr 1
        · congr 1
          rw [List.getD_eq_getElem?_getD, List.getElem?_take, List.getD_eq_getElem?_getD]
          split_ifs <;> rfl
        · rw [List.getD_eq_getElem?_getD, List.getElem?_drop, ← List.getD_eq_getElem?_getD]
      rw [h2]
      refine DifferentiableAt.mul ?_ (h1.diff _)
      by_cases hi : i < m ^ 2
      · simp only [if_pos hi]
        exact (h1.diff i).sigmoid
      · simp only [if_neg hi]
        exact differentiableAt_const _

/-! ## The decoded matrix -/

private theorem diff_ofReal {f : E → ℝ} (hf : DifferentiableAt ℝ f θ) : DifferentiableAt ℝ (fun t => ((f t : ℝ) : ℂ)) θ :=
  (Complex.ofRealCLM.differentiableAt (x := f θ)).comp θ hf

private theorem diff_decode {m : ℕ} {p : E → List ℝ} (hp : DiffList θ p (m ^ 2)) :
    ∃ H : E → Matrix (Fin m) (Fin m) ℂ, (∀ t, choleskyFromParam (p t) = .ok ⟨m, H t⟩) ∧
      (∀ i j, DifferentiableAt ℝ (fun t => H t i j) θ) ∧
      ∀ t, (∀ i < m, (p t).getD i 0 ≠ 0) → (H t).PosDef := by
  choose M h1 h2 h3 h4 h5 using fun t => C78_blocks (p t) (hp.length t)
  have hM : ∀ i j, DifferentiableAt ℝ (fun t => M t i j) θ := by
    intro i j
    rcases lt_trichotomy i j with hij | rfl | hij
    · obtain ⟨k, hk, hkij⟩ := List.getElem_of_mem ((mem_triu i j).2 hij)
      have hk' : k < (m ^ 2 - m) / 2 := by
        have := h3 θ
        rw [rowsAbove_eq, List.length_map] at this
        omega
      have : (fun t => M t i j) = fun t => (((p t).getD (m + k) 0 : ℝ) : ℂ) +
          Complex.I * (((p t).getD (m + (m ^ 2 - m) / 2 + k) 0 : ℝ) : ℂ) := by
        funext t
        have := h4 t k hk'
        rw [rowsAbove_eq, List.getElem?_map, List.getElem?_eq_getElem hk, hkij] at this
        exact Option.some.inj this
      rw [this]
      exact (diff_ofReal (hp.diff _)).add ((diff_ofReal (hp.diff _)).const_mul _)
    · simp only [h2]
      exact diff_ofReal (hp.diff _)
    · simp only [h1 _ i j hij]
      exact differentiableAt_const _
  refine ⟨fun t => M t * (M t)ᴴ, h5, fun i j => ?_, fun t ht => ?_⟩
  · simp only [Matrix.mul_apply, Matrix.conjTranspose_apply]
    exact DifferentiableAt.fun_sum fun k _ => (hM i k).mul (diff_conj (hM j k))
  · rw [posDef_mul_iff, det_upper (d := fun i => (p t).getD i 0) ⟨h1 t, h2 t⟩, Finset.prod_ne_zero_iff]
    intro i _
    exact Complex.ofReal_ne_zero.2 (ht i i.2)

section Network

variable {n : ℕ} {A : AlgebraicMetric (n + 1)} {net : HNet} {drop : ℕ → ℚ → List ℝ → List ℝ} {params : E → ℕ → DenseParams}
  {final : E → DenseParams} (hsize : net.basisSize = A.sections.size) (hpow : ∃ q ∈ net.powers, q ≠ 0)
  (hfeat : net.featureAngle ∨ net.featureAbs ∨ net.featureParts) (hact : Differentiable ℝ net.activation) (hdrop : IsMask drop)
  (hk : ∀ l i j, DifferentiableAt ℝ (fun t => (params t l).kernel i j) θ)
  (hb : ∀ l j, DifferentiableAt ℝ (fun t => (params t l).bias j) θ)
  (hfk : ∀ i j, DifferentiableAt ℝ (fun t => (final t).kernel i j) θ)
  (hfb : ∀ j, DifferentiableAt ℝ (fun t => (final t).bias j) θ)

include hsize hpow hfeat hact hdrop hk hb hfk hfb

/-- The matrix that the network gives for a set of moduli depends differentiably on its parameters. -/
theorem network_matrix (psi : List ℂ) (hpsi : psi ≠ [])
    (hdiag : ∀ h, net.row drop (params θ) (final θ) psi = .ok h → ∀ i < net.basisSize, h.getD i 0 ≠ 0) :
    ∃ (p : E → List ℝ) (H : E → A.H), (∀ t, net.row drop (params t) (final t) psi = .ok (p t) ∧
        ∃ M, choleskyFromParam (p t) = .ok M ∧ asH A M = .ok (H t)) ∧
      (∀ i j, DifferentiableAt ℝ (fun t => H t i j) θ) ∧ ∀ᶠ t in nhds θ, (H t).PosDef := by
  obtain ⟨N, -, -, hx⟩ := C83_features net.powers net.featureAngle net.featureAbs net.featureParts psi.get hpow
    (List.length_pos_iff.2 hpsi) hfeat
  rw [List.ofFn_get] at hx
  obtain ⟨x, hx'⟩ : ∃ x, features net.powers net.featureAngle net.featureAbs net.featureParts psi = .ok x := ⟨_, hx⟩
  obtain ⟨len, h1⟩ := diffList_hidden hdrop hact hk hb net.layerSizes net.dropoutRates x
  have h2 := diffList_output h1 net.sigSuppress net.basisSize hfk hfb
  obtain ⟨H, d1, d2, d3⟩ := diff_decode h2
  have hrow : ∀ t, net.row drop (params t) (final t) psi = .ok (output net.sigSuppress net.basisSize (final t)
      (hidden net.activation drop (params t) net.layerSizes net.dropoutRates x)) := by
    intro t
    unfold HNet.row
    rw [hx']
  choose H' a1 a2 a3 using fun t => asH_ok (A := A) hsize (H t)
  refine ⟨_, H', fun t => ⟨hrow t, _, d1 t, a1 t⟩, fun i j => ?_, ?_⟩
  · simp only [a3]
    exact d2 _ _
  · have hne : ∀ i : Fin net.basisSize, ∀ᶠ t in nhds θ, (output net.sigSuppress net.basisSize (final t)
        (hidden net.activation drop (params t) net.layerSizes net.dropoutRates x)).getD i 0 ≠ 0 := fun i =>
      (h2.diff i).continuousAt.eventually_ne (hdiag _ (hrow θ) i i.2)
    filter_upwards [Filter.eventually_all.mpr hne] with t ht
    exact a2 t (d3 t fun i hi => ht ⟨i, hi⟩)

end Network

end Cyjax
