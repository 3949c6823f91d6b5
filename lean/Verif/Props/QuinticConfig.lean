import Verif.Lemmas.FormExpr
import Verif.Props.RandomModuli
import Verif.Props.VarietyFromSympy

/-! # The configuration `scripts/conf/quintic.yaml` (C127) -/

namespace Cyjax

open Cyjax.Donaldson Cyjax.Spec Cyjax.Projective Cyjax.Variety Cyjax.Ml Cyjax.TrainScript MvPolynomial
open MeasureTheory ProbabilityTheory
open Cyjax.Polynomial

/-- The symbol `z0`, ..., `z4` of the configuration. -/
def zSym (i : Fin 5) : Sym := mergeSubscript "z".toList i

example : zSym 0 = "z0".toList ∧ zSym 4 = "z4".toList := by decide

/-- The polynomial of `scripts/conf/quintic.yaml:3-10`. -/
noncomputable def quinticExpr : MvPolynomial Sym ℂ :=
  ∑ i, X (zSym i) ^ 5 + X "alpha1".toList * ∏ i, X (zSym i) +
    ∑ i, X "alpha2".toList * X (zSym i) * ∑ j ∈ Finset.univ.erase i, X (zSym j) ^ 4

/-- The polynomial as written in the configuration. -/
theorem C127_expr : quinticExpr =
    X "z0".toList ^ 5 + X "z1".toList ^ 5 + X "z2".toList ^ 5 + X "z3".toList ^ 5 + X "z4".toList ^ 5
    + X "alpha1".toList * X "z0".toList * X "z1".toList * X "z2".toList * X "z3".toList * X "z4".toList
    + X "alpha2".toList * X "z0".toList * (X "z1".toList ^ 4 + X "z2".toList ^ 4 + X "z3".toList ^ 4 + X "z4".toList ^ 4)
    + X "alpha2".toList * X "z1".toList * (X "z0".toList ^ 4 + X "z2".toList ^ 4 + X "z3".toList ^ 4 + X "z4".toList ^ 4)
    + X "alpha2".toList * X "z2".toList * (X "z0".toList ^ 4 + X "z1".toList ^ 4 + X "z3".toList ^ 4 + X "z4".toList ^ 4)
    + X "alpha2".toList * X "z3".toList * (X "z0".toList ^ 4 + X "z1".toList ^ 4 + X "z2".toList ^ 4 + X "z4".toList ^ 4)
    + X "alpha2".toList * X "z4".toList * (X "z0".toList ^ 4 + X "z1".toList ^ 4 + X "z2".toList ^ 4 + X "z3".toList ^ 4) := by
  have h : ∀ (i : Fin 5) (f : Fin 5 → MvPolynomial Sym ℂ), ∑ j ∈ Finset.univ.erase i, f j = ∑ j, f j - f i := by
    intro i f
    rw [← Finset.add_sum_erase Finset.univ f (Finset.mem_univ i)]
    ring
  have e0 : zSym 0 = "z0".toList := by decide
  have e1 : zSym 1 = "z1".toList := by decide
  have e2 : zSym 2 = "z2".toList := by decide
  have e3 : zSym 3 = "z3".toList := by decide
  have e4 : zSym 4 = "z4".toList := by decide
  unfold quinticExpr
  simp only [h, Fin.sum_univ_five, Fin.prod_univ_five, e0, e1, e2, e3, e4]
  ring

/-- Its free symbols, in some order. -/
def quinticFree : List Sym := ["alpha1".toList, "alpha2".toList, zSym 0, zSym 1, zSym 2, zSym 3, zSym 4]

/-- The parameters given in the configuration. -/
def quinticParams : List Sym := ["alpha1".toList, "alpha2".toList]

/-- The same polynomial with coordinates and moduli apart. -/
noncomputable def quinticForm : MvPolynomial (Fin 5) (MvPolynomial (Fin 2) ℂ) :=
  ∑ i, X i ^ 5 + C (X 0) * ∏ i, X i + ∑ i, C (X 1) * X i * ∑ j ∈ Finset.univ.erase i, X j ^ 4

theorem quintic_hypersurfaceExpr {free : List Sym} (hfree : free.Perm quinticFree) :
    HypersurfaceExpr "z".toList 4 5 quinticExpr free (some quinticParams) := by
  have hz : GoodName "z".toList := by decide
  have hmem : ∀ s, s ∈ free ↔ s ∈ quinticFree := fun s => hfree.mem_iff
  have ha1 : Indexed "alpha1".toList "alpha".toList 1 := splitSubscript_merge "alpha".toList (by decide) 1
  have ha2 : Indexed "alpha2".toList "alpha".toList 2 := splitSubscript_merge "alpha".toList (by decide) 2
  have p1 : IsParam "z".toList "alpha1".toList := ⟨_, _, ha1, by decide, by simp⟩
  have p2 : IsParam "z".toList "alpha2".toList := ⟨_, _, ha2, by decide, by simp⟩
  have hzm : ∀ i, zSym i ∈ free := by
    intro i
    rw [hmem]
    fin_cases i <;> simp [quinticFree]
  have hz1 : ∀ i, FormExpr "z".toList free 1 (X (zSym i)) := fun i => .coord hz i (hzm i)
  have f1 : FormExpr "z".toList free 0 (X "alpha1".toList) := .param p1 ((hmem _).2 (by simp [quinticFree]))
  have f2 : FormExpr "z".toList free 0 (X "alpha2".toList) := .param p2 ((hmem _).2 (by simp [quinticFree]))
  have hform : FormExpr "z".toList free 5 quinticExpr := by
    unfold quinticExpr
    refine ((FormExpr.sum _ _ fun i _ => (hz1 i).pow 5).add ?_).add (FormExpr.sum _ _ fun i _ => ?_)
    · exact f1.mul (FormExpr.prod Finset.univ _ fun i _ => hz1 i)
    · exact (f2.mul (hz1 i)).mul (FormExpr.sum _ _ fun j _ => (hz1 j).pow 4)
  refine ⟨⟨hz, by decide⟩, hfree.nodup_iff.2 (by decide), hform.vars, hform.real, fun s hs => ?_, ?_, hform.degree⟩
  · rw [hmem] at hs
    simp only [quinticFree, List.mem_cons, List.not_mem_nil, or_false] at hs
    rcases hs with rfl | rfl | rfl | rfl | rfl | rfl | rfl
    · exact .inr ⟨p1, by rintro l ⟨⟩; simp [quinticParams]⟩
    · exact .inr ⟨p2, by rintro l ⟨⟩; simp [quinticParams]⟩
    · exact .inl ⟨0, by omega, splitSubscript_merge _ hz 0⟩
    · exact .inl ⟨1, by omega, splitSubscript_merge _ hz 1⟩
    · exact .inl ⟨2, by omega, splitSubscript_merge _ hz 2⟩
    · exact .inl ⟨3, by omega, splitSubscript_merge _ hz 3⟩
    · exact .inl ⟨4, by omega, splitSubscript_merge _ hz 4⟩
  · rintro l ⟨⟩
    refine ⟨by decide, fun s hs => ?_⟩
    simp only [quinticParams, List.mem_cons, List.not_mem_nil, or_false] at hs
    rcases hs with rfl | rfl
    · exact p1
    · exact p2

/-- **C127.** The configuration gives the family of quintics with two moduli. -/
theorem C127_family {free : List Sym} (hfree : free.Perm quinticFree) :
    ∃ V, varietyFromSympy quinticExpr free "z".toList 5 (some quinticParams) = .ok V ∧
      parCount V = 2 ∧ dimVariety V = .ok 3 ∧ Family V 2 4 5 quinticForm ∧
      ∀ ps : Fin 2 → ℂ, Samplable V 4 5 (List.ofFn ps) := by
  have hexpr := quintic_hypersurfaceExpr hfree
  have hz : GoodName "z".toList := by decide
  have hmem : ∀ s, s ∈ free ↔ s ∈ quinticFree := fun s => hfree.mem_iff
  obtain ⟨V, h1, h2, h3, h4⟩ := family_from_sympy (l := quinticParams) (k := 2) rfl hexpr (by norm_num) ⟨by decide, fun s hs => by
      simp only [quinticParams, List.mem_cons, List.not_mem_nil, or_false] at hs
      rcases hs with rfl | rfl
      · exact ⟨_, _, splitSubscript_merge "alpha".toList (by decide) 1, by decide⟩
      · exact ⟨_, _, splitSubscript_merge "alpha".toList (by decide) 2, by decide⟩⟩
    quinticForm (by
      intro Z ps σ hps hσ
      have hzi : ∀ i : Fin 5, σ (zSym i) = Z i := fun i =>
        hσ _ ((hmem _).2 (by fin_cases i <;> simp [quinticFree])) i (splitSubscript_merge _ hz i)
      have hps' : σ "alpha1".toList = ps 0 ∧ σ "alpha2".toList = ps 1 := by
        have : List.ofFn ps = [ps 0, ps 1] := by
          rw [List.ofFn_succ, List.ofFn_succ]
          rfl
        rw [this] at hps
        simp only [quinticParams, List.map_cons, List.map_nil, List.cons.injEq, and_true] at hps
        exact hps
      unfold quinticForm quinticExpr
      simp only [map_add, map_sum, map_pow, map_mul, map_prod, map_X, map_C, eval_X, eval_C, hzi, hps'.1, hps'.2])
  exact ⟨V, h1, by simp [parCount, h2, quinticParams], (C117_dim hexpr.nodup V h1).2.2, h3, h4⟩

/-- **C127.** At the origin of the moduli space the quintic is the Fermat quintic, which is smooth. -/
theorem C127_smooth_zero : SmoothHypersurface (map (eval 0) quinticForm) := by
  have := (smooth_dwork (m := 4) 0).2 (by norm_num)
  unfold quinticForm
  simpa using this

section

variable {o : SymOrder} (ho : o.Valid) {roots : List ℂ → List ℂ} (hr : ExactRoots roots) {Ω : Type*} [MeasurableSpace Ω]
  {P : Measure Ω}

include ho hr

/-- **C127, the configuration `scripts/conf/quintic.yaml`.** All monomials of degree 4 are sections. Almost surely the batch
sampler can be made, every call of `next` succeeds, and the loss is defined on every sample. -/
theorem C127_training {free : List Sym} (hfree : free.Perm quinticFree) (b : Fin 2 → ℝ) (hb : ∀ j, b j ≠ 0) (net : HNet)
    (hsize : net.basisSize = (monomialBasisFull 4 4).size) (hpow : net.powers = [1, 2, 3, 4, 5, 6])
    (hfeat : net.featureAngle = true) {Key : Type*} (split : Key → Key × Key) (splitN : Key → ℕ → List Key)
    (bsp bs B : ℕ) (hbsp : 0 < bsp) (hbs : bs ≠ 0) (hB : 0 < B) (s0 : Key)
    (hk : ∀ key, (splitN key bsp).length = bsp) (U : Key → Ω → Fin 2 → Fin bsp → Fin 2 → ℝ)
    (L : Key → Ω → Fin 2 → Fin (sampleCount bs 5) → Fin (2 * 5) → ℝ)
    (hUL : ∀ j, ∀ key ∈ splitN (split (seqKey split s0 j)).2 bsp, HasLaw (fun ω => (U (split (seqKey split s0 j)).1 ω, L key ω))
      ((cubeLaw bsp 2).prod (normalsLaw 5 (sampleCount bs 5))) P) :
    ∃ V, varietyFromSympy quinticExpr free "z".toList 5 (some quinticParams) = .ok V ∧
      ∀ᵐ ω ∂P, ∃ batches : ℕ → List (SampleRow 4),
      (∃ st, samplerInit split (sampleBatch 3 V o roots split splitN
            (fun key _ => List.ofFn fun i => List.ofFn (cubeParamSampler b (U key ω 0 i) (U key ω 1 i)))
            (fun key => asLists (lineDraws (L key ω))) bsp bs) B s0 = .ok st ∧
        ∀ N, (samplerRun split (sampleBatch 3 V o roots split splitN
            (fun key _ => List.ofFn fun i => List.ofFn (cubeParamSampler b (U key ω 0 i) (U key ω 1 i)))
            (fun key => asLists (lineDraws (L key ω))) bsp bs) B N st).1 = (List.range N).map fun j => .ok (batches j)) ∧
      ∀ j keep params,
        (∀ final, (∀ x ∈ (batches j).zipIdx, ∀ h, net.row (dropout false keep x.2) params final x.1.params = .ok h →
            ∀ i < net.basisSize, h.getD i 0 ≠ 0) →
          ∃ l, lossFunction ⟨V, monomialBasisFull 4 4⟩ net keep params final (batches j) = .ok l ∧ 0 ≤ l) ∧
        ∀ noise, ∃ L : SampleRow 4 → ℝ, (∀ row ∈ batches j,
            varianceEtaLossRow ⟨V, monomialBasisFull 4 4⟩ 1 row = .ok (L row)) ∧
          lossFunction ⟨V, monomialBasisFull 4 4⟩ net keep params
            (finalInit net.sigSuppress net.basisSize 0 noise) (batches j) = .ok (listMean ((batches j).map L)) := by
  obtain ⟨V, h1, -, -, h4, h5⟩ := C127_family hfree
  exact ⟨V, h1, C126_training (A := ⟨V, monomialBasisFull 4 4⟩) ho hr h4 h5 two_ne_zero (fun ps => (C105_sections _ 4).1)
    four_ne_zero le_rfl 0 C127_smooth_zero b hb net hsize ⟨1, by rw [hpow]; simp, one_ne_zero⟩ (.inl hfeat) split splitN bsp bs B
    hbsp hbs hB s0 hk U L hUL⟩

end

/-- The hypotheses of `C127_training`: an order of the symbols, bounds, a network, a probability space. -/
example : quinticFree.Perm quinticFree ∧ (∀ j : Fin 2, (![10, 10] : Fin 2 → ℝ) j ≠ 0) ∧
    ∃ (Ω : Type) (_ : MeasurableSpace Ω) (P : Measure Ω) (_ : IsProbabilityMeasure P) (split : ℕ → ℕ × ℕ)
    (splitN : ℕ → ℕ → List ℕ) (U : ℕ → Ω → Fin 2 → Fin 4 → Fin 2 → ℝ) (L : ℕ → Ω → Fin 2 → Fin (sampleCount 500 5) → Fin (2 * 5) → ℝ),
    (∀ key, (splitN key 4).length = 4) ∧
    ∀ j, ∀ key ∈ splitN (split (seqKey split 0 j)).2 4, HasLaw (fun ω => (U (split (seqKey split 0 j)).1 ω, L key ω))
      ((cubeLaw 4 2).prod (normalsLaw 5 (sampleCount 500 5))) P :=
  ⟨.rfl, fun j => by fin_cases j <;> norm_num, _, inferInstance, (cubeLaw 4 2).prod (normalsLaw 5 (sampleCount 500 5)),
    inferInstance, fun k => (k + 1, k + 2), fun k n => (List.range n).map (k + ·), fun _ ω => ω.1, fun _ ω => ω.2,
    fun _ => by simp, fun _ _ _ => HasLaw.id⟩

end Cyjax
