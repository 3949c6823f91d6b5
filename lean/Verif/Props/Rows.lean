import Verif.Props.BalancedLimit
import Verif.Props.ExpBounds

/-! # C142: convergence for calls that only share the law of their batches -/

namespace Cyjax

open MeasureTheory ProbabilityTheory MvPolynomial Cyjax.Spec Cyjax.Polynomial Cyjax.Variety Cyjax.Donaldson Set Filter
  Topology
open scoped ENNReal NNReal ComplexOrder ComplexConjugate

variable {n : ℕ} {F : MvPolynomial (Fin (n + 2)) ℂ} {A : AlgebraicMetric (n + 1)} {ps : List ℂ} {o : SymOrder}
  (ho : o.Valid) {roots : List ℂ → List ℂ} (hr : CompleteRoots roots) (hsm : SmoothHypersurface F) (hn : n ≠ 0)
  (p : Fin (n + 2)) (d : Fin (n + 1)) (hS : Samplable A.variety (n + 1) (n + 2) ps)
  (hF : Hypersurface A.variety (.vec ps) (n + 1) (n + 2) F)

include hsm hn hS hF in
/-- The averages over the batches of a call. -/
private theorem rows_average {Ω : Type*} [MeasurableSpace Ω] {P : Measure Ω} (bs : ℕ) (hbs : bs ≠ 0) (hdvd : (n + 2) ∣ bs)
    (X : (b : ℕ) → Fin b → Ω → Fin 2 → Fin (sampleCount bs (n + 2)) → Fin (2 * (n + 2)) → ℝ)
    (hX : ∀ b i, HasLaw (X b i) (normalsLaw (n + 2) (sampleCount bs (n + 2))) P) (hind : ∀ b, iIndepFun (X b) P)
    {g : (Fin (n + 2) → ℂ) → ℝ} (hg : Measurable g) (hinv : ∀ c : ℂ, c ≠ 0 → ∀ Z, g (c • Z) = g Z)
    (hK : ∃ K, ∀ Z, Z ≠ 0 → eval Z F = 0 → |g Z| ≤ K) (hint : Integrable g (fsMeasure p d F)) :
    ∀ᵐ ω ∂P, Tendsto (fun b : ℕ => (∑ i, ∑ j, realSum F g (rawLines (X b i ω) j)) / (b * bs : ℕ)) atTop
      (𝓝 ((∫ Z, g Z ∂fsMeasure p d F) / (n + 2))) := by
  have hom := hF.homogeneous
  have he0 : n + 2 ≠ 0 := by omega
  have hirr := smooth_irreducible (by omega) hom he0 hsm
  have hd := smooth_pderiv_ne_zero hom (by omega) hsm (p.succAbove d)
  have hcount := sampleCount_dvd he0 hdvd
  obtain ⟨K, hK⟩ := hK
  have hbd := realSum_bound hS hF hsm hirr he0 hK
  have hK0 : 0 ≤ (n + 2 : ℕ) * K := by
    obtain ⟨x, hx⟩ := hbd.exists
    exact (abs_nonneg _).trans hx
  have hL : sampleCount bs (n + 2) ≠ 0 := fun h0 => by
    rw [h0, zero_mul] at hcount
    exact hbs hcount.symm
  obtain ⟨-, hμ⟩ := realSum_integral p d hirr hom he0 hd hg hinv hint
  filter_upwards [rows_law (measurable_realSum (F := F) hg) (A := ⟨(n + 2 : ℕ) * K, hK0⟩) hbd hL hX hind] with ω hω
  rw [hμ] at hω
  refine (hω.div_const ((n : ℝ) + 2)).congr fun b => ?_
  rw [div_div]
  congr 1
  have hbsR : (bs : ℝ) = sampleCount bs (n + 2) * (n + 2) := by exact_mod_cast hcount.symm
  push_cast
  rw [hbsR]
  ring

section Volume

include ho hr hsm hn hS hF

/-- **C142.** Calls of `compute_vol` with more and more batches, each with its own key: if the batches of each call are
independent, the results converge almost surely to `∫ |Ω|² / (n + 2)`, however the calls depend on each other. -/
theorem C142_volume {Ω : Type*} [MeasurableSpace Ω] {P : Measure Ω} {Key : Type*} (split : Key → Key × Key) (key : ℕ → Key)
    (bs : ℕ) (hbs : bs ≠ 0) (hdvd : (n + 2) ∣ bs)
    (X : Key → Ω → Fin 2 → Fin (sampleCount bs (n + 2)) → Fin (2 * (n + 2)) → ℝ)
    (hX : ∀ b, ∀ i < b, HasLaw (X (batchKey split (key b) i)) (normalsLaw (n + 2) (sampleCount bs (n + 2))) P)
    (hind : ∀ b, iIndepFun (fun i : Fin b => X (batchKey split (key b) i)) P) :
    ∀ᵐ ω ∂P, Tendsto (fun b => volMean (computeVol n A.variety o roots ps split (fun k => asLists (lineDraws (X k ω)))
      (key b) b bs)) atTop (𝓝 ((cyMeasure p d F univ).toReal / (n + 2))) := by
  obtain ⟨C, hC, h⟩ := C141_volume ho hr hsm hn p d hS hF
  have hb0 : (0 : ℝ) < bs := by exact_mod_cast Nat.pos_of_ne_zero hbs
  refine ae_tendsto_of_exp (K := 2) fun ε hε => ⟨bs * ε ^ 2 / C, by positivity, fun b hb => ?_⟩
  refine (h split (key b) b bs hb hbs hdvd X (hX b) (hind b) ε hε).trans (le_of_eq ?_)
  congr 3
  push_cast
  ring

end Volume

variable (hB : IsBasisModulo F A.sections.degree A.sections.rows) (h : A.H) (hh : h.PosDef)

include ho hr hsm hn hS hF hB hh

/-- **C142.** `donaldson_step` takes its keys from `split(key, batches)`, so that the batches of calls with different
`batches` are different. The convergence of C134 needs no more than independent batches in each call. -/
theorem C142_step {Ω : Type*} [MeasurableSpace Ω] {P : Measure Ω} (bs : ℕ) (hbs : bs ≠ 0) (hdvd : (n + 2) ∣ bs)
    (X : (b : ℕ) → Fin b → Ω → Fin 2 → Fin (sampleCount bs (n + 2)) → Fin (2 * (n + 2)) → ℝ)
    (hX : ∀ b i, HasLaw (X b i) (normalsLaw (n + 2) (sampleCount bs (n + 2))) P) (hind : ∀ b, iIndepFun (X b) P) :
    let step := fun ω (vol : ℝ) (b : ℕ) => A.donaldsonStep .complex h o roots ps vol bs
      (List.ofFn fun i : Fin b => asLists (lineDraws (X b i ω)))
    ∀ᵐ ω ∂P, (∀ vol b, ∃ h', step ω vol b = .ok h') ∧
      ∀ (vol : ℕ → ℝ) (v : ℝ), 0 < v → Tendsto vol atTop (𝓝 v) →
        Tendsto (fun b => matrixOrZero (step ω (vol b) b)) atTop
          (𝓝 (((v * (n + 2) / (cyMeasure p d F univ).toReal : ℝ) : ℂ) •
            (tIntegral (sec A) h (cyMeasure p d F))⁻¹.transpose)) :=
  step_limit ho hr hsm hn p d hS hF hB h hh bs hdvd X hX fun _ hg hinv hK hint =>
    rows_average hsm hn p d hS hF bs hbs hdvd X hX hind hg hinv hK hint

/-- **C142.** The algorithm with its own keys in every call: repeated steps with the volume from `compute_vol`. If the batches
of each call are independent, then almost surely the matrix after `k` steps converges as the number of batches grows, and as
the number of steps grows these limits converge to a balanced matrix. -/
theorem C142_balanced {Ω : Type*} [MeasurableSpace Ω] {P : Measure Ω} (bs : ℕ) (hbs : bs ≠ 0) (hdvd : (n + 2) ∣ bs)
    (X : ℕ → ℕ → ℕ → Ω → Fin 2 → Fin (sampleCount bs (n + 2)) → Fin (2 * (n + 2)) → ℝ)
    (hX : ∀ t b, ∀ i : Fin b, HasLaw (X t b i) (normalsLaw (n + 2) (sampleCount bs (n + 2))) P)
    (hind : ∀ t b, iIndepFun (fun i : Fin b => X t b i) P)
    {Key : Type*} (split : Key → Key × Key) (key : ℕ → Key) (bs' : ℕ) (hbs' : bs' ≠ 0) (hdvd' : (n + 2) ∣ bs')
    (Y : Key → Ω → Fin 2 → Fin (sampleCount bs' (n + 2)) → Fin (2 * (n + 2)) → ℝ)
    (hY : ∀ b, ∀ i < b, HasLaw (Y (batchKey split (key b) i)) (normalsLaw (n + 2) (sampleCount bs' (n + 2))) P)
    (hindY : ∀ b, iIndepFun (fun i : Fin b => Y (batchKey split (key b) i)) P) :
    ∃ h' : A.H, Balanced (sec A) (cyMeasure p d F) h' ∧ ∀ᵐ ω ∂P, ∃ L : ℕ → A.H, Tendsto L atTop (𝓝 h') ∧
      ∀ k, Tendsto (fun b => matrixOrZero (repeatedSteps A o roots ps bs (fun t i => X t b i ω)
        (volMean (computeVol n A.variety o roots ps split (fun k => asLists (lineDraws (Y k ω))) (key b) b bs')) b k h)) atTop
        (𝓝 (L k)) := by
  obtain ⟨h1, h2, -⟩ := C130_measure hsm hn p d hS hF
  have hV0 := ENNReal.toReal_pos h2 h1
  obtain ⟨-, h', hb, hlim⟩ := C139_iteration hsm hn p d hS hF hB h hh
  refine ⟨h', hb, ?_⟩
  filter_upwards [iterate_limit ho hr hsm hn p d hS hF hB h hh bs hdvd X hX fun t g hg hinv hK hint =>
      rows_average hsm hn p d hS hF bs hbs hdvd (fun b i => X t b i) (hX t) (hind t) hg hinv hK hint,
    C142_volume ho hr hsm hn p d hS hF split key bs' hbs' hdvd' Y hY hindY] with ω h3 h4
  refine ⟨_, hlim, fun k => ?_⟩
  have h5 := h3.2 _ _ (by positivity) h4 k
  rw [show (cyMeasure p d F univ).toReal / (n + 2) * (n + 2) / (cyMeasure p d F univ).toReal = 1 by field_simp, one_pow,
    Complex.ofReal_one, one_smul] at h5
  exact h5

omit ho hr hsm hn hS hF hB hh in
/-- The hypotheses can be met: the Dwork quintic with `psi = 2`, the reduced basis of any degree, the identity, and batches of
2000 points that are all independent; the key of `compute_vol` with `b` batches is `b`, and the keys split from it are counted. -/
example (k : ℕ) : ∃ (rows : List (Fin 5 → ℕ)) (F : MvPolynomial (Fin 5) ℂ)
    (P : Measure ((ℕ × ℕ × ℕ) ⊕ (ℕ × ℕ) → Fin 2 → Fin (sampleCount 2000 5) → Fin (2 * 5) → ℝ)) (_ : IsProbabilityMeasure P)
    (h' : (⟨.dwork 5 (.flag true), ⟨k, rows⟩⟩ : AlgebraicMetric 4).H),
    Balanced (sec (⟨.dwork 5 (.flag true), ⟨k, rows⟩⟩ : AlgebraicMetric 4)) (cyMeasure (n := 3) 0 0 F) h' ∧
    ∀ᵐ ω ∂P, ∃ L : ℕ → _, Tendsto L atTop (𝓝 h') ∧ ∀ j, Tendsto (fun b => matrixOrZero
      (repeatedSteps (⟨.dwork 5 (.flag true), ⟨k, rows⟩⟩ : AlgebraicMetric 4) someOrder someRoots [2] 2000
        (fun t i => ω (.inl (t, b, i))) (volMean (computeVol 3 (.dwork 5 (.flag true)) someOrder someRoots [2]
          (fun k : ℕ × ℕ => (k, (k.1, k.2 + 1))) (fun k => asLists (lineDraws (ω (.inr k)))) (b, 0) b 2000)) b j 1)) atTop
      (𝓝 (L j)) := by
  obtain ⟨F, hF, hsm⟩ := C114_quintic 2 []
  have hsm' := hsm.2 (by norm_num)
  have hvars : F.vars = Finset.univ := by
    refine Finset.eq_univ_iff_forall.2 fun i => ?_
    by_contra hi
    exact smooth_pderiv_ne_zero hF.homogeneous (by norm_num) hsm' i (pderiv_eq_zero_of_notMem_vars hi)
  obtain ⟨rows, h1, h2⟩ := C97_basis_partial F 5 k hF.homogeneous hvars
  have hS := Samplable.dwork 4 (.flag true) (by simp [DworkFactor.value]) 2
  have hX : ∀ i, HasLaw (fun ω : (ℕ × ℕ × ℕ) ⊕ (ℕ × ℕ) → Fin 2 → Fin (sampleCount 2000 5) → Fin (2 * 5) → ℝ => ω i)
      (normalsLaw 5 (sampleCount 2000 5)) (Measure.infinitePi fun _ => normalsLaw 5 (sampleCount 2000 5)) := fun i =>
    (measurePreserving_eval_infinitePi (fun _ : (ℕ × ℕ × ℕ) ⊕ (ℕ × ℕ) => normalsLaw 5 (sampleCount 2000 5)) _).hasLaw
  have hind : iIndepFun (fun i => fun ω : (ℕ × ℕ × ℕ) ⊕ (ℕ × ℕ) → Fin 2 → Fin (sampleCount 2000 5) → Fin (2 * 5) → ℝ => ω i)
      (Measure.infinitePi fun _ => normalsLaw 5 (sampleCount 2000 5)) :=
    iIndepFun_infinitePi (X := fun _ x => x) fun _ => measurable_id
  have hkey : ∀ b i : ℕ, batchKey (fun k : ℕ × ℕ => (k, (k.1, k.2 + 1))) (b, 0) i = (b, i) := fun b i => by
    unfold batchKey
    induction i with
    | zero => rfl
    | succ i ih => rw [Function.iterate_succ_apply', ih]
  obtain ⟨h', hb, hl⟩ := C142_balanced (A := ⟨.dwork 5 (.flag true), ⟨k, rows⟩⟩) someOrder_valid someRoots_complete hsm'
    (by norm_num) 0 0 hS hF h2 1 Matrix.PosDef.one 2000 (by norm_num) (by norm_num)
    (fun t b i (ω : (ℕ × ℕ × ℕ) ⊕ (ℕ × ℕ) → Fin 2 → Fin (sampleCount 2000 5) → Fin (2 * 5) → ℝ) => ω (.inl (t, b, i)))
    (fun t b i => hX (.inl (t, b, i)))
    (fun t b => hind.precomp (g := fun i : Fin b => .inl (t, b, (i : ℕ))) fun i j hij => by simpa [Fin.ext_iff] using hij)
    (fun k : ℕ × ℕ => (k, (k.1, k.2 + 1))) (fun b => (b, 0)) 2000 (by norm_num) (by norm_num) (fun k (ω : (ℕ × ℕ × ℕ) ⊕ (ℕ × ℕ) → Fin 2 → Fin (sampleCount 2000 5) → Fin (2 * 5) → ℝ) => ω (.inr k))
    (fun b i _ => hX _)
    (fun b => hind.precomp (g := fun i : Fin b => .inr (batchKey (fun k : ℕ × ℕ => (k, (k.1, k.2 + 1))) (b, 0) i)) fun i j hij => by
      simpa [hkey, Fin.ext_iff] using hij)
  exact ⟨rows, F, Measure.infinitePi fun _ => normalsLaw 5 (sampleCount 2000 5), inferInstance, h', hb, hl⟩

end Cyjax
