import Verif.Spec.Balanced
import Verif.Lemmas.BalancedAttract
import Verif.Lemmas.DonaldsonLimit

/-! # The T operator of sections as the map of a family of matrices (C139) -/

namespace Cyjax

open MeasureTheory MvPolynomial Cyjax.Spec Set Filter Topology
open scoped ENNReal ComplexConjugate ComplexOrder

variable {n N : ℕ} (s : Fin N → MvPolynomial (Fin (n + 2)) ℂ)

/-- The conjugated values of the sections. -/
noncomputable def conjVec (Z : Fin (n + 2) → ℂ) (a : Fin N) : ℂ := conj (eval Z (s a))

/-- The sum of the squared moduli of the sections. -/
noncomputable def secSq (Z : Fin (n + 2) → ℂ) : ℝ := ∑ a, Complex.normSq (eval Z (s a))

/-- The projection to the line of the conjugated values, and `1 / N` where all sections vanish. -/
noncomputable def secProj (Z : Fin (n + 2) → ℂ) : Matrix (Fin N) (Fin N) ℂ :=
  if secSq s Z = 0 then (((N : ℝ)⁻¹ : ℝ) : ℂ) • 1
  else (((secSq s Z)⁻¹ : ℝ) : ℂ) • Matrix.vecMulVec (conjVec s Z) (star (conjVec s Z))

theorem secSq_nonneg (Z : Fin (n + 2) → ℂ) : 0 ≤ secSq s Z := Finset.sum_nonneg fun _ _ => Complex.normSq_nonneg _

theorem continuous_secSq : Continuous (secSq s) :=
  continuous_finsetSum _ fun _ _ => Complex.continuous_normSq.comp (MvPolynomial.continuous_eval _)

theorem qf_vec (v u : Fin N → ℂ) : qf (Matrix.vecMulVec v (star v)) u = Complex.normSq (∑ a, conj (v a) * u a) := by
  rw [qf, Matrix.vecMulVec_mulVec, dotProduct_smul, MulOpposite.smul_eq_mul_unop]
  have h1 : star u ⬝ᵥ v = conj (star v ⬝ᵥ u) := by
    rw [← Complex.star_def, Matrix.star_dotProduct]
  rw [h1, MulOpposite.unop_op, ← Complex.normSq_eq_conj_mul_self, Complex.ofReal_re]
  rfl

theorem family_secProj (hN : N ≠ 0) {ν : Measure (Fin (n + 2) → ℂ)}
    (hind : ∀ c : Fin N → ℂ, c ≠ 0 → ∀ᵐ Z ∂ν, ∑ a, c a * eval Z (s a) ≠ 0) : TraceFamily ν (secProj s) := by
  have hNr : (N : ℝ) ≠ 0 := by exact_mod_cast hN
  refine ⟨fun a b => ?_, fun Z => ?_, fun Z => ?_, fun u hu => ?_⟩
  · have e : (fun Z => secProj s Z a b) = fun Z => if Z ∈ {Z | secSq s Z = 0} then (((N : ℝ)⁻¹ : ℝ) : ℂ) * (1 : Matrix (Fin N) (Fin N) ℂ) a b
        else (((secSq s Z)⁻¹ : ℝ) : ℂ) * (conj (eval Z (s a)) * eval Z (s b)) := by
      funext Z
      unfold secProj
      by_cases h0 : secSq s Z = 0
      · rw [if_pos h0, if_pos (show Z ∈ {Z | secSq s Z = 0} from h0)]
        rfl
      · rw [if_neg h0, if_neg (show Z ∉ {Z | secSq s Z = 0} from h0)]
        simp [Matrix.vecMulVec, conjVec]
    rw [e]
    refine Measurable.ite (isClosed_singleton.preimage (continuous_secSq s)).measurableSet measurable_const ?_
    exact (Complex.measurable_ofReal.comp (continuous_secSq s).measurable.inv).mul
      (((Complex.continuous_conj.comp (MvPolynomial.continuous_eval _)).mul (MvPolynomial.continuous_eval _)).measurable)
  · unfold secProj
    split_ifs with h0
    · exact Matrix.PosSemidef.one.smul (by exact_mod_cast inv_nonneg.2 (Nat.cast_nonneg (α := ℝ) N))
    · exact (Matrix.posSemidef_vecMulVec_self_star _).smul (by exact_mod_cast inv_nonneg.2 (secSq_nonneg s Z))
  · unfold secProj
    split_ifs with h0
    · rw [Matrix.trace_smul, Matrix.trace_one, Fintype.card_fin, smul_eq_mul, Complex.ofReal_inv, Complex.ofReal_natCast]
      exact inv_mul_cancel₀ (by exact_mod_cast hN)
    · rw [Matrix.trace_smul, Matrix.trace_vecMulVec, smul_eq_mul]
      have h1 : conjVec s Z ⬝ᵥ star (conjVec s Z) = (secSq s Z : ℂ) := by
        simp only [dotProduct, conjVec, Pi.star_apply, Complex.star_def, Complex.conj_conj, secSq, Complex.ofReal_sum]
        exact Finset.sum_congr rfl fun a _ => (Complex.normSq_eq_conj_mul_self).symm
      rw [h1, ← Complex.ofReal_mul, inv_mul_cancel₀ h0, Complex.ofReal_one]
  · filter_upwards [hind u hu] with Z hZ
    have h0 : secSq s Z ≠ 0 := by
      intro h0
      refine hZ (Finset.sum_eq_zero fun a _ => ?_)
      have := (Finset.sum_eq_zero_iff_of_nonneg fun _ _ => Complex.normSq_nonneg _).1 h0 a (Finset.mem_univ a)
      rw [Complex.normSq_eq_zero.1 this, mul_zero]
    rw [secProj, if_neg h0, qf_smul, qf_vec]
    refine mul_pos (inv_pos.2 (lt_of_le_of_ne (secSq_nonneg s Z) (Ne.symm h0))) (Complex.normSq_pos.2 ?_)
    simpa [conjVec, mul_comm] using hZ

theorem tMap_secProj (hN : N ≠ 0) {μ : Measure (Fin (n + 2) → ℂ)}
    (hind : ∀ c : Fin N → ℂ, c ≠ 0 → ∀ᵐ Z ∂μ, ∑ a, c a * eval Z (s a) ≠ 0) {H : Matrix (Fin N) (Fin N) ℂ} (hH : H.PosDef) :
    tMap ((μ univ)⁻¹ • μ) (secProj s) H = (tIntegral s H μ).transpose := by
  have hex : ∀ᵐ Z ∂μ, ∃ a, eval Z (s a) ≠ 0 := by
    have h1 : (fun _ : Fin N => (1 : ℂ)) ≠ 0 := fun h0 => one_ne_zero (congrFun h0 ⟨0, Nat.pos_of_ne_zero hN⟩)
    filter_upwards [hind _ h1] with Z hZ
    by_contra hcon
    push Not at hcon
    exact hZ (Finset.sum_eq_zero fun a _ => by rw [hcon a, mul_zero])
  ext a b
  rw [Matrix.transpose_apply, tIntegral_apply, tMap, Matrix.of_apply, integral_smul_measure, Complex.real_smul, div_eq_mul_inv,
    mul_assoc, ENNReal.toReal_inv, Complex.ofReal_inv]
  congr 2
  refine integral_congr_ae ?_
  filter_upwards [hex] with Z hZ
  have hpos := psiAt_pos s H hH Z hZ
  have h0 : secSq s Z ≠ 0 := by
    intro h0
    obtain ⟨a, ha⟩ := hZ
    exact ha (Complex.normSq_eq_zero.1 ((Finset.sum_eq_zero_iff_of_nonneg fun _ _ => Complex.normSq_nonneg _).1 h0 a (Finset.mem_univ a)))
  have h0' : (secSq s Z : ℂ) ≠ 0 := by exact_mod_cast h0
  have hre : ((psiAt s H Z).re : ℂ) = psiAt s H Z := Complex.ext rfl (by simpa using (Complex.pos_iff.1 hpos).2)
  have hden : (den (secProj s) H Z : ℂ) = ((secSq s Z)⁻¹ : ℝ) * psiAt s H Z := by
    have e : ∑ a, ∑ b, secProj s Z a b * H b a = ((secSq s Z)⁻¹ : ℝ) * psiAt s H Z := by
      rw [psiAt, Finset.sum_comm, Finset.mul_sum]
      refine Finset.sum_congr rfl fun c _ => ?_
      rw [Finset.mul_sum]
      refine Finset.sum_congr rfl fun d _ => ?_
      rw [secProj, if_neg h0]
      simp only [Matrix.smul_apply, Matrix.vecMulVec_apply, Pi.star_apply, conjVec, Complex.star_def, Complex.conj_conj,
        smul_eq_mul]
      ring
    rw [den_eq, e, Complex.re_ofReal_mul, Complex.ofReal_mul, hre]
  rw [hden, secProj, if_neg h0]
  simp only [Matrix.smul_apply, Matrix.vecMulVec_apply, Pi.star_apply, conjVec, Complex.star_def, Complex.conj_conj,
    smul_eq_mul, tFun]
  rw [Complex.ofReal_inv, mul_div_mul_left _ _ (inv_ne_zero h0'), mul_comm]

theorem tStep_secProj (hN : N ≠ 0) {μ : Measure (Fin (n + 2) → ℂ)}
    (hind : ∀ c : Fin N → ℂ, c ≠ 0 → ∀ᵐ Z ∂μ, ∑ a, c a * eval Z (s a) ≠ 0) {H : Matrix (Fin N) (Fin N) ℂ} (hH : H.PosDef) :
    tStep ((μ univ)⁻¹ • μ) (secProj s) H = exactStep s μ H := by
  rw [tStep, tMap_secProj s hN hind hH, exactStep, Matrix.transpose_nonsing_inv]

theorem balanced_iff (hN : N ≠ 0) {μ : Measure (Fin (n + 2) → ℂ)}
    (hind : ∀ c : Fin N → ℂ, c ≠ 0 → ∀ᵐ Z ∂μ, ∑ a, c a * eval Z (s a) ≠ 0) {H : Matrix (Fin N) (Fin N) ℂ} (hH : H.PosDef) :
    Balanced s μ H ↔ tMap ((μ univ)⁻¹ • μ) (secProj s) H * H = 1 := by
  rw [tMap_secProj s hN hind hH]
  refine ⟨fun h => ?_, fun h => ⟨hH, ?_⟩⟩
  · rw [h.2, Matrix.transpose_transpose]
    exact Matrix.nonsing_inv_mul _ (isUnit_iff_ne_zero.2 hH.det_pos.ne')
  · rw [Matrix.inv_eq_left_inv h, Matrix.transpose_transpose]

section Main

variable (hN : N ≠ 0) {μ : Measure (Fin (n + 2) → ℂ)} (hfin : μ univ ≠ ∞) (hne : μ univ ≠ 0)
    (hind : ∀ c : Fin N → ℂ, c ≠ 0 → ∀ᵐ Z ∂μ, ∑ a, c a * eval Z (s a) ≠ 0)
include hN hfin hne hind

theorem exists_balanced : ∃ h₀, Balanced s μ h₀ ∧ ∀ h, Balanced s μ h ↔ ∃ c : ℝ, 0 < c ∧ h = (c : ℂ) • h₀ := by
  have : IsFiniteMeasure μ := ⟨hfin.lt_top⟩
  have : NeZero μ := ⟨fun h0 => hne (by rw [h0]; rfl)⟩
  have hind' : ∀ c : Fin N → ℂ, c ≠ 0 → ∀ᵐ Z ∂((μ univ)⁻¹ • μ), ∑ a, c a * eval Z (s a) ≠ 0 := fun c hc =>
    (Measure.smul_absolutelyContinuous).ae_le (hind c hc)
  have hB := family_secProj s hN hind'
  obtain ⟨h₀, hpd, hfix⟩ := exists_fixed hB hN
  refine ⟨h₀, (balanced_iff s hN hind hpd).2 hfix, fun h => ⟨fun hb => ?_, ?_⟩⟩
  · exact fixed_unique hB hN hb.1 hpd ((balanced_iff s hN hind hb.1).1 hb) hfix
  · rintro ⟨c, hc, rfl⟩
    have hpd' : ((c : ℂ) • h₀).PosDef := hpd.smul (by exact_mod_cast hc)
    rw [balanced_iff s hN hind hpd', tMap_smul hc.ne', smul_mul_smul_comm, hfix, ← Complex.ofReal_mul,
      inv_mul_cancel₀ hc.ne', Complex.ofReal_one, one_smul]

theorem exactStep_converges {h : Matrix (Fin N) (Fin N) ℂ} (hh : h.PosDef) :
    (∀ k, ((exactStep s μ)^[k] h).PosDef) ∧
    ∃ h', Balanced s μ h' ∧ Tendsto (fun k => (exactStep s μ)^[k] h) atTop (𝓝 h') := by
  have : IsFiniteMeasure μ := ⟨hfin.lt_top⟩
  have : NeZero μ := ⟨fun h0 => hne (by rw [h0]; rfl)⟩
  have hind' : ∀ c : Fin N → ℂ, c ≠ 0 → ∀ᵐ Z ∂((μ univ)⁻¹ • μ), ∑ a, c a * eval Z (s a) ≠ 0 := fun c hc =>
    (Measure.smul_absolutelyContinuous).ae_le (hind c hc)
  have hB := family_secProj s hN hind'
  have hit : ∀ k, ((exactStep s μ)^[k] h).PosDef ∧ (exactStep s μ)^[k] h = (tStep ((μ univ)⁻¹ • μ) (secProj s))^[k] h := by
    intro k
    induction k with
    | zero => exact ⟨hh, rfl⟩
    | succ k ih =>
      rw [Function.iterate_succ_apply', Function.iterate_succ_apply', ← ih.2, tStep_secProj s hN hind ih.1]
      refine ⟨?_, rfl⟩
      rw [← tStep_secProj s hN hind ih.1]
      exact tStep_posDef hB hN ih.1
  obtain ⟨L, hL, hfix, hlim⟩ := orbit_converges hB hN hh
  exact ⟨fun k => (hit k).1, L, (balanced_iff s hN hind hL).2 hfix, hlim.congr fun k => ((hit k).2).symm⟩

end Main

end Cyjax
