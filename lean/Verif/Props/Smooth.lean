import Verif.Lemmas.Samplable
import Verif.Lemmas.VarietyGrad
import Mathlib.Tactic.LinearCombination

/-! # Smoothness of the Dwork and Fermat varieties (C114) -/

namespace Cyjax

open Cyjax.Spec Cyjax.Polynomial Cyjax.Projective Cyjax.Variety MvPolynomial

variable {m : ℕ}

/-- The hypersurface of the Dwork family with explicit polynomial. -/
theorem hypersurface_dwork_explicit (m : ℕ) (f : DworkFactor) (psi : ℂ) (rest : List ℂ) :
    Hypersurface (.dwork (m + 1) f) (.vec (psi :: rest)) m (m + 1) (∑ j, X j ^ (m + 1) + C (f.value * psi) * ∏ j, X j) := by
  refine ⟨by simp [dimComplex, HomKind.md, dworkMeta], ?_, fun p zs => ?_⟩
  · refine IsHomogeneous.add (IsHomogeneous.sum _ _ _ fun j _ => isHomogeneous_X_pow j _) ?_
    have h := IsHomogeneous.prod Finset.univ (fun j => (X j : MvPolynomial (Fin (m + 1)) ℂ)) (fun _ => 1)
      fun j _ => isHomogeneous_X ℂ j
    simpa using (h.C_mul (f.value * psi))
  · rw [defining_dwork_patch]
    congr 1
    simp only [map_add, map_sum, map_pow, map_mul, map_prod, eval_X, eval_C]
    rw [Fin.sum_univ_succAbove _ p, Fin.prod_univ_succAbove _ p]
    simp only [affineToHom_same, affineToHom_succAbove]
    ring

theorem eval_dwork (a : ℂ) (N : ℕ) (Z : Fin (m + 1) → ℂ) :
    eval Z (∑ j, X j ^ N + C a * ∏ j, X j : MvPolynomial (Fin (m + 1)) ℂ) = ∑ j, Z j ^ N + a * ∏ j, Z j := by
  simp only [map_add, map_sum, map_pow, map_mul, map_prod, eval_X, eval_C]

theorem pderiv_dwork (a : ℂ) (N : ℕ) (Z : Fin (m + 1) → ℂ) (i : Fin (m + 1)) :
    eval Z (pderiv i (∑ j, X j ^ N + C a * ∏ j, X j : MvPolynomial (Fin (m + 1)) ℂ)) =
      (N : ℂ) * Z i ^ (N - 1) + a * ∏ j ∈ Finset.univ.erase i, Z j := by
  have h1 := (Donaldson.eval_hasDerivAt (∑ j, X j ^ N + C a * ∏ j, X j : MvPolynomial (Fin (m + 1)) ℂ) i Z).deriv
  rw [← h1, ← deriv_dwork Z i N 0 a]
  congr 1
  funext t
  rw [eval_dwork, zero_add]

/-- The hypersurface `Σ Z_j^N + a ∏ Z_j` with `N` coordinates is smooth exactly if `(-a)^N ≠ N^N`. -/
theorem smooth_dwork (a : ℂ) :
    SmoothHypersurface (∑ j, X j ^ (m + 1) + C a * ∏ j, X j : MvPolynomial (Fin (m + 1)) ℂ) ↔
      (-a) ^ (m + 1) ≠ ((m + 1 : ℕ) : ℂ) ^ (m + 1) := by
  have hN : ((m + 1 : ℕ) : ℂ) ≠ 0 := Nat.cast_ne_zero.2 (Nat.succ_ne_zero m)
  constructor
  · intro h heq
    have ha : a ≠ 0 := by
      rintro rfl
      rw [neg_zero, zero_pow (Nat.succ_ne_zero m)] at heq
      exact pow_ne_zero _ hN heq.symm
    set ζ : ℂ := ((m + 1 : ℕ) : ℂ) / (-a) with hζ
    have hζN : ζ ^ (m + 1) = 1 := by rw [hζ, div_pow, heq, div_self (pow_ne_zero _ hN)]
    have haζ : a * ζ = -((m + 1 : ℕ) : ℂ) := by
      rw [hζ]
      field_simp
    set Z : Fin (m + 1) → ℂ := fun i => if i = 0 then ζ else 1 with hZ
    have hZp : ∀ i, Z i ^ (m + 1) = 1 := by
      intro i
      by_cases hi : i = 0 <;> simp [hZ, hi, hζN]
    have hprod : ∏ j, Z j = ζ := by
      rw [Finset.prod_eq_single 0 (fun j _ hj => by simp [hZ, hj]) (by simp)]
      simp [hZ]
    have hne : ∀ i, Z i ≠ 0 := fun i h0 => by
      have := hZp i
      rw [h0, zero_pow (Nat.succ_ne_zero m)] at this
      exact zero_ne_one this
    obtain ⟨i, hi⟩ := h Z (fun h0 => hne 0 (congrFun h0 0)) (by
      rw [eval_dwork, hprod, haζ]
      simp [hZp])
    apply hi
    rw [pderiv_dwork]
    have h2 : Z i * (((m + 1 : ℕ) : ℂ) * Z i ^ (m + 1 - 1) + a * ∏ j ∈ Finset.univ.erase i, Z j) = 0 := by
      have h3 : Z i * ∏ j ∈ Finset.univ.erase i, Z j = ζ := by
        rw [Finset.mul_prod_erase _ _ (Finset.mem_univ i), hprod]
      have h4 := hZp i
      rw [pow_succ] at h4
      rw [Nat.add_sub_cancel]
      linear_combination ((m + 1 : ℕ) : ℂ) * h4 + a * h3 + haζ
    exact (mul_eq_zero.1 h2).resolve_left (hne i)
  · intro h Z hZ _
    by_contra hcon
    push Not at hcon
    apply h
    have key : ∀ i, ((m + 1 : ℕ) : ℂ) * Z i ^ (m + 1) = -a * ∏ j, Z j := by
      intro i
      have h1 := hcon i
      rw [pderiv_dwork, Nat.add_sub_cancel] at h1
      have h3 : Z i * ∏ j ∈ Finset.univ.erase i, Z j = ∏ j, Z j := Finset.mul_prod_erase _ _ (Finset.mem_univ i)
      rw [← h3, pow_succ]
      linear_combination Z i * h1
    have hP : ∏ j, Z j ≠ 0 := by
      intro h0
      apply hZ
      funext i
      have := key i
      rw [h0, mul_zero] at this
      exact pow_eq_zero_iff (Nat.succ_ne_zero m) |>.1 ((mul_eq_zero.1 this).resolve_left hN)
    have h5 : ∏ i : Fin (m + 1), (((m + 1 : ℕ) : ℂ) * Z i ^ (m + 1)) = ∏ _i : Fin (m + 1), (-a * ∏ j, Z j) :=
      Finset.prod_congr rfl fun i _ => key i
    rw [Finset.prod_mul_distrib, Finset.prod_const, Finset.prod_const, Finset.card_univ, Fintype.card_fin,
      Finset.prod_pow, mul_pow] at h5
    exact (mul_right_cancel₀ (pow_ne_zero _ hP) h5).symm

/-- **C114.** The Dwork variety of degree `N` with factor `f` and parameter `psi` is smooth exactly if
`(-f psi)^N ≠ N^N`. For the quintic with the default factor `-5` this is `psi^5 ≠ 1`. -/
theorem C114_dwork (f : DworkFactor) (psi : ℂ) (rest : List ℂ) :
    ∃ F, Hypersurface (.dwork (m + 1) f) (.vec (psi :: rest)) m (m + 1) F ∧
      (SmoothHypersurface F ↔ (-(f.value * psi)) ^ (m + 1) ≠ ((m + 1 : ℕ) : ℂ) ^ (m + 1)) :=
  ⟨_, hypersurface_dwork_explicit m f psi rest, smooth_dwork _⟩

theorem C114_quintic (psi : ℂ) (rest : List ℂ) :
    ∃ F, Hypersurface (.dwork 5 (.flag true)) (.vec (psi :: rest)) 4 5 F ∧ (SmoothHypersurface F ↔ psi ^ 5 ≠ 1) := by
  obtain ⟨F, h1, h2⟩ := C114_dwork (m := 4) (.flag true) psi rest
  refine ⟨F, h1, h2.trans (not_congr ?_)⟩
  simp only [DworkFactor.value, if_true]
  constructor
  · intro h
    have h5 : (5 : ℂ) ^ 5 ≠ 0 := by norm_num
    apply mul_left_cancel₀ h5
    push_cast at h
    linear_combination h
  · intro h
    push_cast
    linear_combination (5 : ℂ) ^ 5 * h

/-- **C114.** The Fermat varieties are smooth. -/
theorem C114_fermat (v : Val) :
    Hypersurface (.fermat (m + 1)) v m (m + 1) (∑ j, X j ^ (m + 1)) ∧
      SmoothHypersurface (∑ j, X j ^ (m + 1) : MvPolynomial (Fin (m + 1)) ℂ) := by
  refine ⟨hypersurface_fermat m v, ?_⟩
  have h := (smooth_dwork (m := m) 0).2 (by
    rw [neg_zero, zero_pow (Nat.succ_ne_zero m)]
    exact (pow_ne_zero _ (Nat.cast_ne_zero.2 (Nat.succ_ne_zero m))).symm)
  simpa using h

/-- **C114.** On a smooth hypersurface the gradient returned by `grad_defining` does not vanish at any point of the
variety, in any patch; otherwise there are a patch and a point of the variety in it where it does. -/
theorem C114_gradient {V : HomKind} {params : Val} {e : ℕ} {F : MvPolynomial (Fin (m + 1)) ℂ}
    (hV : Hypersurface V params m e F) :
    SmoothHypersurface F ↔ ∀ (p : Fin (m + 1)) (z : Fin m → ℂ),
      defining V (List.ofFn z) params (some (.index p)) = .ok 0 → gradDefining V z params (some (.index p)) ≠ .ok 0 := by
  constructor
  · intro hs p z h0 hg
    rw [hV.defining p z] at h0
    rw [hV.grad p z] at hg
    have hg := Except.ok.inj hg
    have h0 := Except.ok.inj h0
    have hW : affineToHom z (p : ℕ) p = 1 := affineToHom_same z p
    have hne : affineToHom z (p : ℕ) ≠ 0 := fun h => by
      have := congrFun h p
      rw [hW] at this
      exact one_ne_zero this
    obtain ⟨k, hk⟩ := smooth_affine hV.homogeneous _ h0 (hs _ hne h0) p (by rw [hW]; exact one_ne_zero)
    rw [C15_roundtrip z p] at hk
    exact hk (congrFun hg k)
  · intro h Z hZ h0
    by_contra hcon
    push Not at hcon
    obtain ⟨p, hp⟩ : ∃ p, Z p ≠ 0 := by
      by_contra h1
      push Not at h1
      exact hZ (funext h1)
    have hW : affineToHom (homToAffine Z (p : ℕ)) (p : ℕ) = fun i => (Z p)⁻¹ * Z i := by
      rw [C16_roundtrip Z p hp]
      funext i
      ring
    refine h p (homToAffine Z (p : ℕ)) ?_ ?_
    · rw [hV.defining, hW, eval_smul_homogeneous hV.homogeneous, h0, mul_zero]
    · rw [(hV.represents p).grad]
      congr 1
      funext k
      rw [hW, eval_smul_homogeneous (hV.homogeneous.pderiv (i := p.succAbove k)), hcon, mul_zero]
      rfl

/-- The quintic at `psi = 2` is smooth, at `psi = 1` it is not. -/
example : (2 : ℂ) ^ 5 ≠ 1 ∧ ¬ (1 : ℂ) ^ 5 ≠ 1 := by norm_num

end Cyjax
