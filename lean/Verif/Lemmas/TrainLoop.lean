import Verif.Spec.TrainLoop
import Verif.Lemmas.BatchSampler

/-! # Lemmas for the training loop -/

namespace Cyjax

open Cyjax.Spec Cyjax.TrainScript Cyjax.Ml Cyjax.Util
open Cyjax.Polynomial (PyErr)

theorem logged_succ (l j : ℕ) : logged l (j + 1) = logged l j + if j % l = 0 then 1 else 0 := by
  unfold logged
  rw [List.range_succ, List.filter_append, List.length_append]
  by_cases h : j % l = 0 <;> simp [h]

theorem logged_eq (l j : ℕ) : logged l (j + 1) = j / l + 1 := by
  induction j with
  | zero => simp [logged]
  | succ j ih =>
    rw [logged_succ, ih, Nat.succ_div]
    by_cases h : (j + 1) % l = 0
    · rw [if_pos h, if_pos (Nat.dvd_of_mod_eq_zero h)]
    · rw [if_neg h, if_neg (fun hd => h (Nat.mod_eq_zero_of_dvd hd))]

/-- The evaluations made before step `j` are those with `i * l < j`. -/
theorem lt_logged {l : ℕ} (hl : l ≠ 0) (i j : ℕ) : i < logged l j ↔ i * l < j := by
  cases j with
  | zero => simp [logged]
  | succ j =>
    rw [logged_eq, Nat.lt_succ_iff, Nat.lt_succ_iff, Nat.le_div_iff_mul_le (Nat.pos_of_ne_zero hl)]

theorem logged_mul {l : ℕ} (hl : l ≠ 0) (i : ℕ) : logged l (i * l) = i := by
  refine le_antisymm ?_ ?_
  · by_contra h
    push Not at h
    exact lt_irrefl _ ((lt_logged hl i (i * l)).1 h)
  · cases i with
    | zero => exact Nat.zero_le _
    | succ i => exact (lt_logged hl i _).2 (Nat.mul_lt_mul_of_pos_right (Nat.lt_succ_self i) (Nat.pos_of_ne_zero hl))

variable {Key M S Par Grad Upd Opt Acc : Type*} {c : Setup Key M S Par Grad Upd Opt Acc} {seed : Key}

/-- The state after `i` steps. -/
structure TrainInv (c : Setup Key M S Par Grad Upd Opt Acc) (seed : Key) (i : ℕ) (par : ℕ → Par) (opt : ℕ → Opt) (loss : ℕ → ℝ)
    (acc : ℕ → Acc) (st : TrainState Key M S Par Opt Acc) : Prop where
  course : Course c seed i par opt loss acc
  step : st.step = i
  params : st.params = par i
  optState : st.optState = opt i
  losses : st.losses = (List.range i).map loss
  validation : st.validation = (List.range (logged c.logEvery i)).map acc
  moduli : st.moduliValidation = c.paramSampler (seqKey c.split seed 1) c.validationCount
  rns : st.rns = (fun k => (c.split k).2)^[stepKey c.logEvery i] seed
  sampler : ∃ b, SamplerGood c.split c.sample c.bufferSize (seqKey c.split seed 0) b st.sampler ∧ b + st.sampler.index = i
  fileMod : st.files.validationParams = some (c.paramSampler (seqKey c.split seed 1) c.validationCount)
  fileNone : i = 0 → st.files.losses = none ∧ st.files.validation = none ∧ st.files.finalParams = none
  fileSome : i ≠ 0 → c.logEvery ≠ 0 ∧ st.files.losses = some ((List.range (lastLogged c.logEvery i + 1)).map loss) ∧
    st.files.validation = some st.validation ∧ st.files.finalParams = some (par (lastLogged c.logEvery i + 1))

theorem trainInit_inv [Nonempty Acc] (hB : 0 < c.bufferSize) {st : TrainState Key M S Par Opt Acc}
    (h : trainInit c seed = .ok st) : ∃ par opt loss acc, TrainInv c seed 0 par opt loss acc st := by
  unfold trainInit at h
  simp only [prngInit] at h
  split at h
  · cases h
  · rename_i sampler hs
    split at h
    · cases h
    · rename_i params hp
      obtain rfl := Except.ok.inj h
      obtain ⟨hg, hi⟩ := init_good c.split c.sample hB _ _ hs
      exact ⟨fun _ => params, fun _ => c.optInit params, fun _ => 0, fun _ => Classical.arbitrary Acc,
        ⟨⟨hp, rfl, fun j hj => absurd hj (Nat.not_lt_zero j), fun i hi => absurd hi (Nat.not_lt_zero _)⟩, rfl, rfl, rfl, rfl, rfl, rfl,
          rfl, ⟨0, hg, by rw [hi]⟩, rfl, fun _ => ⟨rfl, rfl, rfl⟩, fun h => absurd rfl h⟩⟩

/-- The course does not depend on what comes later. -/
theorem Course.congr {N : ℕ} {par par' : ℕ → Par} {opt opt' : ℕ → Opt} {loss loss' : ℕ → ℝ} {acc acc' : ℕ → Acc}
    (h : Course c seed N par opt loss acc) (h1 : ∀ j ≤ N, par' j = par j) (h2 : ∀ j ≤ N, opt' j = opt j)
    (h3 : ∀ j < N, loss' j = loss j) (h4 : ∀ i, i * c.logEvery < N → acc' i = acc i) : Course c seed N par' opt' loss' acc' := by
  refine ⟨by rw [h1 0 (Nat.zero_le _)]; exact h.init, by rw [h1 0 (Nat.zero_le _), h2 0 (Nat.zero_le _)]; exact h.optInit, ?_, ?_⟩
  · intro j hj
    rw [h1 j hj.le, h1 (j + 1) hj, h2 j hj.le, h2 (j + 1) hj, h3 j hj]
    exact h.step j hj
  · intro i hi
    rw [h1 _ hi, h4 i hi]
    exact h.validation i hi

theorem trainStep_inv {i : ℕ} {par : ℕ → Par} {opt : ℕ → Opt} {loss : ℕ → ℝ} {acc : ℕ → Acc}
    {st st' : TrainState Key M S Par Opt Acc} (hinv : TrainInv c seed i par opt loss acc st) (h : trainStep c st = .ok st') :
    ∃ par opt loss acc, TrainInv c seed (i + 1) par opt loss acc st' := by
  obtain ⟨b, hg, hbi⟩ := hinv.sampler
  obtain ⟨x, hx, hn⟩ := next_good c.split c.sample hg
  unfold trainStep at h
  rcases hn with ⟨hn, b', hg', hb'⟩ | ⟨e, hn, -⟩
  swap
  · split at h
    · cases h
    · rename_i sampler sample heq
      rw [heq] at hn
      cases hn
  split at h
  · cases h
  rename_i sampler sample heq
  rw [heq] at hn hg' hb'
  simp only at hn hg' hb'
  obtain rfl := Except.ok.inj hn
  rw [hbi] at hx hb'
  unfold updateStep at h
  have hkey : (prngNext c.split st.rns).2 = seqKey c.split seed (stepKey c.logEvery i) := by rw [hinv.rns]; rfl
  have hrns : (prngNext c.split st.rns).1 = (fun k => (c.split k).2)^[stepKey c.logEvery i + 1] seed := by
    rw [hinv.rns, Function.iterate_succ_apply']
    rfl
  simp only [hkey, hrns, hinv.params, hinv.optState] at h
  cases hv : c.valueAndGrad (par i) (seqKey c.split seed (stepKey c.logEvery i)) sample with
  | error e =>
    rw [hv] at h
    cases h
  | ok y =>
    obtain ⟨ls, g⟩ := y
    rw [hv] at h
    simp only at h
    by_cases hl : c.logEvery = 0
    · rw [if_pos hl] at h
      cases h
    rw [if_neg hl] at h
    set par' := Function.update par (i + 1) (c.applyUpdates (par i) (c.optUpdate g (opt i)).1) with hpar'
    set opt' := Function.update opt (i + 1) (c.optUpdate g (opt i)).2 with hopt'
    set loss' := Function.update loss i ls with hloss'
    have e1 : ∀ j ≤ i, par' j = par j := fun j hj => Function.update_of_ne (by omega) _ _
    have e2 : ∀ j ≤ i, opt' j = opt j := fun j hj => Function.update_of_ne (by omega) _ _
    have e3 : ∀ j < i, loss' j = loss j := fun j hj => Function.update_of_ne (by omega) _ _
    have e1' : par' (i + 1) = c.applyUpdates (par i) (c.optUpdate g (opt i)).1 := Function.update_self ..
    have e2' : opt' (i + 1) = (c.optUpdate g (opt i)).2 := Function.update_self ..
    have e3' : loss' i = ls := Function.update_self ..
    have hlosses : st.losses ++ [ls] = (List.range (i + 1)).map loss' := by
      rw [List.range_succ, List.map_append, List.map_singleton, e3', hinv.losses]
      congr 1
      exact List.map_congr_left fun j hj => (e3 j (List.mem_range.1 hj)).symm
    have hstep : ∀ j < i + 1, ∃ x g, c.sample (seqKey c.split (seqKey c.split seed 0) j) = .ok x ∧
        c.valueAndGrad (par' j) (seqKey c.split seed (stepKey c.logEvery j)) x = .ok (loss' j, g) ∧
        par' (j + 1) = c.applyUpdates (par' j) (c.optUpdate g (opt' j)).1 ∧ opt' (j + 1) = (c.optUpdate g (opt' j)).2 := by
      intro j hj
      rcases Nat.lt_succ_iff_lt_or_eq.1 hj with hj | rfl
      · rw [e1 j hj.le, e1 (j + 1) hj, e2 j hj.le, e2 (j + 1) hj, e3 j hj]
        exact hinv.course.step j hj
      · refine ⟨sample, g, hx, ?_, ?_, ?_⟩
        · rw [e1 j le_rfl, e3', hv]
        · rw [e1', e1 j le_rfl, e2 j le_rfl]
        · rw [e2', e2 j le_rfl]
    have hinit := hinv.course.init
    rw [← e1 0 (Nat.zero_le _)] at hinit
    have hopt := hinv.course.optInit
    rw [← e1 0 (Nat.zero_le _), ← e2 0 (Nat.zero_le _)] at hopt
    by_cases hlog : i % c.logEvery = 0
    · rw [if_pos (by rw [hinv.step]; exact hlog)] at h
      obtain ⟨q, rfl⟩ : ∃ q, i = q * c.logEvery := ⟨i / c.logEvery, (Nat.div_mul_cancel (Nat.dvd_of_mod_eq_zero hlog)).symm⟩
      have hq : logged c.logEvery (q * c.logEvery) = q := logged_mul hl q
      cases hacc : c.validate (c.paramSampler (seqKey c.split seed 1) c.validationCount)
          (seqKey c.split seed (stepKey c.logEvery (q * c.logEvery) + 1)) (par' (q * c.logEvery + 1)) with
      | error e =>
        rw [e1'] at hacc
        rw [hinv.moduli, show (prngNext c.split ((fun k => (c.split k).2)^[stepKey c.logEvery (q * c.logEvery) + 1] seed)).2 =
          seqKey c.split seed (stepKey c.logEvery (q * c.logEvery) + 1) from rfl, hacc] at h
        cases h
      | ok a =>
        have hacc' := hacc
        rw [e1'] at hacc
        rw [hinv.moduli, show (prngNext c.split ((fun k => (c.split k).2)^[stepKey c.logEvery (q * c.logEvery) + 1] seed)).2 =
          seqKey c.split seed (stepKey c.logEvery (q * c.logEvery) + 1) from rfl, hacc] at h
        obtain rfl := Except.ok.inj h
        have hlast : lastLogged c.logEvery (q * c.logEvery + 1) = q * c.logEvery := by
          unfold lastLogged
          rw [Nat.add_sub_cancel, Nat.mul_div_cancel _ (Nat.pos_of_ne_zero hl)]
        have hval : st.validation ++ [a] = (List.range (logged c.logEvery (q * c.logEvery + 1))).map (Function.update acc q a) := by
          rw [logged_succ, if_pos hlog, hq, List.range_succ, List.map_append, List.map_singleton, Function.update_self,
            hinv.validation, hq]
          congr 1
          exact List.map_congr_left fun j hj => (Function.update_of_ne (by have := List.mem_range.1 hj; omega) _ _).symm
        refine ⟨par', opt', loss', Function.update acc q a, ⟨⟨hinit, hopt, hstep, fun j hj => ?_⟩, by simp [hinv.step], e1'.symm,
          e2'.symm, hlosses, hval, rfl, ?_, ⟨b', hg', hb'⟩, hinv.fileMod, fun h0 => by omega, fun _ => ⟨hl, ?_, rfl, ?_⟩⟩⟩
        · by_cases hjq : j = q
          · subst hjq
            rw [Function.update_self]
            exact hacc'
          · have hjl : j * c.logEvery < q * c.logEvery := by
              refine lt_of_le_of_ne (Nat.lt_succ_iff.1 hj) fun he => hjq (Nat.eq_of_mul_eq_mul_right (Nat.pos_of_ne_zero hl) he)
            rw [Function.update_of_ne hjq, e1 _ hjl]
            exact hinv.course.validation j hjl
        · change (prngNext c.split _).1 = _
          unfold stepKey
          rw [logged_succ, if_pos hlog, show 4 + (q * c.logEvery + 1) + (logged c.logEvery (q * c.logEvery) + 1) =
            (4 + q * c.logEvery + logged c.logEvery (q * c.logEvery) + 1) + 1 by omega,
            Function.iterate_succ_apply' _ (4 + q * c.logEvery + logged c.logEvery (q * c.logEvery) + 1)]
          rfl
        · simp only [hlast, hlosses]
        · simp only [hlast, e1']
    · rw [if_neg (by rw [hinv.step]; exact hlog)] at h
      obtain rfl := Except.ok.inj h
      have hi0 : i ≠ 0 := by
        rintro rfl
        exact hlog (Nat.zero_mod _)
      have hlast : lastLogged c.logEvery (i + 1) = lastLogged c.logEvery i := by
        unfold lastLogged
        obtain ⟨k, rfl⟩ := Nat.exists_eq_succ_of_ne_zero hi0
        rw [Nat.add_sub_cancel, Nat.succ_eq_add_one, Nat.add_sub_cancel, Nat.succ_div,
          if_neg (fun hd => hlog (Nat.mod_eq_zero_of_dvd hd)), add_zero]
      have hlt : lastLogged c.logEvery i < i := by
        unfold lastLogged
        have := Nat.div_mul_le_self (i - 1) c.logEvery
        omega
      obtain ⟨-, f1, f2, f3⟩ := hinv.fileSome hi0
      refine ⟨par', opt', loss', acc, ⟨⟨hinit, hopt, hstep, fun j hj => ?_⟩, by simp [hinv.step], e1'.symm, e2'.symm, hlosses, ?_,
        hinv.moduli, ?_, ⟨b', hg', hb'⟩, hinv.fileMod, fun h0 => by omega, fun _ => ⟨hl, ?_, f2, ?_⟩⟩⟩
      · have hjl : j * c.logEvery < i := by
          refine lt_of_le_of_ne (Nat.lt_succ_iff.1 hj) fun he => hlog (by rw [← he, Nat.mul_mod_left])
        rw [e1 _ hjl]
        exact hinv.course.validation j hjl
      · rw [logged_succ, if_neg hlog, add_zero]
        exact hinv.validation
      · unfold stepKey
        rw [logged_succ, if_neg hlog, add_zero, show 4 + (i + 1) + logged c.logEvery i = (4 + i + logged c.logEvery i) + 1 by omega]
      · simp only [f1, hlast]
        congr 1
        exact List.map_congr_left fun j hj => (e3 j (by have := List.mem_range.1 hj; omega)).symm
      · simp only [f3, hlast]
        rw [e1 _ hlt]

end Cyjax
