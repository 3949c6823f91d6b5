import Verif.Lemmas.TrainLoop
import Mathlib.Tactic.NormNum

/-! # The training loop (C128, C129) -/

namespace Cyjax

open Cyjax.Spec Cyjax.TrainScript Cyjax.Ml Cyjax.Util
open Cyjax.Polynomial (PyErr)

section

variable {Key M S Par Grad Upd Opt Acc : Type*} {c : Setup Key M S Par Grad Upd Opt Acc} {seed : Key} {clock : ℕ → ℝ} {T : ℝ}

/-- Number of steps: the first one after which the time is over. -/
def StepsUntil (clock : ℕ → ℝ) (T : ℝ) (N : ℕ) : Prop := T ≤ clock N - clock 0 ∧ ∀ j < N, clock j - clock 0 < T

private theorem loop_inv {i : ℕ} {st : TrainState Key M S Par Opt Acc} {r : Except PyErr (TrainState Key M S Par Opt Acc)}
    (h : TrainLoop c clock T i st r) : ∀ st', r = .ok st' → (∀ j < i, clock j - clock 0 < T) →
    (∃ par opt loss acc, TrainInv c seed i par opt loss acc st) →
    ∃ N par opt loss acc, StepsUntil clock T N ∧ TrainInv c seed N par opt loss acc st' := by
  induction h with
  | stop i st h =>
    rintro st' ⟨⟩ hc ⟨par, opt, loss, acc, hi⟩
    exact ⟨i, par, opt, loss, acc, ⟨not_lt.1 h, hc⟩, hi⟩
  | fail => rintro st' ⟨⟩
  | next i st st1 r h hs hr ih =>
    rintro st' hr' hc ⟨par, opt, loss, acc, hi⟩
    refine ih st' hr' (fun j hj => ?_) (trainStep_inv hi hs)
    rcases Nat.lt_succ_iff_lt_or_eq.1 hj with hj | rfl
    · exact hc j hj
    · exact h

/-- **C128.** If training ends without an exception, then after the first number `N` of steps that takes at least the configured
time, and its course is the one of the specification: in step `j` the parameters after `j` updates are updated with the gradient
of the loss on sample number `j` of the batch sampler; there is a loss for every step, and an accuracy for every
`log_every`-th step. -/
theorem C128_training [Nonempty Acc] (hB : 0 < c.bufferSize) {st : TrainState Key M S Par Opt Acc}
    (h : Trains c clock T seed (.ok st)) :
    ∃ N par opt loss acc, StepsUntil clock T N ∧ Course c seed N par opt loss acc ∧
      st.params = par N ∧ st.optState = opt N ∧ st.losses = (List.range N).map loss ∧
      st.validation = (List.range (logged c.logEvery N)).map acc ∧
      st.files.validationParams = some (c.paramSampler (seqKey c.split seed 1) c.validationCount) := by
  unfold Trains at h
  split at h
  · cases h
  · rename_i st0 h0
    obtain ⟨N, par, opt, loss, acc, h1, h2⟩ := loop_inv (seed := seed) h st rfl (fun j hj => absurd hj (Nat.not_lt_zero j))
      (trainInit_inv hB h0)
    exact ⟨N, par, opt, loss, acc, h1, h2.course, h2.params, h2.optState, h2.losses, h2.validation, h2.fileMod⟩

/-- **C128.** All random keys are different elements of one sequence: the keys for batch sampler, validation moduli and
initialisation (positions 0 to 3), the key of step `j` and the key of evaluation `i` are at different positions. -/
theorem C128_keys {l : ℕ} (hl : l ≠ 0) :
    (∀ j, 4 ≤ stepKey l j) ∧ (∀ j j', stepKey l j = stepKey l j' → j = j') ∧
    (∀ i i', stepKey l (i * l) + 1 = stepKey l (i' * l) + 1 → i = i') ∧ ∀ i j, stepKey l (i * l) + 1 ≠ stepKey l j := by
  have hmono : ∀ j d, stepKey l j < stepKey l (j + d + 1) := by
    intro j d
    induction d with
    | zero => unfold stepKey; rw [add_zero, logged_succ]; omega
    | succ d ih => refine ih.trans ?_; unfold stepKey; rw [← add_assoc j, logged_succ l (j + d + 1)]; omega
  have hlt : ∀ {j j'}, j < j' → stepKey l j < stepKey l j' := by
    intro j j' h
    obtain ⟨d, rfl⟩ := Nat.exists_eq_add_of_lt h
    exact hmono j d
  have hinj : ∀ j j', stepKey l j = stepKey l j' → j = j' := by
    intro j j' h
    rcases lt_trichotomy j j' with h1 | h1 | h1
    · exact absurd h (hlt h1).ne
    · exact h1
    · exact absurd h (hlt h1).ne'
  refine ⟨fun j => by unfold stepKey; omega, hinj, fun i i' h => ?_, fun i j h => ?_⟩
  · exact Nat.eq_of_mul_eq_mul_right (Nat.pos_of_ne_zero hl) (hinj _ _ (Nat.succ.inj h))
  · have h2 : stepKey l (i * l + 1) = stepKey l (i * l) + 2 := by
      unfold stepKey
      rw [logged_succ, if_pos (Nat.mul_mod_left _ _)]
      omega
    rcases lt_trichotomy j (i * l) with h1 | rfl | h1
    · have := hlt h1; omega
    · omega
    · rcases (Nat.succ_le_of_lt h1).eq_or_lt with h3 | h3
      · rw [← h3, Nat.succ_eq_add_one, h2] at h
        omega
      · have := hlt h3
        rw [Nat.succ_eq_add_one, h2] at this
        omega

/-- **C128.** Number of evaluations: `i` is an evaluation made in the first `N` steps iff step `i * log_every` is one of them. -/
theorem C128_evaluations {l : ℕ} (hl : l ≠ 0) (i N : ℕ) : i < logged l N ↔ i * l < N := lt_logged hl i N

/-- **C128.** The outcome is determined by the seed and the clock. -/
theorem C128_unique {r r' : Except PyErr (TrainState Key M S Par Opt Acc)} (h : Trains c clock T seed r)
    (h' : Trains c clock T seed r') : r = r' := by
  unfold Trains at h h'
  cases hi : trainInit c seed with
  | error e =>
    rw [hi] at h h'
    exact Eq.trans h (Eq.symm h')
  | ok st0 =>
    rw [hi] at h h'
    have key : ∀ {i st r}, TrainLoop c clock T i st r → ∀ r', TrainLoop c clock T i st r' → r = r' := by
      intro i st r h
      induction h with
      | stop i st h1 =>
        intro r' h'
        cases h' with
        | stop => rfl
        | fail _ _ _ h => exact absurd h h1
        | next _ _ _ _ h => exact absurd h h1
      | fail i st e h1 h2 =>
        intro r' h'
        cases h' with
        | stop _ _ h => exact absurd h1 h
        | fail _ _ _ _ h => rw [h2] at h; cases h; rfl
        | next _ _ _ _ _ h => rw [h2] at h; cases h
      | next i st st1 r h1 h2 _ ih =>
        intro r' h'
        cases h' with
        | stop _ _ h => exact absurd h1 h
        | fail _ _ _ _ h => rw [h2] at h; cases h
        | next _ _ st2 _ _ h3 h4 => rw [h2] at h3; cases h3; exact ih r' h4
    exact key h r' h'

/-- **C128.** Training ends if some time the clock shows that the configured time is over. -/
theorem C128_ends (hT : ∃ N, T ≤ clock N - clock 0) : ∃ r, Trains c clock T seed r := by
  unfold Trains
  split
  · exact ⟨_, rfl⟩
  · rename_i st0 h0
    obtain ⟨N, hN⟩ := hT
    have key : ∀ k i st, i + k = N → ∃ r, TrainLoop c clock T i st r := by
      intro k
      induction k with
      | zero =>
        rintro i st rfl
        exact ⟨_, .stop _ _ (not_lt.2 hN)⟩
      | succ k ih =>
        intro i st hi
        by_cases hc : clock i - clock 0 < T
        · cases hs : trainStep c st with
          | error e => exact ⟨_, .fail _ _ e hc hs⟩
          | ok st' =>
            obtain ⟨r, hr⟩ := ih (i + 1) st' (by omega)
            exact ⟨r, .next _ _ _ _ hc hs hr⟩
        · exact ⟨_, .stop _ _ hc⟩
    exact key N 0 st0 (by omega)

/-- **C128.** If sampling, initialisation, loss and evaluation do not fail, training does not fail. -/
theorem C128_succeeds [Nonempty Acc] (hB : 0 < c.bufferSize) (hl : c.logEvery ≠ 0)
    (h1 : ∀ j, ∃ x, c.sample (seqKey c.split (seqKey c.split seed 0) j) = .ok x) (h2 : ∀ k m, ∃ p, c.init k m = .ok p)
    (h3 : ∀ p k j x, c.sample (seqKey c.split (seqKey c.split seed 0) j) = .ok x → ∃ y, c.valueAndGrad p k x = .ok y)
    (h4 : ∀ m k p, ∃ a, c.validate m k p = .ok a) (hT : ∃ N, T ≤ clock N - clock 0) :
    ∃ st, Trains c clock T seed (.ok st) := by
  obtain ⟨r, hr⟩ := C128_ends (c := c) (seed := seed) hT
  cases r with
  | ok st => exact ⟨st, hr⟩
  | error e =>
    exfalso
    have hr' := hr
    unfold Trains at hr'
    choose x hx using h1
    cases hi : trainInit c seed with
    | error e' =>
      unfold trainInit at hi
      simp only [prngInit] at hi
      obtain ⟨ss, hs, -⟩ := samplerInit_total c.split c.sample hB (seqKey c.split seed 0) x hx
      split at hi
      · rename_i e'' he
        rw [show (prngNext c.split seed).2 = seqKey c.split seed 0 from rfl, hs] at he
        cases he
      · split at hi
        · rename_i e'' he
          obtain ⟨p, hp⟩ := h2 _ _
          rw [hp] at he
          cases he
        · cases hi
    | ok st0 =>
      rw [hi] at hr'
      simp only at hr'
      have key : ∀ {i st r}, TrainLoop c clock T i st r → (∃ par opt loss acc, TrainInv c seed i par opt loss acc st) →
          ∀ e, r ≠ .error e := by
        intro i st r h
        induction h with
        | stop => rintro - e ⟨⟩
        | next i st st1 r hc hs hr ih =>
          rintro ⟨par, opt, loss, acc, hinv⟩
          exact ih (trainStep_inv hinv hs)
        | fail i st e' hc hs =>
          rintro ⟨par, opt, loss, acc, hinv⟩ e -
          obtain ⟨b, hg, hbi⟩ := hinv.sampler
          obtain ⟨x', hx', hn⟩ := next_good c.split c.sample hg
          rcases hn with ⟨hn, -⟩ | ⟨e, -, ⟨j, -, hj⟩, -⟩
          swap
          · rw [hx] at hj
            cases hj
          unfold trainStep updateStep at hs
          split at hs
          · rename_i heq
            rw [heq] at hn
            cases hn
          · rename_i sampler sample heq
            rw [heq] at hn
            obtain rfl := Except.ok.inj hn
            obtain ⟨y, hy⟩ := h3 st.params (prngNext c.split st.rns).2 _ sample hx'
            simp only [hy, if_neg hl] at hs
            split_ifs at hs
            obtain ⟨a, ha⟩ := h4 st.moduliValidation (prngNext c.split (prngNext c.split st.rns).1).2
              (c.applyUpdates st.params (c.optUpdate y.2 st.optState).1)
            rw [ha] at hs
            cases hs
      exact key hr' (trainInit_inv hB hi) e rfl

/-- **C129.** What is in the files after training: nothing but the validation moduli if no step was made. Otherwise the losses
up to the last step that is divisible by `log_every`, all accuracies, and the parameters after that step. -/
theorem C129_files_partial [Nonempty Acc] (hB : 0 < c.bufferSize) {st : TrainState Key M S Par Opt Acc}
    (h : Trains c clock T seed (.ok st)) :
    ∃ N par opt loss acc, StepsUntil clock T N ∧ Course c seed N par opt loss acc ∧ st.params = par N ∧
      st.losses = (List.range N).map loss ∧
      (N = 0 → st.files.losses = none ∧ st.files.validation = none ∧ st.files.finalParams = none) ∧
      (N ≠ 0 → lastLogged c.logEvery N < N ∧ c.logEvery ∣ lastLogged c.logEvery N ∧ N ≤ lastLogged c.logEvery N + c.logEvery ∧
        st.files.losses = some (st.losses.take (lastLogged c.logEvery N + 1)) ∧ st.files.validation = some st.validation ∧
        st.files.finalParams = some (par (lastLogged c.logEvery N + 1))) := by
  unfold Trains at h
  split at h
  · cases h
  · rename_i st0 h0
    obtain ⟨N, par, opt, loss, acc, h1, h2⟩ := loop_inv (seed := seed) h st rfl (fun j hj => absurd hj (Nat.not_lt_zero j))
      (trainInit_inv hB h0)
    refine ⟨N, par, opt, loss, acc, h1, h2.course, h2.params, h2.losses, h2.fileNone, fun hN => ?_⟩
    obtain ⟨hl, f1, f2, f3⟩ := h2.fileSome hN
    have hlt : lastLogged c.logEvery N < N := by
      unfold lastLogged
      have := Nat.div_mul_le_self (N - 1) c.logEvery
      omega
    refine ⟨hlt, Nat.dvd_mul_left .., ?_, ?_, f2, f3⟩
    · unfold lastLogged
      have := Nat.lt_div_mul_add (a := N - 1) (Nat.pos_of_ne_zero hl)
      omega
    · rw [f1, h2.losses, ← List.map_take, List.take_range, min_eq_left (by omega)]

/-- **C129.** If the last step is one with an evaluation, the files contain the results of the training. -/
theorem C129_complete_partial [Nonempty Acc] (hB : 0 < c.bufferSize) {st : TrainState Key M S Par Opt Acc}
    (h : Trains c clock T seed (.ok st)) {N : ℕ} (hN : StepsUntil clock T (N + 1)) (hd : c.logEvery ∣ N) :
    st.files.losses = some st.losses ∧ st.files.validation = some st.validation ∧ st.files.finalParams = some st.params := by
  obtain ⟨N', par, opt, loss, acc, h1, h2, h3, h4, -, h6⟩ := C129_files_partial hB h
  have hNN : N' = N + 1 := by
    rcases lt_trichotomy N' (N + 1) with h | h | h
    · exact absurd (hN.2 _ h) (not_lt.2 h1.1)
    · exact h
    · exact absurd (h1.2 _ h) (not_lt.2 hN.1)
  subst hNN
  obtain ⟨-, -, -, f1, f2, f3⟩ := h6 (Nat.succ_ne_zero N)
  have hl : lastLogged c.logEvery (N + 1) = N := by
    unfold lastLogged
    rw [Nat.add_sub_cancel, Nat.div_mul_cancel hd]
  rw [hl] at f1 f3
  refine ⟨?_, f2, by rw [f3, h3]⟩
  rw [f1, List.take_of_length_le]
  rw [h4]
  simp

end

/-- A setup in which the parameter is the number of updates made and the accuracy is the parameter. -/
def countSetup (every : ℕ) : Setup ℕ Unit ℕ ℕ Unit Unit Unit ℕ where
  split k := (2 * k + 1, 2 * k + 2)
  paramSampler _ _ := ()
  sample k := .ok k
  bufferSize := 10
  init _ _ := .ok 0
  optInit _ := ()
  valueAndGrad _ _ _ := .ok (0, ())
  optUpdate _ _ := ((), ())
  applyUpdates p _ := p + 1
  validate _ _ p := .ok p
  validationCount := 10
  logEvery := every

private theorem count_par {every N : ℕ} {par : ℕ → ℕ} {opt : ℕ → Unit} {loss : ℕ → ℝ} {acc : ℕ → ℕ}
    (h : Course (countSetup every) 0 N par opt loss acc) : ∀ j ≤ N, par j = j := by
  intro j
  induction j with
  | zero => exact fun _ => (Except.ok.inj h.init).symm
  | succ j ih =>
    intro hj
    obtain ⟨x, g, -, -, h3, -⟩ := h.step j hj
    rw [h3, ih (Nat.le_of_succ_le hj)]
    rfl

/-- Training with this setup does not fail, so the hypotheses of C128 and C129 are met. -/
theorem count_trains (every : ℕ) (he : every ≠ 0) (N : ℕ) : ∃ st, Trains (countSetup every) (fun i => (i : ℝ)) N 0 (.ok st) :=
  C128_succeeds (by norm_num [countSetup]) he (fun _ => ⟨_, rfl⟩) (fun _ _ => ⟨_, rfl⟩) (fun _ _ _ _ _ => ⟨_, rfl⟩)
    (fun _ _ _ => ⟨_, rfl⟩) ⟨N, by simp⟩

private theorem count_steps {N M : ℕ} (h : StepsUntil (fun i => (i : ℝ)) N M) : M = N := by
  have h1 := h.1
  simp only [Nat.cast_zero, sub_zero, Nat.cast_le] at h1
  by_contra hne
  have := h.2 N (by omega)
  simp at this

/-- **C129, violated.** The files named `final.params` and `losses` do not contain the final parameters and the losses of all
steps: with 1500 steps and `log_every = 1000` they are those after step 1000. -/
theorem C129_final_violated : ∃ st, Trains (countSetup 1000) (fun i => (i : ℝ)) (1500 : ℕ) 0 (.ok st) ∧ st.params = 1500 ∧
    st.files.finalParams = some 1001 ∧ st.losses.length = 1500 ∧ (∀ l, st.files.losses = some l → l.length = 1001) := by
  obtain ⟨st, hst⟩ := count_trains 1000 (by norm_num) 1500
  obtain ⟨N, par, opt, loss, acc, h1, h2, h3, h4, -, h6⟩ := C129_files_partial (by norm_num [countSetup]) hst
  obtain rfl := count_steps h1
  have hpar := count_par h2
  obtain ⟨-, -, -, f1, -, f3⟩ := h6 (by norm_num)
  refine ⟨st, hst, by rw [h3, hpar _ le_rfl], ?_, by rw [h4]; simp, fun l hl => ?_⟩
  · rw [f3, show lastLogged (countSetup 1000).logEvery 1500 = 1000 from rfl, hpar _ (by norm_num)]
  · rw [f1, show lastLogged (countSetup 1000).logEvery 1500 = 1000 from rfl] at hl
    rw [← Option.some.inj hl, h4]
    simp

/-- **C129, violated.** The accuracy that is logged as `Accuracy after 0 steps` is the accuracy after one update; the accuracy of
the initial network is not evaluated. -/
theorem C129_message_violated : ∃ st, Trains (countSetup 1000) (fun i => (i : ℝ)) (1500 : ℕ) 0 (.ok st) ∧
    st.validation = [1, 1001] := by
  obtain ⟨st, hst⟩ := count_trains 1000 (by norm_num) 1500
  obtain ⟨N, par, opt, loss, acc, h1, h2, h3, -, -, h6, -⟩ := C128_training (by norm_num [countSetup]) hst
  obtain rfl := count_steps h1
  have hpar := count_par h2
  refine ⟨st, hst, ?_⟩
  have hl : logged (countSetup 1000).logEvery 1500 = 2 := (logged_eq 1000 1499).trans (by norm_num)
  have a0 := h2.validation 0 (by norm_num [countSetup])
  have a1 := h2.validation 1 (by norm_num [countSetup])
  rw [hpar _ (by norm_num [countSetup])] at a0 a1
  rw [h6, hl]
  change [acc 0, acc 1] = _
  rw [← Except.ok.inj a0, ← Except.ok.inj a1]
  rfl

end Cyjax
