import Verif.Model.Ml
import Verif.Spec.Keys
import Mathlib.Logic.Function.Iterate
import Mathlib.Tactic.Linarith

/-! # Lemmas for the batch sampler -/

namespace Cyjax

open Cyjax.Ml Cyjax.Util
open Cyjax.Polynomial (PyErr)

section

variable {Key S : Type*} (split : Key → Key × Key) (sample : Key → Except PyErr S)

theorem fillLoop_ok (s0 : Key) : ∀ (n b : ℕ) (acc : List S) (r : (List S × Key) × Except PyErr Unit),
    fillLoop split sample n acc ((fun k => (split k).2)^[b] s0) = r →
    (r.2 = .ok () → ∃ l : List S, r.1.1 = acc ++ l ∧ l.length = n ∧
      (∀ j (h : j < l.length), sample (seqKey split s0 (b + j)) = .ok l[j]) ∧
      r.1.2 = (fun k => (split k).2)^[b + n] s0) ∧
    (∀ e, r.2 = .error e → r.1.1.length < acc.length + n ∧ ∃ j < n, sample (seqKey split s0 (b + j)) = .error e) := by
  intro n
  induction n with
  | zero =>
    intro b acc r h
    subst h
    exact ⟨fun _ => ⟨[], by simp [fillLoop], rfl, fun j h => absurd h (by simp), rfl⟩, fun e h => by cases h⟩
  | succ n ih =>
    intro b acc r h
    have hk : (split ((fun k => (split k).2)^[b] s0)).1 = seqKey split s0 (b + 0) := rfl
    simp only [fillLoop, prngNext] at h
    cases hs : sample (split ((fun k => (split k).2)^[b] s0)).1 with
    | error e =>
      rw [hs] at h
      subst h
      refine ⟨fun h => (by cases h), fun e' he => ?_⟩
      refine ⟨?_, 0, Nat.succ_pos n, ?_⟩
      · simp only; omega
      · rw [← hk, hs]
        have := Except.error.inj he
        rw [this]
    | ok x =>
      rw [hs] at h
      simp only at h
      rw [← Function.iterate_succ_apply' (fun k => (split k).2) b s0] at h
      obtain ⟨g1, g2⟩ := ih (b + 1) (acc ++ [x]) r h
      constructor
      · intro hr
        obtain ⟨l, l1, l2, l3, l4⟩ := g1 hr
        refine ⟨x :: l, by rw [l1]; simp, by rw [List.length_cons, l2], ?_, by rw [l4]; congr 1; omega⟩
        intro j hj
        cases j with
        | zero => rw [← hk, hs]; rfl
        | succ j =>
          have := l3 j (by simpa using hj)
          rw [show b + 1 + j = b + (j + 1) by omega] at this
          rw [this]; rfl
      · intro e he
        obtain ⟨a1, j, a2, a3⟩ := g2 e he
        refine ⟨by simp at a1; omega, j + 1, by omega, ?_⟩
        rw [← a3]
        congr 2
        omega

/-- The buffer holds samples `b, ..., b + B - 1` of the stream. -/
structure SamplerGood (B : ℕ) (s0 : Key) (b : ℕ) (st : Sampler Key S) : Prop where
  len : st.buffer.length = B
  vals : ∀ j (h : j < st.buffer.length), sample (seqKey split s0 (b + j)) = .ok st.buffer[j]
  idx : st.index < B
  rns : st.rns = (fun k => (split k).2)^[b + B] s0

theorem next_good {B : ℕ} {s0 : Key} {b : ℕ} {st : Sampler Key S} (h : SamplerGood split sample B s0 b st) :
    ∃ x, sample (seqKey split s0 (b + st.index)) = .ok x ∧
      (((samplerNext split sample B st).2 = .ok x ∧
        ∃ b', SamplerGood split sample B s0 b' (samplerNext split sample B st).1 ∧
          b' + (samplerNext split sample B st).1.index = b + st.index + 1) ∨
      (∃ e, (samplerNext split sample B st).2 = .error e ∧
        (∃ j < B, sample (seqKey split s0 (b + B + j)) = .error e) ∧
        st.index + 1 = B ∧
        (samplerNext split sample B st).1.buffer.length < B ∧ (samplerNext split sample B st).1.index = B)) := by
  have hi : st.index < st.buffer.length := by rw [h.len]; exact h.idx
  refine ⟨st.buffer[st.index], h.vals _ hi, ?_⟩
  unfold samplerNext
  rw [List.getElem?_eq_getElem hi]
  simp only
  by_cases hB : st.index + 1 = B
  · rw [if_pos hB]
    unfold newBuffer
    simp only
    have hf := fillLoop_ok split sample s0 B (b + B) [] _ rfl
    rw [← h.rns] at hf
    cases hr : (fillLoop split sample B [] st.rns).2 with
    | error e =>
      right
      obtain ⟨a1, j, a2, a3⟩ := hf.2 e hr
      exact ⟨e, rfl, ⟨j, a2, a3⟩, hB, by simpa using a1, hB⟩
    | ok u =>
      left
      obtain ⟨l, l1, l2, l3, l4⟩ := hf.1 hr
      rw [List.nil_append] at l1
      refine ⟨rfl, b + B, ⟨?_, ?_, ?_, ?_⟩, ?_⟩
      · simp only; rw [l1, l2]
      · intro j hj
        simp only [l1] at hj ⊢
        exact l3 j hj
      · simp only; omega
      · simp only; rw [l4]
      · simp only; omega
  · rw [if_neg hB]
    left
    have hidx := h.idx
    refine ⟨rfl, b, ⟨h.len, h.vals, ?_, h.rns⟩, ?_⟩
    · simp only; omega
    · simp only; omega

theorem init_good {B : ℕ} (hB : 0 < B) (s0 : Key) (st : Sampler Key S)
    (h : samplerInit split sample B s0 = .ok st) : SamplerGood split sample B s0 0 st ∧ st.index = 0 := by
  unfold samplerInit newBuffer at h
  simp only at h
  have hf := fillLoop_ok split sample s0 B 0 [] _ rfl
  rw [Function.iterate_zero, id] at hf
  cases hr : (fillLoop split sample B [] s0).2 with
  | error e => rw [hr] at h; cases h
  | ok u =>
    rw [hr] at h
    obtain ⟨l, l1, l2, l3, l4⟩ := hf.1 hr
    rw [List.nil_append] at l1
    have := Except.ok.inj h
    subst this
    refine ⟨⟨?_, ?_, ?_, ?_⟩, rfl⟩
    · simp only; rw [l1, l2]
    · intro j hj
      simp only [l1] at hj ⊢
      exact l3 j hj
    · exact hB
    · simp only; rw [l4]

theorem run_dead {B : ℕ} : ∀ (n : ℕ) (st : Sampler Key S), st.buffer.length ≤ st.index →
    (samplerRun split sample B n st).1 = List.replicate n (.error .indexError)
  | 0, _, _ => rfl
  | n + 1, st, h => by
    have hn : samplerNext split sample B st = (st, .error .indexError) := by
      unfold samplerNext
      rw [List.getElem?_eq_none h]
    unfold samplerRun
    simp only [hn]
    rw [run_dead n st h, List.replicate_succ]

theorem run_good {B : ℕ} {s0 : Key} : ∀ (n b : ℕ) (st : Sampler Key S), SamplerGood split sample B s0 b st →
    ∃ m ≤ n, ∃ xs : List S, xs.length = m ∧
      (∀ j (h : j < xs.length), sample (seqKey split s0 (b + st.index + j)) = .ok xs[j]) ∧
      ((m = n ∧ (samplerRun split sample B n st).1 = xs.map .ok) ∨
        ∃ e, (samplerRun split sample B n st).1 = xs.map .ok ++ .error e :: List.replicate (n - m - 1) (.error .indexError) ∧
          m < n ∧ (∃ x, sample (seqKey split s0 (b + st.index + m)) = .ok x) ∧
          (b + st.index + m + 1) % B = b % B ∧
          ∃ j < B, sample (seqKey split s0 (b + st.index + m + 1 + j)) = .error e)
  | 0, b, st, _ => ⟨0, le_rfl, [], rfl, fun j h => absurd h (by simp), Or.inl ⟨rfl, rfl⟩⟩
  | n + 1, b, st, h => by
    obtain ⟨x, hx, hn | ⟨e, he, hj, hB, hlen, hidx⟩⟩ := next_good split sample h
    · obtain ⟨hr, b', hg, hb'⟩ := hn
      obtain ⟨m, hm, xs, l1, l2, l3⟩ := run_good n b' _ hg
      rw [hb'] at l2 l3
      have hrun : (samplerRun split sample B (n + 1) st).1 =
          (samplerNext split sample B st).2 :: (samplerRun split sample B n (samplerNext split sample B st).1).1 := rfl
      have hmod : b' % B = b % B := by
        have h1 : b' = b ∨ b' = b + B := by
          have hi1 := hg.idx
          have hi2 := h.idx
          unfold samplerNext at hb' hi1
          rw [List.getElem?_eq_getElem (by rw [h.len]; exact h.idx)] at hb' hi1
          simp only at hb' hi1
          by_cases hB : st.index + 1 = B
          · rw [if_pos hB] at hb' hi1
            unfold newBuffer at hb' hi1
            simp only at hb' hi1
            cases hq : (fillLoop split sample B [] st.rns).2 with
            | error e =>
              rw [hq] at hi1
              simp only at hi1
              omega
            | ok u =>
              rw [hq] at hb'
              simp only at hb'
              omega
          · rw [if_neg hB] at hb'
            simp only at hb'
            omega
        rcases h1 with rfl | rfl
        · rfl
        · rw [Nat.add_mod_right]
      refine ⟨m + 1, by omega, x :: xs, by rw [List.length_cons, l1], ?_, ?_⟩
      · intro j hj
        cases j with
        | zero => rw [add_zero, hx]; rfl
        | succ j =>
          have := l2 j (by simpa using hj)
          rw [show b + st.index + 1 + j = b + st.index + (j + 1) by omega] at this
          rw [this]; rfl
      · rw [hrun, hr]
        rcases l3 with ⟨hmn, hl⟩ | ⟨e, hl, hmn, hy, hmod', hj⟩
        · left
          exact ⟨by omega, by rw [hl, List.map_cons]⟩
        · right
          refine ⟨e, ?_, by omega, ?_, ?_, ?_⟩
          · rw [hl, List.map_cons, List.cons_append, show n + 1 - (m + 1) - 1 = n - m - 1 by omega]
          · rw [show b + st.index + (m + 1) = b + st.index + 1 + m by omega]; exact hy
          · rw [show b + st.index + (m + 1) + 1 = b + st.index + 1 + m + 1 by omega, hmod', hmod]
          · rw [show b + st.index + (m + 1) + 1 = b + st.index + 1 + m + 1 by omega]; exact hj
    · have hrun : (samplerRun split sample B (n + 1) st).1 =
          (samplerNext split sample B st).2 :: (samplerRun split sample B n (samplerNext split sample B st).1).1 := rfl
      refine ⟨0, Nat.zero_le _, [], rfl, fun j h => absurd h (by simp), Or.inr ⟨e, ?_, Nat.succ_pos n, ⟨x, hx⟩, ?_, ?_⟩⟩
      · rw [hrun, he, run_dead split sample n _ (by omega)]
        rfl
      · rw [show b + st.index + 0 + 1 = b + B by omega, Nat.add_mod_right]
      · rw [show b + st.index + 0 + 1 = b + B by omega]
        exact hj

end

theorem samplerInit_total {Key S : Type*} (split : Key → Key × Key) (sample : Key → Except PyErr S) {B : ℕ} (hB : 0 < B) (s0 : Key)
    (x : ℕ → S) (hx : ∀ j, sample (seqKey split s0 j) = .ok (x j)) :
    ∃ st, samplerInit split sample B s0 = .ok st ∧ SamplerGood split sample B s0 0 st := by
  have hinit : ∃ st, samplerInit split sample B s0 = .ok st := by
    have hf := fillLoop_ok split sample s0 B 0 [] _ rfl
    rw [Function.iterate_zero, id] at hf
    unfold samplerInit newBuffer
    simp only
    cases hr : (fillLoop split sample B [] s0).2 with
    | error e =>
      obtain ⟨_, j, _, h⟩ := hf.2 e hr
      rw [hx] at h
      cases h
    | ok u => exact ⟨_, rfl⟩
  obtain ⟨st, hst⟩ := hinit
  exact ⟨st, hst, (init_good split _ hB s0 st hst).1⟩

end Cyjax
