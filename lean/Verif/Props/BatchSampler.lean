import Verif.Lemmas.BatchSampler

/-! # Batch sampler (C80, C81) -/

namespace Cyjax

open Cyjax.Ml Cyjax.Util
open Cyjax.Polynomial (PyErr)

/-- **C80.** If sampling does not fail, then for every buffer size `B ≥ 1` the sampler can be made and the `n`
samples obtained by calling `next` are the samples of the first `n` keys of the sequence, in order. -/
theorem C80_stream {Key S : Type*} (split : Key → Key × Key) (sample : Key → S) (B : ℕ) (hB : 0 < B) (s0 : Key) :
    ∃ st, samplerInit split (fun k => .ok (sample k)) B s0 = .ok st ∧
      ∀ n, (samplerRun split (fun k => .ok (sample k)) B n st).1 =
        (prngTake split s0 n).1.map fun k => .ok (sample k) := by
  have hinit : ∃ st, samplerInit split (fun k => (.ok (sample k) : Except PyErr S)) B s0 = .ok st := by
    have hf := fillLoop_ok split (fun k => (.ok (sample k) : Except PyErr S)) s0 B 0 [] _ rfl
    rw [Function.iterate_zero, id] at hf
    unfold samplerInit newBuffer
    simp only
    cases hr : (fillLoop split (fun k => (.ok (sample k) : Except PyErr S)) B [] s0).2 with
    | error e =>
      obtain ⟨_, j, _, h⟩ := hf.2 e hr
      cases h
    | ok u => exact ⟨_, rfl⟩
  obtain ⟨st, hst⟩ := hinit
  refine ⟨st, hst, fun n => ?_⟩
  obtain ⟨hg, hi⟩ := init_good split _ hB s0 st hst
  obtain ⟨m, hm, xs, l1, l2, ⟨hmn, hl⟩ | ⟨e, _, _, _, _, j, _, h⟩⟩ := run_good split _ n 0 st hg
  · rw [hl]
    have hkeys : ∀ (n : ℕ) (s : Key), (prngTake split s n).1 = (List.range n).map (seqKey split s) := by
      intro n
      induction n with
      | zero => intro s; rfl
      | succ n ih =>
        intro s
        rw [List.range_succ_eq_map, List.map_cons, List.map_map]
        change (split s).1 :: (prngTake split (split s).2 n).1 = _
        rw [ih]
        rfl
    rw [hkeys, List.map_map]
    apply List.ext_getElem
    · simp [l1, hmn]
    · intro k h1 h2
      rw [List.length_map] at h1
      have := l2 k h1
      rw [hi] at this
      simp only [List.getElem_map, List.getElem_range, Function.comp]
      rw [← this]
      simp
  · cases h

/-- **C80.** It is enough that sampling succeeds for the keys of the sequence: sample number `j` is the one of key number
`j`, whatever the buffer size. -/
theorem C80_total {Key S : Type*} (split : Key → Key × Key) (sample : Key → Except PyErr S) (B : ℕ) (hB : 0 < B) (s0 : Key)
    (x : ℕ → S) (hx : ∀ j, sample (seqKey split s0 j) = .ok (x j)) :
    ∃ st, samplerInit split sample B s0 = .ok st ∧
      ∀ n, (samplerRun split sample B n st).1 = (List.range n).map fun j => .ok (x j) := by
  obtain ⟨st, hst, -⟩ := samplerInit_total split sample hB s0 x hx
  refine ⟨st, hst, fun n => ?_⟩
  obtain ⟨hg, hi⟩ := init_good split _ hB s0 st hst
  obtain ⟨m, hm, xs, l1, l2, ⟨hmn, hl⟩ | ⟨e, _, _, _, _, j, _, h⟩⟩ := run_good split _ n 0 st hg
  · rw [hl]
    apply List.ext_getElem
    · simp [l1, hmn]
    · intro k h1 h2
      rw [List.length_map] at h1
      have := l2 k h1
      rw [hi, hx] at this
      simp only [List.getElem_map, List.getElem_range]
      simp only [zero_add] at this
      exact this.symm
  · rw [hx] at h
    cases h

/-- **C80.** In particular the stream does not depend on the buffer size. -/
theorem C80_buffer_size {Key S : Type*} (split : Key → Key × Key) (sample : Key → S) (B B' : ℕ) (hB : 0 < B)
    (hB' : 0 < B') (s0 : Key) (n : ℕ) : ∃ st st', samplerInit split (fun k => .ok (sample k)) B s0 = .ok st ∧
      samplerInit split (fun k => .ok (sample k)) B' s0 = .ok st' ∧
      (samplerRun split (fun k => .ok (sample k)) B n st).1 =
        (samplerRun split (fun k => .ok (sample k)) B' n st').1 := by
  obtain ⟨st, h1, h2⟩ := C80_stream split sample B hB s0
  obtain ⟨st', h1', h2'⟩ := C80_stream split sample B' hB' s0
  exact ⟨st, st', h1, h1', by rw [h2, h2']⟩

/-- **C80.** With buffer size zero the sampler can be made, but `next` always raises an `IndexError`. -/
theorem C80_zero {Key S : Type*} (split : Key → Key × Key) (sample : Key → Except PyErr S) (s0 : Key) :
    ∃ st, samplerInit split sample 0 s0 = .ok st ∧
      ∀ n, (samplerRun split sample 0 n st).1 = List.replicate n (.error .indexError) :=
  ⟨⟨[], 0, s0⟩, rfl, fun n => run_dead split sample n _ le_rfl⟩

/-- Keys are numbers here, `split k = (2 k + 1, 2 k + 2)`; the sample is the key itself. Buffer size two. -/
example : ∃ st, samplerInit (fun k : ℕ => (2 * k + 1, 2 * k + 2)) (fun k => .ok k) 2 0 = .ok st ∧
    (samplerRun (fun k : ℕ => (2 * k + 1, 2 * k + 2)) (fun k => .ok k) 2 5 st).1 =
      [.ok 1, .ok 5, .ok 13, .ok 29, .ok 61] := by
  obtain ⟨st, h1, h2⟩ := C80_stream (fun k : ℕ => (2 * k + 1, 2 * k + 2)) (fun k => k) 2 (by norm_num) 0
  exact ⟨st, h1, by rw [h2]; rfl⟩

/-! ## C81 -/

/-- **C81.** Sampling may fail for some keys. Whatever the number of calls (going on after exceptions), the samples
returned are the first ones of the stream, in order and without repetition; either there was no exception, or after
the `m` samples there is the exception raised while refilling, and from then on every call raises an `IndexError`. -/
theorem C81_failure {Key S : Type*} (split : Key → Key × Key) (sample : Key → Except PyErr S) (B : ℕ) (hB : 0 < B)
    (s0 : Key) (st : Sampler Key S) (h : samplerInit split sample B s0 = .ok st) (n : ℕ) :
    ∃ xs : List S, (∀ j (h : j < xs.length), sample (seqKey split s0 j) = .ok xs[j]) ∧
      ((xs.length = n ∧ (samplerRun split sample B n st).1 = xs.map .ok) ∨
        ∃ e, xs.length < n ∧ (samplerRun split sample B n st).1 =
          xs.map .ok ++ .error e :: List.replicate (n - xs.length - 1) (.error .indexError) ∧
          ∃ j, xs.length < j ∧ j ≤ xs.length + B ∧ sample (seqKey split s0 j) = .error e) := by
  obtain ⟨hg, hi⟩ := init_good split sample hB s0 st h
  obtain ⟨m, hm, xs, l1, l2, l3⟩ := run_good split sample n 0 st hg
  simp only [hi, zero_add] at l2 l3
  refine ⟨xs, l2, ?_⟩
  rcases l3 with ⟨hmn, hl⟩ | ⟨e, hl, hmn, _, _, j, hj, hje⟩
  · exact Or.inl ⟨by omega, hl⟩
  · exact Or.inr ⟨e, by omega, by rw [hl, l1], m + 1 + j, by omega, by omega, hje⟩

/-- **C81.** At the exception, one sample that had been generated is lost: the failing call would have returned sample
number `m`, which exists, but no call ever returns it. It is the last one of a buffer. -/
theorem C81_lost {Key S : Type*} (split : Key → Key × Key) (sample : Key → Except PyErr S) (B : ℕ) (hB : 0 < B)
    (s0 : Key) (st : Sampler Key S) (h : samplerInit split sample B s0 = .ok st) (n : ℕ) (xs : List S) (e : PyErr)
    (rest : List (Except PyErr S)) (hr : (samplerRun split sample B n st).1 = xs.map .ok ++ .error e :: rest) :
    (∃ x, sample (seqKey split s0 xs.length) = .ok x) ∧ B ∣ xs.length + 1 ∧
      rest = List.replicate rest.length (.error .indexError) := by
  obtain ⟨hg, hi⟩ := init_good split sample hB s0 st h
  obtain ⟨m, hm, ys, l1, l2, l3⟩ := run_good split sample n 0 st hg
  simp only [hi, zero_add] at l2 l3
  have key : ∀ (ys : List S) (r' : List (Except PyErr S)) (e' : PyErr) (xs : List S),
      xs.map Except.ok ++ .error e :: rest = ys.map Except.ok ++ .error e' :: r' →
      xs.length = ys.length ∧ rest = r' := by
    intro ys r' e'
    induction ys with
    | nil =>
      intro xs h
      cases xs with
      | nil =>
        simp only [List.map_nil, List.nil_append, List.cons.injEq] at h
        exact ⟨rfl, h.2⟩
      | cons x xs => simp at h
    | cons y ys ih =>
      intro xs h
      cases xs with
      | nil => simp at h
      | cons x xs =>
        simp only [List.map_cons, List.cons_append, List.cons.injEq] at h
        obtain ⟨a, b⟩ := ih xs h.2
        exact ⟨by simp [a], b⟩
  rcases l3 with ⟨hmn, hl⟩ | ⟨e', hl, hmn, hx, hmod, _⟩
  · rw [hl] at hr
    have : (Except.error e : Except PyErr S) ∈ ys.map Except.ok := by rw [hr]; simp
    simp at this
  · rw [hl] at hr
    obtain ⟨a, b⟩ := key _ _ _ _ hr.symm
    refine ⟨by rw [a, l1]; exact hx, ?_, ?_⟩
    · rw [a, l1]
      exact Nat.dvd_of_mod_eq_zero (by simpa using hmod)
    · rw [b]; simp

/-- Buffer size two and failure for the third key: the first sample is returned, the second is lost. -/
example : ∃ st, samplerInit (fun k : ℕ => (2 * k + 1, 2 * k + 2)) (fun k => if k = 13 then .error .valueError else .ok k)
      2 0 = .ok st ∧
    (samplerRun (fun k : ℕ => (2 * k + 1, 2 * k + 2)) (fun k => if k = 13 then .error .valueError else .ok k) 2 4 st).1 =
      [.ok 1, .error .valueError, .error .indexError, .error .indexError] := ⟨_, rfl, rfl⟩

end Cyjax
