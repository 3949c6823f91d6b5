import Verif.Model.Keys
import Verif.Spec.KeyTree
import Mathlib.Logic.Relation

/-! # Traces of key uses -/

namespace Cyjax.Keys

open Cyjax.Spec Cyjax.Util

variable {Key : Type*} {child : Key → ℕ → ℕ → Key}

/-- The keys derived from a key. -/
def Below (child : Key → ℕ → ℕ → Key) : Key → Key → Prop := Relation.ReflTransGen fun k k' => ∃ num i, i < num ∧ k' = child k num i

theorem Below.refl (k : Key) : Below child k k := Relation.ReflTransGen.refl

theorem Below.trans {a b c : Key} (h : Below child a b) (h' : Below child b c) : Below child a c := Relation.ReflTransGen.trans h h'

theorem Below.child' {k : Key} {num i : ℕ} (h : i < num) : Below child k (child k num i) :=
  Relation.ReflTransGen.single ⟨num, i, h, rfl⟩

variable (T : KeyTree child)

/-- The key a key was made from. -/
def up (k : Key) : Key := ((T.origin k).map Prod.fst).getD k

include T

theorem up_child (k : Key) {num i : ℕ} (h : i < num) : up T (child k num i) = k := by
  unfold up
  rw [T.origin_child k num i h]
  rfl

theorem below_up {a x : Key} (h : Below child a x) : ∃ m, T.rank x = T.rank a + m ∧ (up T)^[m] x = a := by
  unfold Below at h
  induction h with
  | refl => exact ⟨0, rfl, rfl⟩
  | tail h1 h2 ih =>
    obtain ⟨m, h3, h4⟩ := ih
    obtain ⟨num, i, hi, rfl⟩ := h2
    refine ⟨m + 1, ?_, ?_⟩
    · rw [T.rank_child _ _ _ hi, h3]
      ring
    · rw [Function.iterate_succ_apply, up_child T _ hi, h4]

theorem below_rank {a x : Key} (h : Below child a x) : T.rank a ≤ T.rank x := by
  obtain ⟨m, h1, -⟩ := below_up T h
  omega

theorem below_unique {a b x : Key} (ha : Below child a x) (hb : Below child b x) (h : T.rank a = T.rank b) : a = b := by
  obtain ⟨m, h1, h2⟩ := below_up T ha
  obtain ⟨m', h3, h4⟩ := below_up T hb
  have : m = m' := by omega
  subst this
  rw [← h2, h4]

theorem child_inj {k : Key} {num i j : ℕ} (hi : i < num) (hj : j < num) (h : child k num i = child k num j) : i = j := by
  have h1 := T.origin_child k num i hi
  rw [h, T.origin_child k num j hj] at h1
  injection h1 with h1
  injection h1 with _ h1
  exact h1.symm

theorem child_disjoint {k x : Key} {num i j : ℕ} (hi : i < num) (hj : j < num) (hij : i ≠ j) (h1 : Below child (child k num i) x)
    (h2 : Below child (child k num j) x) : False :=
  hij (child_inj T hi hj (below_unique T h1 h2 (by rw [T.rank_child _ _ _ hi, T.rank_child _ _ _ hj])))

theorem not_below_child {k : Key} {num i : ℕ} (hi : i < num) : ¬ Below child (child k num i) k := fun h => by
  have := below_rank T h
  rw [T.rank_child _ _ _ hi] at this
  omega

omit T in
/-- All keys of a trace are derived from a key. -/
def Inside (child : Key → ℕ → ℕ → Key) (k : Key) (t : Trace Key) : Prop := ∀ e ∈ t, Below child k e.1

omit T in
/-- No key of a trace is derived from a key. -/
def Fresh (child : Key → ℕ → ℕ → Key) (k : Key) (t : Trace Key) : Prop := ∀ e ∈ t, ¬ Below child k e.1

omit T in
theorem Inside.append {k : Key} {t t' : Trace Key} (h : Inside child k t) (h' : Inside child k t') : Inside child k (t ++ t') :=
  fun e he => (List.mem_append.1 he).elim (h e) (h' e)

omit T in
theorem Fresh.append {k : Key} {t t' : Trace Key} (h : Fresh child k t) (h' : Fresh child k t') : Fresh child k (t ++ t') :=
  fun e he => (List.mem_append.1 he).elim (h e) (h' e)

omit T in
theorem Inside.mono {k k' : Key} {t : Trace Key} (h : Inside child k' t) (hk : Below child k k') : Inside child k t :=
  fun e he => hk.trans (h e he)

omit T in
theorem Fresh.mono {k k' : Key} {t : Trace Key} (h : Fresh child k t) (hk : Below child k k') : Fresh child k' t :=
  fun e he h' => h e he (hk.trans h')

omit T in
theorem fresh_of_disjoint {k k' : Key} {t : Trace Key} (h : Inside child k t)
    (hd : ∀ x, Below child k x → Below child k' x → False) : Fresh child k' t := fun e he h' => hd e.1 (h e he) h'

omit T in
theorem singleUse_append {k : Key} {t t' : Trace Key} (h : SingleUse t) (h' : SingleUse t') (hf : Fresh child k t)
    (hi : Inside child k t') : SingleUse (t ++ t') := by
  unfold SingleUse at *
  rw [List.map_append, List.nodup_append]
  refine ⟨h, h', fun a ha b hb hab => ?_⟩
  obtain ⟨e, he, rfl⟩ := List.mem_map.1 ha
  obtain ⟨e', he', rfl⟩ := List.mem_map.1 hb
  exact hf e he (hab ▸ hi e' he')

/-- A function that consumes keys derived from its own, each once. -/
def Proper (f : Key → Trace Key) : Prop := ∀ k, SingleUse (f k) ∧ Inside child k (f k)

omit T in
theorem useDraw_proper : Proper (child := child) (useDraw (Key := Key)) := fun k =>
  ⟨List.nodup_singleton _, fun e he => by rw [List.mem_singleton.1 he]; exact Below.refl k⟩

omit T in
theorem cons_inside {k : Key} {u : Use} {t : Trace Key} (h : Inside child k t) : Inside child k ((k, u) :: t) :=
  fun e he => (List.mem_cons.1 he).elim (fun h => h ▸ Below.refl k) (h e)

omit T in
theorem each_map (num : ℕ) (k : Key) :
    (useEach child num k).map Prod.fst = k :: (List.range num).map (child k num) := by
  unfold useEach splitMany useDraw
  rw [List.map_cons, List.map_flatMap]
  simp [List.flatMap_map, ← List.map_eq_flatMap]

omit T in
theorem mem_each {num : ℕ} {k : Key} {e : Key × Use} (he : e ∈ useEach child num k) : e.1 = k ∨ ∃ i < num, e.1 = child k num i := by
  have h : e.1 ∈ (useEach child num k).map Prod.fst := List.mem_map_of_mem he
  rw [each_map, List.mem_cons] at h
  refine h.imp id fun h => ?_
  obtain ⟨i, hi, h⟩ := List.mem_map.1 h
  exact ⟨i, List.mem_range.1 hi, h.symm⟩

theorem useEach_proper (num : ℕ) : Proper (child := child) (useEach child num) := fun k => by
  constructor
  · unfold SingleUse
    rw [each_map, List.nodup_cons]
    refine ⟨fun h => ?_, ?_⟩
    · obtain ⟨i, hi, h⟩ := List.mem_map.1 h
      have := T.rank_child k num i (List.mem_range.1 hi)
      rw [h] at this
      omega
    · exact List.nodup_range.map_on fun i hi j hj => child_inj T (List.mem_range.1 hi) (List.mem_range.1 hj)
  · intro e he
    rcases mem_each he with h | ⟨i, hi, h⟩
    · rw [h]
      exact Below.refl k
    · rw [h]
      exact Below.child' hi

theorem useSample_proper (num : ℕ) : Proper (child := child) (useSample child num) := fun k => by
  obtain ⟨h1, h2⟩ := useEach_proper T num (child k 2 1)
  have hin : Inside child (child k 2 1) (useEach child num (child k 2 1)) := h2
  have h0 := (useDraw_proper (child := child) (child k 2 0)).2
  have hs : SingleUse (useDraw (child k 2 0) ++ useEach child num (child k 2 1)) :=
    singleUse_append (useDraw_proper (child := child) (child k 2 0)).1 h1
      (fresh_of_disjoint h0 fun x => child_disjoint T (by norm_num) (by norm_num) (by norm_num)) hin
  have hi : ∀ e ∈ useDraw (child k 2 0) ++ useEach child num (child k 2 1), ∃ i < 2, Below child (child k 2 i) e.1 := fun e he =>
    (List.mem_append.1 he).elim (fun h => ⟨0, by norm_num, h0 e h⟩) fun h => ⟨1, by norm_num, hin e h⟩
  constructor
  · refine List.nodup_cons.2 ⟨fun h => ?_, hs⟩
    obtain ⟨e, he, h⟩ := List.mem_map.1 h
    obtain ⟨i, hi, h'⟩ := hi e he
    rw [show e.1 = k from h] at h'
    exact not_below_child T hi h'
  · refine cons_inside fun e he => ?_
    obtain ⟨i, hi, h'⟩ := hi e he
    exact (Below.child' hi).trans h'

theorem useSequence_proper (fs : List (Key → Trace Key)) (hfs : ∀ f ∈ fs, Proper (child := child) f) (r : Key) :
    SingleUse (useSequence child fs r).1 ∧ Inside child r (useSequence child fs r).1 ∧ Below child r (useSequence child fs r).2 ∧
      Fresh child (useSequence child fs r).2 (useSequence child fs r).1 := by
  induction fs generalizing r with
  | nil => exact ⟨List.nodup_nil, fun e he => absurd he List.not_mem_nil, Below.refl r, fun e he => absurd he List.not_mem_nil⟩
  | cons f fs ih =>
    obtain ⟨i1, i2, i3, i4⟩ := ih (fun g hg => hfs g (List.mem_cons_of_mem _ hg)) (child r 2 1)
    obtain ⟨f1, f2⟩ := hfs f List.mem_cons_self (child r 2 0)
    set rest := useSequence child fs (child r 2 1) with hrest
    have htr : (useSequence child (f :: fs) r).1 = (r, .split 2) :: f (child r 2 0) ++ rest.1 := rfl
    have hst : (useSequence child (f :: fs) r).2 = rest.2 := rfl
    rw [htr, hst]
    have hd : ∀ x, Below child (child r 2 0) x → Below child (child r 2 1) x → False := fun x =>
      child_disjoint T (by norm_num) (by norm_num) (by norm_num)
    have hsf : SingleUse ((r, Use.split 2) :: f (child r 2 0)) := by
      refine List.nodup_cons.2 ⟨fun h => ?_, f1⟩
      obtain ⟨e, he, h⟩ := List.mem_map.1 h
      have := f2 e he
      rw [show e.1 = r from h] at this
      exact not_below_child T (by norm_num) this
    have hfr : Fresh child (child r 2 1) ((r, Use.split 2) :: f (child r 2 0)) := fun e he => by
      rcases List.mem_cons.1 he with rfl | h
      · exact not_below_child T (by norm_num)
      · exact fresh_of_disjoint f2 hd e h
    refine ⟨singleUse_append hsf i1 hfr i2, ?_, (Below.child' (by norm_num)).trans i3, Fresh.append (hfr.mono i3) i4⟩
    exact Inside.append (cons_inside (f2.mono (Below.child' (by norm_num)))) (i2.mono (Below.child' (by norm_num)))

theorem useBuffer_proper (bufferSize num : ℕ) (r : Key) :
    SingleUse (useBuffer child bufferSize num r).1 ∧ Inside child r (useBuffer child bufferSize num r).1 ∧
      Below child r (useBuffer child bufferSize num r).2 ∧
      Fresh child (useBuffer child bufferSize num r).2 (useBuffer child bufferSize num r).1 :=
  useSequence_proper T _ (fun f hf => by rw [List.eq_of_mem_replicate hf]; exact useSample_proper T num) r

/-- What holds for the script after a trace. -/
structure ScriptOk (child : Key → ℕ → ℕ → Key) (t : Trace Key) (st : ScriptState Key) : Prop where
  single : SingleUse t
  rns : Fresh child st.rns t
  sampler : Fresh child st.sampler t
  disjoint : ∀ x, Below child st.rns x → Below child st.sampler x → False

theorem useInit_ok (bufferSize num : ℕ) (seed : Key) :
    ScriptOk child (useInit child bufferSize num seed).1 (useInit child bufferSize num seed).2 := by
  obtain ⟨b1, b2, b3, b4⟩ := useBuffer_proper T bufferSize num (child seed 2 0)
  obtain ⟨s1, s2, s3, s4⟩ := useSequence_proper T [useDraw, useDraw, useDraw]
    (fun f hf => by
      have : f = useDraw := by simpa using hf
      rw [this]
      exact useDraw_proper) (child seed 2 1)
  set t0 := useBuffer child bufferSize num (child seed 2 0)
  set t1 := useSequence child [useDraw, useDraw, useDraw] (child seed 2 1)
  have h1 : (useInit child bufferSize num seed).1 = (seed, .split 2) :: t0.1 ++ t1.1 := rfl
  have h2 : (useInit child bufferSize num seed).2 = ⟨t1.2, 0, t0.2⟩ := rfl
  rw [h1, h2]
  have hd : ∀ x, Below child (child seed 2 0) x → Below child (child seed 2 1) x → False := fun x =>
    child_disjoint T (by norm_num) (by norm_num) (by norm_num)
  have hsf : SingleUse ((seed, Use.split 2) :: t0.1) := by
    refine List.nodup_cons.2 ⟨fun h => ?_, b1⟩
    obtain ⟨e, he, h⟩ := List.mem_map.1 h
    have := b2 e he
    rw [show e.1 = seed from h] at this
    exact not_below_child T (by norm_num) this
  have hseed : ∀ i < 2, ∀ k, Below child (child seed 2 i) k → ¬ Below child k seed := fun i hi k hk h =>
    not_below_child T hi (hk.trans h)
  have hfr : Fresh child (child seed 2 1) ((seed, Use.split 2) :: t0.1) := fun e he => by
    rcases List.mem_cons.1 he with rfl | h
    · exact not_below_child T (by norm_num)
    · exact fresh_of_disjoint b2 hd e h
  refine ⟨singleUse_append hsf s1 hfr s2, Fresh.append (hfr.mono s3) s4, ?_, fun x h h' => hd x (b3.trans h') (s3.trans h)⟩
  refine Fresh.append (fun e he => ?_) (fresh_of_disjoint s2 fun x h h' => hd x (b3.trans h') h)
  rcases List.mem_cons.1 he with rfl | h
  · exact hseed 0 (by norm_num) _ b3
  · exact b4 e h

theorem useStep_ok (bufferSize num logEvery step : ℕ) {t : Trace Key} {st : ScriptState Key} (h : ScriptOk child t st) :
    ScriptOk child (t ++ (useStep child bufferSize num logEvery step st).1) (useStep child bufferSize num logEvery step st).2 := by
  obtain ⟨h1, h2, h3, h4⟩ := h
  obtain ⟨s1, s2, s3, s4⟩ := useSequence_proper T (if step % logEvery = 0 then [useDraw, useDraw] else [useDraw])
    (fun f hf => by
      have : f = useDraw := by
        split at hf
        · simpa using hf
        · simpa using hf
      rw [this]
      exact useDraw_proper) st.rns
  set t1 := useSequence child (if step % logEvery = 0 then [useDraw, useDraw] else [useDraw]) st.rns with ht1
  have key : ∃ (t0 : Trace Key) (index : ℕ) (s : Key), (useStep child bufferSize num logEvery step st) =
      (t0 ++ t1.1, ⟨t1.2, index, s⟩) ∧ SingleUse t0 ∧ Inside child st.sampler t0 ∧ Below child st.sampler s ∧ Fresh child s t0 := by
    unfold useStep
    by_cases hb : st.index + 1 = bufferSize
    · rw [if_pos hb]
      exact ⟨_, _, _, rfl, useBuffer_proper T bufferSize num st.sampler⟩
    · rw [if_neg hb]
      exact ⟨[], _, st.sampler, rfl, List.nodup_nil, fun e he => absurd he List.not_mem_nil, Below.refl _,
        fun e he => absurd he List.not_mem_nil⟩
  obtain ⟨t0, index, s, e, b1, b2, b3, b4⟩ := key
  rw [e]
  change ScriptOk child (t ++ (t0 ++ t1.1)) ⟨t1.2, index, s⟩
  rw [← List.append_assoc]
  have hr0 : Fresh child st.rns t0 := fresh_of_disjoint b2 fun x h h' => h4 x h' h
  refine ⟨singleUse_append (singleUse_append h1 b1 h3 b2) s1 (Fresh.append h2 hr0) s2, ?_, ?_,
    fun x h h' => h4 x (s3.trans h) (b3.trans h')⟩
  · exact Fresh.append (Fresh.append (h2.mono s3) (hr0.mono s3)) s4
  · exact Fresh.append (Fresh.append (h3.mono b3) b4) (fresh_of_disjoint s2 fun x h h' => h4 x h (b3.trans h'))

theorem useLoop_ok (bufferSize num logEvery N step : ℕ) {t : Trace Key} {st : ScriptState Key} (h : ScriptOk child t st) :
    ScriptOk child (t ++ (useLoop child bufferSize num logEvery N step st).1)
      (useLoop child bufferSize num logEvery N step st).2 := by
  induction N generalizing t st step with
  | zero =>
    change ScriptOk child (t ++ []) st
    rwa [List.append_nil]
  | succ N ih =>
    have h1 := ih (step + 1) (useStep_ok T bufferSize num logEvery step h)
    rw [List.append_assoc] at h1
    exact h1

theorem useScript_single (bufferSize num logEvery N : ℕ) (sizes : List ℕ) (seed : Key) :
    SingleUse (useScript child bufferSize num logEvery N sizes seed) := by
  have h := useLoop_ok T bufferSize num logEvery N 0 (useInit_ok T bufferSize num seed)
  obtain ⟨s1, s2, -, -⟩ := useSequence_proper T (sizes.map fun num => useEach child num)
    (fun f hf => by
      obtain ⟨num, -, rfl⟩ := List.mem_map.1 hf
      exact useEach_proper T num)
    (useLoop child bufferSize num logEvery N 0 (useInit child bufferSize num seed).2).2.rns
  exact singleUse_append h.single s1 h.rns s2

end Cyjax.Keys
