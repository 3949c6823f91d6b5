import Mathlib.MeasureTheory.Constructions.Polish.Basic
import Mathlib.MeasureTheory.Integral.Lebesgue.Countable
import Mathlib.Topology.Bases

/-! # Sums over the fibres of a set, as functions on the base -/

namespace Cyjax

open MeasureTheory Set
open scoped ENNReal

/-- If a set meets every fibre at most once, sums over the fibres are measurable functions of the base point. -/
theorem measurable_fibre_sum_inj {X Y : Type*} [MeasurableSpace X] [StandardBorelSpace X] [MeasurableSpace Y]
    [StandardBorelSpace Y] {B : Set (X × Y)} (hB : MeasurableSet B) (hinj : InjOn Prod.fst B) {h : X × Y → ℝ≥0∞}
    (hh : Measurable h) : Measurable fun x => ∑' y, B.indicator h (x, y) := by
  have : StandardBorelSpace B := hB.standardBorel
  let j : B → X := fun z => z.1.1
  have hj : Measurable j := measurable_fst.comp measurable_subtype_coe
  have hji : Function.Injective j := fun a b hab => Subtype.ext (hinj a.2 b.2 hab)
  have hme : MeasurableEmbedding j := hj.measurableEmbedding hji
  have hfun : (fun x => ∑' y, B.indicator h (x, y)) = Function.extend j (fun z => h z.1) 0 := by
    funext x
    by_cases hx : ∃ z, j z = x
    · obtain ⟨z, rfl⟩ := hx
      rw [hji.extend_apply, tsum_eq_single z.1.2]
      · exact indicator_of_mem (show (j z, z.1.2) ∈ B from z.2) _
      · intro y hy
        refine indicator_of_notMem (fun hm => hy ?_) _
        exact congrArg Prod.snd (hinj hm z.2 rfl)
    · rw [Function.extend_apply' _ _ _ hx, Pi.zero_apply, ENNReal.tsum_eq_zero]
      exact fun y => indicator_of_notMem (fun hm => hx ⟨⟨(x, y), hm⟩, rfl⟩) _
  rw [hfun]
  exact hme.measurable_extend (hh.comp measurable_subtype_coe) measurable_const

/-- A set that is covered locally is covered by countably many disjoint measurable pieces. -/
theorem exists_pieces {X : Type*} [TopologicalSpace X] [SecondCountableTopology X] [MeasurableSpace X] [BorelSpace X]
    {s : Set X} (hs : MeasurableSet s) (p : Set X → Prop) (hempty : p ∅) (hmono : ∀ a b, a ⊆ b → p b → p a)
    (hloc : ∀ x ∈ s, ∃ O : Set X, IsOpen O ∧ x ∈ O ∧ p (s ∩ O)) :
    ∃ B : ℕ → Set X, (∀ i, MeasurableSet (B i)) ∧ (∀ i, p (B i)) ∧ (∀ i, B i ⊆ s) ∧ Pairwise (Function.onFun Disjoint B) ∧
      ⋃ i, B i = s := by
  rcases s.eq_empty_or_nonempty with rfl | hne
  · exact ⟨fun _ => ∅, by simp, fun _ => hempty, by simp, fun _ _ _ => by simp [Function.onFun], by simp⟩
  · choose! O hO hxO hpO using hloc
    obtain ⟨t, hts, htc, hcov⟩ := TopologicalSpace.countable_cover_nhdsWithin (f := O) (s := s)
      fun x hx => mem_nhdsWithin_of_mem_nhds ((hO x hx).mem_nhds (hxO x hx))
    have htne : t.Nonempty := by
      obtain ⟨x, hx⟩ := hne
      obtain ⟨y, hy, -⟩ := mem_iUnion₂.1 (hcov hx)
      exact ⟨y, hy⟩
    obtain ⟨u, rfl⟩ := htc.exists_eq_range htne
    have hu : ∀ i, u i ∈ s := fun i => hts ⟨i, rfl⟩
    refine ⟨fun i => s ∩ disjointed (fun i => O (u i)) i, fun i => hs.inter ?_, fun i => ?_, fun i => inter_subset_left, ?_, ?_⟩
    · exact MeasurableSet.disjointed (fun i => (hO _ (hu i)).measurableSet) i
    · exact hmono _ _ (inter_subset_inter_right _ (disjointed_subset _ i)) (hpO _ (hu i))
    · exact fun i j hij => (disjoint_disjointed _ hij).mono inter_subset_right inter_subset_right
    · rw [← inter_iUnion, iUnion_disjointed, inter_eq_left]
      intro x hx
      obtain ⟨y, ⟨i, rfl⟩, hy⟩ := mem_iUnion₂.1 (hcov hx)
      exact mem_iUnion.2 ⟨i, hy⟩

theorem indicator_pieces {X : Type*} {s : Set X} {B : ℕ → Set X} (hd : Pairwise (Function.onFun Disjoint B))
    (hU : ⋃ i, B i = s) (h : X → ℝ≥0∞) (x : X) : s.indicator h x = ∑' i, (B i).indicator h x := by
  by_cases hx : x ∈ s
  · obtain ⟨i, hi⟩ := mem_iUnion.1 (hU ▸ hx)
    rw [tsum_eq_single i, indicator_of_mem hx, indicator_of_mem hi]
    exact fun j hj => indicator_of_notMem (fun hm => (hd hj).le_bot ⟨hm, hi⟩) _
  · rw [indicator_of_notMem hx]
    refine (ENNReal.tsum_eq_zero.2 fun i => indicator_of_notMem (fun hm => hx ?_) _).symm
    exact hU ▸ mem_iUnion.2 ⟨i, hm⟩

/-- If a set meets the fibres locally at most once, sums over its fibres are measurable. -/
theorem measurable_fibre_sum {X Y : Type*} [TopologicalSpace X] [PolishSpace X] [MeasurableSpace X] [BorelSpace X]
    [TopologicalSpace Y] [PolishSpace Y] [MeasurableSpace Y] [BorelSpace Y] {E : Set (X × Y)} (hE : MeasurableSet E)
    (hloc : ∀ z ∈ E, ∃ O : Set (X × Y), IsOpen O ∧ z ∈ O ∧ InjOn Prod.fst (E ∩ O)) {h : X × Y → ℝ≥0∞}
    (hh : Measurable h) : Measurable fun x => ∑' y, E.indicator h (x, y) := by
  obtain ⟨B, hB, hi, -, hd, hU⟩ := exists_pieces hE (InjOn Prod.fst) (injOn_empty _) (fun a b hab hb => hb.mono hab) hloc
  simp_rw [indicator_pieces hd hU h, ENNReal.tsum_comm (α := Y)]
  exact Measurable.ennreal_tsum fun i => measurable_fibre_sum_inj (hB i) (hi i) hh

end Cyjax
