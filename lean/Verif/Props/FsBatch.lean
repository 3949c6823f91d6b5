import Verif.Model.FsBatch
import Verif.Props.UtilMisc

/-!
# C09: `fs_metric` and `fs_potential` on arrays of coordinates of any shape
-/

namespace Cyjax

open Util Projective

private theorem flattenCoordC_given {α : Type*} (conj : α → α) (batch : List ℕ) (d : ℕ) (hd : 0 < d)
    (a b : Fin (batch ++ [d]).prod → α) :
    flattenCoordC conj ⟨batch ++ [d], a⟩ (some ⟨batch ++ [d], b⟩) =
      some ((⟨[batch.prod, d], fun i => a (i.cast (by simp))⟩, ⟨[batch.prod, d], fun i => b (i.cast (by simp))⟩),
        batch) := by
  have h : ∀ c : Fin (batch ++ [d]).prod → α, (⟨batch ++ [d], c⟩ : Nd α).reshapeInfer d =
      some ⟨[batch.prod, d], fun i => c (i.cast (by simp))⟩ := fun c => by
    rw [Nd.reshapeInfer, if_neg (Nat.pos_iff_ne_zero.1 hd)]
    exact Nd.reshape_eq (⟨batch ++ [d], c⟩ : Nd α) _ [batch.prod, d] (by simp [Nat.mul_div_cancel _ hd]) (by simp)
  unfold flattenCoordC
  simp only [Nd.atleast1d_eq (⟨batch ++ [d], a⟩ : Nd α) (by simp), Nd.atleast1d_eq (⟨batch ++ [d], b⟩ : Nd α) (by simp),
    if_true, List.getLastD_concat, List.dropLast_concat, h]
  rfl

private theorem batchApplyC_zip {α β : Type*} (conj : α → α) (d : ℕ) (hd : 0 < d) (out : List ℕ)
    (f : (Fin d → α) → (Fin d → α) → Fin out.prod → β) (batch : List ℕ) (a b : Fin (batch ++ [d]).prod → α) :
    batchApplyC conj d out f ⟨batch ++ [d], a⟩ (some ⟨batch ++ [d], b⟩) =
      batchApply (α := α × α) d out (fun p => f (fun i => (p i).1) fun i => (p i).2)
        ⟨batch ++ [d], fun i => (a i, b i)⟩ := by
  unfold batchApplyC batchApply
  rw [flattenCoordC_given conj batch d hd a b, flattenCoord_eq batch d hd fun i => (a i, b i)]
  dsimp only
  refine Eq.symm ((dif_pos rfl).trans ?_)
  symm
  exact dif_pos ⟨rfl, rfl⟩

private theorem batchApplyC_none {α β : Type*} (conj : α → α) (d : ℕ) (out : List ℕ)
    (f : (Fin d → α) → (Fin d → α) → Fin out.prod → β) (zs : Nd α) (h : zs.shape ≠ []) :
    batchApplyC conj d out f zs none = batchApplyC conj d out f zs (some ⟨zs.shape, fun i => conj (zs.data i)⟩) := by
  unfold batchApplyC flattenCoordC
  rw [Nd.atleast1d_eq zs h]
  simp only [Nd.atleast1d_eq (⟨zs.shape, fun i => conj (zs.data i)⟩ : Nd α) h]

private theorem batchApplyC_entries {α β : Type*} (conj : α → α) (d : ℕ) (hd : 0 < d) (out : List ℕ)
    (f : (Fin d → α) → (Fin d → α) → Fin out.prod → β) (zs zc : Nd α) (batch : List ℕ)
    (hs : zs.shape = batch ++ [d]) (hc : zc.shape = batch ++ [d]) :
    ∃ res, batchApplyC conj d out f zs (some zc) = some res ∧ res.shape = batch ++ out ∧
      ∀ b o, NdValid batch b → (ho : NdValid out o) → ∀ pt ptc : Fin d → α,
        (∀ i : Fin d, zs.get (b ++ [(i : ℕ)]) = some (pt i)) → (∀ i : Fin d, zc.get (b ++ [(i : ℕ)]) = some (ptc i)) →
        res.get (b ++ o) = some (f pt ptc ⟨ndOffset out o, ho.lt⟩) := by
  obtain ⟨sh, a⟩ := zs
  obtain ⟨sh', c⟩ := zc
  subst hs hc
  rw [batchApplyC_zip conj d hd]
  obtain ⟨res, h1, h2, h3⟩ := C09_flatten_map_unflatten (α := α × α) d hd out
    (fun p => f (fun i => (p i).1) fun i => (p i).2) ⟨batch ++ [d], fun i => (a i, c i)⟩ batch rfl
  refine ⟨res, h1, h2, fun b o hb ho pt ptc hpt hptc => ?_⟩
  refine h3 b o hb ho (fun i => (pt i, ptc i)) fun i => ?_
  have hv : NdValid (batch ++ [d]) (b ++ [(i : ℕ)]) := hb.append (.cons i.2 .nil)
  have e1 := hpt i
  have e2 := hptc i
  rw [Nd.get_valid _ hv] at e1 e2 ⊢
  simp only [Option.some.injEq] at e1 e2 ⊢
  exact Prod.ext e1 e2

private theorem get_conj (zs : Nd ℂ) {idx : List ℕ} (h : NdValid zs.shape idx) {v : ℂ} (hv : zs.get idx = some v) :
    (⟨zs.shape, fun i => (starRingEnd ℂ) (zs.data i)⟩ : Nd ℂ).get idx = some ((starRingEnd ℂ) v) := by
  rw [Nd.get_valid _ h] at hv
  rw [Nd.get_valid (⟨zs.shape, fun i => (starRingEnd ℂ) (zs.data i)⟩ : Nd ℂ) h]
  simp only [Option.some.injEq] at hv ⊢
  rw [← hv]

private theorem rowMajor_offset {r c : ℕ} (m : Matrix (Fin r) (Fin c) ℂ) (i : Fin r) (j : Fin c)
    (h : ndOffset [r, c] [(i : ℕ), (j : ℕ)] < [r, c].prod) : rowMajor m ⟨_, h⟩ = m i j := by
  have hc : 0 < c := lt_of_le_of_lt (Nat.zero_le _) j.2
  have e : ndOffset [r, c] [(i : ℕ), (j : ℕ)] = i * c + j := by simp [ndOffset]
  have h1 : ndOffset [r, c] [(i : ℕ), (j : ℕ)] / c = i := by
    rw [e, mul_comm, Nat.mul_add_div hc, Nat.div_eq_of_lt j.2, add_zero]
  have h2 : ndOffset [r, c] [(i : ℕ), (j : ℕ)] % c = j := by
    rw [e, mul_comm, Nat.mul_add_mod, Nat.mod_eq_of_lt j.2]
  exact congr (congrArg m (Fin.ext h1)) (Fin.ext h2)

/-- **C09, fs_metric.** For coordinates of shape `(*batch, d)` the result has shape `(*batch, d, d)`, and the matrix at
batch index `b` is the metric of the point at `b`. Conjugate coordinates of the same shape may be given, and are paired
with the points. -/
theorem C09_fs_metric (d : ℕ) (hd : 0 < d) (zs : Nd ℂ) (batch : List ℕ) (hs : zs.shape = batch ++ [d]) :
    (∃ res, fsMetricNd d zs none = some res ∧ res.shape = batch ++ [d, d] ∧
      ∀ b, NdValid batch b → ∀ pt : Fin d → ℂ, (∀ i : Fin d, zs.get (b ++ [(i : ℕ)]) = some (pt i)) →
        ∀ i j : Fin d, res.get (b ++ [(i : ℕ), (j : ℕ)]) = some (fsMetricAt pt i j)) ∧
    ∀ zc : Nd ℂ, zc.shape = batch ++ [d] →
      ∃ res, fsMetricNd d zs (some zc) = some res ∧ res.shape = batch ++ [d, d] ∧
        ∀ b, NdValid batch b → ∀ pt ptc : Fin d → ℂ, (∀ i : Fin d, zs.get (b ++ [(i : ℕ)]) = some (pt i)) →
          (∀ i : Fin d, zc.get (b ++ [(i : ℕ)]) = some (ptc i)) →
          ∀ i j : Fin d, res.get (b ++ [(i : ℕ), (j : ℕ)]) = some (fsMetric pt ptc i j) := by
  have hv : ∀ i j : Fin d, NdValid [d, d] [(i : ℕ), (j : ℕ)] := fun i j => .cons i.2 (.cons j.2 .nil)
  constructor
  · unfold fsMetricNd
    rw [batchApplyC_none _ _ _ _ _ (by simp [hs])]
    obtain ⟨res, h1, h2, h3⟩ := batchApplyC_entries (starRingEnd ℂ) d hd [d, d]
      (fun z zc => rowMajor (fsMetric z zc)) zs ⟨zs.shape, fun i => (starRingEnd ℂ) (zs.data i)⟩ batch hs hs
    refine ⟨res, h1, h2, fun b hb pt hpt i j => ?_⟩
    rw [h3 b _ hb (hv i j) pt (conjArr pt) hpt fun k =>
      get_conj zs (by rw [hs]; exact hb.append (.cons k.2 .nil)) (hpt k), rowMajor_offset]
    rfl
  · intro zc hc
    obtain ⟨res, h1, h2, h3⟩ := batchApplyC_entries (starRingEnd ℂ) d hd [d, d]
      (fun z zc => rowMajor (fsMetric z zc)) zs zc batch hs hc
    refine ⟨res, h1, h2, fun b hb pt ptc hpt hptc i j => ?_⟩
    rw [h3 b _ hb (hv i j) pt ptc hpt hptc, rowMajor_offset]

/-- **C09, fs_potential.** For coordinates of shape `(*batch, d)` the result has shape `batch`, and its value at `b` is
the potential of the point at `b`, for affine and for homogeneous coordinates. -/
theorem C09_fs_potential (d : ℕ) (hd : 0 < d) (zs : Nd ℂ) (batch : List ℕ) (hs : zs.shape = batch ++ [d])
    (hom : Bool) :
    (∃ res, fsPotentialNd d zs none hom = some res ∧ res.shape = batch ∧
      ∀ b, NdValid batch b → ∀ pt : Fin d → ℂ, (∀ i : Fin d, zs.get (b ++ [(i : ℕ)]) = some (pt i)) →
        res.get b = some (fsPotentialAt pt hom)) ∧
    ∀ zc : Nd ℂ, zc.shape = batch ++ [d] →
      ∃ res, fsPotentialNd d zs (some zc) hom = some res ∧ res.shape = batch ∧
        ∀ b, NdValid batch b → ∀ pt ptc : Fin d → ℂ, (∀ i : Fin d, zs.get (b ++ [(i : ℕ)]) = some (pt i)) →
          (∀ i : Fin d, zc.get (b ++ [(i : ℕ)]) = some (ptc i)) →
          res.get b = some (if hom then fsPotentialHom pt ptc else fsPotential pt ptc) := by
  have key : ∀ zc : Nd ℂ, zc.shape = batch ++ [d] →
      ∃ res, fsPotentialNd d zs (some zc) hom = some res ∧ res.shape = batch ∧
        ∀ b, NdValid batch b → ∀ pt ptc : Fin d → ℂ, (∀ i : Fin d, zs.get (b ++ [(i : ℕ)]) = some (pt i)) →
          (∀ i : Fin d, zc.get (b ++ [(i : ℕ)]) = some (ptc i)) →
          res.get b = some (if hom then fsPotentialHom pt ptc else fsPotential pt ptc) := by
    intro zc hc
    cases hom with
    | true =>
      obtain ⟨res, h1, h2, h3⟩ := batchApplyC_entries (starRingEnd ℂ) d hd [] (fun z zc _ => fsPotentialHom z zc)
        zs zc batch hs hc
      exact ⟨res, h1, h2.trans (List.append_nil _), fun b hb pt ptc hpt hptc => by
        simpa using h3 b [] hb .nil pt ptc hpt hptc⟩
    | false =>
      obtain ⟨res, h1, h2, h3⟩ := batchApplyC_entries (starRingEnd ℂ) d hd [] (fun z zc _ => fsPotential z zc)
        zs zc batch hs hc
      exact ⟨res, h1, h2.trans (List.append_nil _), fun b hb pt ptc hpt hptc => by
        simpa using h3 b [] hb .nil pt ptc hpt hptc⟩
  refine ⟨?_, key⟩
  obtain ⟨res, h1, h2, h3⟩ := key ⟨zs.shape, fun i => (starRingEnd ℂ) (zs.data i)⟩ hs
  refine ⟨res, ?_, h2, fun b hb pt hpt => ?_⟩
  · rw [← h1]
    unfold fsPotentialNd
    simp only [batchApplyC_none _ _ _ _ zs (show zs.shape ≠ [] by simp [hs])]
  · rw [h3 b hb pt (conjArr pt) hpt fun k => get_conj zs (by rw [hs]; exact hb.append (.cons k.2 .nil)) (hpt k)]
    cases hom <;> rfl

/-- **C09, mismatch.** Conjugate coordinates of a different shape raise, whatever the function. -/
theorem C09_mismatch (d : ℕ) (zs zc : Nd ℂ) (h0 : zs.shape ≠ []) (h1 : zc.shape ≠ []) (h : zs.shape ≠ zc.shape)
    (hom : Bool) : fsMetricNd d zs (some zc) = none ∧ fsPotentialNd d zs (some zc) hom = none := by
  have key : flattenCoordC (starRingEnd ℂ) zs (some zc) = none := by
    unfold flattenCoordC
    simp only [Nd.atleast1d_eq zs h0, Nd.atleast1d_eq zc h1, if_neg h]
  unfold fsMetricNd fsPotentialNd batchApplyC
  rw [key]
  cases hom <;> exact ⟨rfl, rfl⟩

/-- Two points of dimension two, the second one `(i, 0)`. -/
example : ∃ zs : Nd ℂ, zs.shape = [2] ++ [2] ∧ NdValid [2] [1] ∧
    ∀ i : Fin 2, zs.get ([1] ++ [(i : ℕ)]) = some (![Complex.I, 0] i) := by
  refine ⟨⟨[2, 2], fun q => if (q : ℕ) = 2 then Complex.I else 0⟩, rfl, .cons (by omega) .nil, fun i => ?_⟩
  fin_cases i <;> simp [Nd.get, ndOffset]

end Cyjax
