import Verif.Spec.Nd
import Mathlib.Algebra.BigOperators.Group.List.Basic

namespace Cyjax

theorem NdValid.lt {sh is : List ℕ} (h : NdValid sh is) : ndOffset sh is < sh.prod := by
  induction h with
  | nil => simp [ndOffset]
  | @cons s i sh is hi _ ih =>
    simp only [ndOffset, List.prod_cons]
    calc i * sh.prod + ndOffset sh is < i * sh.prod + sh.prod := by omega
      _ = (i + 1) * sh.prod := by ring
      _ ≤ s * sh.prod := Nat.mul_le_mul_right _ hi

theorem NdValid.append {s1 i1 s2 i2 : List ℕ} (h : NdValid s1 i1) (h2 : NdValid s2 i2) :
    NdValid (s1 ++ s2) (i1 ++ i2) := by
  induction h with
  | nil => simpa using h2
  | cons hi _ ih => exact NdValid.cons hi ih

theorem ndOffset_append {s1 i1 : List ℕ} (s2 i2 : List ℕ) (h : NdValid s1 i1) :
    ndOffset (s1 ++ s2) (i1 ++ i2) = ndOffset s1 i1 * s2.prod + ndOffset s2 i2 := by
  induction h with
  | nil => simp [ndOffset]
  | cons hi _ ih =>
    simp only [List.cons_append, ndOffset, ih, List.prod_append]
    ring

theorem Util.Nd.get_valid {α : Type*} (a : Util.Nd α) {idx : List ℕ} (h : NdValid a.shape idx) :
    a.get idx = some (a.data ⟨ndOffset a.shape idx, h.lt⟩) := by
  unfold Util.Nd.get; rw [dif_pos h.lt]

namespace Util

theorem Nd.reshape_eq {α : Type*} (a : Nd α) (s s' : List ℕ) (hs : s = s')
    (h : s'.prod = a.shape.prod) : a.reshape s = some ⟨s', fun i => a.data (i.cast h)⟩ := by
  subst hs; unfold Nd.reshape; rw [dif_pos h]

theorem Nd.atleast1d_eq {α : Type*} (a : Nd α) (h : a.shape ≠ []) : a.atleast1d = a := by
  unfold Nd.atleast1d; rw [dif_neg h]

theorem flattenCoord_eq {α : Type*} (batch : List ℕ) (d : ℕ) (hd : 0 < d)
    (data : Fin (batch ++ [d]).prod → α) :
    flattenCoord (⟨batch ++ [d], data⟩ : Nd α) =
      some (⟨[batch.prod, d], fun i => data (i.cast (by simp))⟩, batch) := by
  unfold flattenCoord
  rw [Nd.atleast1d_eq _ (by simp)]
  simp only [List.dropLast_concat, Nd.reshapeInfer, List.getLastD_concat,
    if_neg (Nat.pos_iff_ne_zero.1 hd)]
  rw [Nd.reshape_eq (⟨batch ++ [d], data⟩ : Nd α) _ [batch.prod, d]
    (by simp [Nat.mul_div_cancel _ hd]) (by simp)]
  rfl

end Util

end Cyjax
