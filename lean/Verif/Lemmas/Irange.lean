import Verif.Model.SubscriptedVariable
import Mathlib.Algebra.BigOperators.Group.Finset.Basic
import Mathlib.Order.Interval.Finset.Nat
import Mathlib.Algebra.Order.Ring.Int
import Mathlib.Data.List.Basic

/-! Helper lemmas about `irange`. -/

namespace EC

theorem mem_irange {lo hi k : Int} : k ∈ irange lo hi ↔ lo ≤ k ∧ k < hi := by
  simp only [irange, List.mem_map, List.mem_range]
  constructor
  · rintro ⟨n, hn, rfl⟩; omega
  · intro h; exact ⟨(k - lo).toNat, by omega, by omega⟩

theorem irange_of_le {lo hi : Int} (h : hi ≤ lo) : irange lo hi = [] := by
  simp [irange, Int.toNat_eq_zero.2 (by omega : hi - lo ≤ 0)]

theorem irange_succ_right {lo hi : Int} (h : lo ≤ hi) : irange lo (hi + 1) = irange lo hi ++ [hi] := by
  simp only [irange]
  have : (hi + 1 - lo).toNat = (hi - lo).toNat + 1 := by omega
  rw [this, List.range_succ, List.map_append]
  simp; omega

theorem irange_cons {lo hi : Int} (h : lo < hi) : irange lo hi = lo :: irange (lo + 1) hi := by
  simp only [irange]
  have : (hi - lo).toNat = (hi - (lo + 1)).toNat + 1 := by omega
  rw [this, List.range_succ_eq_map, List.map_cons, List.map_map]
  simp only [Function.comp_def, List.cons.injEq, Nat.cast_zero, add_zero, true_and]
  refine List.map_congr_left fun a _ => ?_
  push_cast; omega

theorem length_irange (lo hi : Int) : (irange lo hi).length = (hi - lo).toNat := by simp [irange]

theorem nodup_irange (lo hi : Int) : (irange lo hi).Nodup := by
  refine List.Nodup.map ?_ List.nodup_range
  intro a b h; simpa using h

theorem sorted_irange (lo hi : Int) : (irange lo hi).Pairwise (· < ·) := by
  rw [irange, List.pairwise_map]
  refine List.pairwise_lt_range.imp ?_
  intro a b h; simpa using h

/-- Sum over `1, ..., n`. -/
theorem sum_irange_one {M : Type} [AddCommMonoid M] (n : Nat) (f : Int → M) :
    ((irange 1 (n + 1)).map f).sum = ∑ j ∈ Finset.range n, f (j + 1 : Nat) := by
  simp only [irange, List.map_map]
  have h1 : ((n : Int) + 1 - 1).toNat = n := by omega
  rw [h1]
  change _ = ((List.range n).map _).sum
  congr 1
  refine List.map_congr_left fun j _ => ?_
  simp [add_comm]

end EC
