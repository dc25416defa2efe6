import Verif.Spec.Velu
import Mathlib.NumberTheory.LegendreSymbol.QuadraticChar.Basic
import Mathlib.Tactic.FieldSimp
import Mathlib.Tactic.LinearCombination

/-! Curves related by an isogeny of degree 2 have the same number of points: the sum of Legendre symbols. -/

namespace EC

variable {F : Type*} [Field F] [Fintype F] [DecidableEq F]

theorem card_fiber (hF : ringChar F ≠ 2) (A B : F) (hB : B ≠ 0) (z : F) :
    (((Finset.univ.filter fun x : F => x ≠ 0).filter fun x => x + A + B / x = z).card : ℤ) =
      1 + quadraticChar F ((z - A) ^ 2 - 4 * B) := by
  have h2 : (2 : F) ≠ 0 := Ring.two_ne_zero hF
  have h := quadraticChar_card_sqrts hF ((z - A) ^ 2 - 4 * B)
  rw [add_comm, ← h]
  norm_cast
  apply Finset.card_bij (fun x _ => 2 * x + A - z)
  · intro x hx
    simp only [Finset.mem_filter, Finset.mem_univ, true_and] at hx
    obtain ⟨hx0, hx1⟩ := hx
    simp only [Set.mem_toFinset, Set.mem_setOf_eq]
    rw [← hx1]; field_simp; ring
  · intro x _ y _ hxy
    exact mul_left_cancel₀ h2 (by linear_combination hxy)
  · intro s hs
    simp only [Set.mem_toFinset, Set.mem_setOf_eq] at hs
    have h4 : (4 : F) ≠ 0 := by
      have : (4 : F) = 2 * 2 := by norm_num
      rw [this]; exact mul_ne_zero h2 h2
    have hr : 4 * (((s - A + z) / 2) ^ 2 + (A - z) * ((s - A + z) / 2) + B) = 0 := by
      field_simp
      linear_combination 4 * hs
    have hr' := (mul_eq_zero.1 hr).resolve_left h4
    have h0 : (s - A + z) / 2 ≠ 0 := by
      intro h0
      rw [h0] at hr'
      exact hB (by linear_combination hr')
    refine ⟨(s - A + z) / 2, ?_, by field_simp; ring⟩
    simp only [Finset.mem_filter, Finset.mem_univ, true_and]
    refine ⟨h0, ?_⟩
    have hd : B / ((s - A + z) / 2) = -((s - A + z) / 2) - (A - z) := by
      rw [div_eq_iff h0]; linear_combination hr'
    rw [hd]; ring

/-- `∑ χ(x (x² + A x + B)) = ∑ χ(x (x² - 2 A x + A² - 4 B))`. -/
theorem char_sum_two_isogeny (hF : ringChar F ≠ 2) (A B : F) (hB : B ≠ 0) :
    ∑ x : F, quadraticChar F (x * (x ^ 2 + A * x + B)) =
      ∑ x : F, quadraticChar F (x * (x ^ 2 - 2 * A * x + (A ^ 2 - 4 * B))) := by
  have h1 : ∑ x : F, quadraticChar F (x * (x ^ 2 + A * x + B)) =
      ∑ x ∈ Finset.univ.filter (fun x : F => x ≠ 0), quadraticChar F (x + A + B / x) := by
    rw [Finset.sum_filter]
    refine Finset.sum_congr rfl fun x _ => ?_
    split_ifs with hx
    · have : x * (x ^ 2 + A * x + B) = x ^ 2 * (x + A + B / x) := by field_simp
      rw [this, map_mul, quadraticChar_sq_one' hx, one_mul]
    · rw [not_not] at hx
      rw [hx, zero_mul, quadraticChar_zero]
  rw [h1, ← Finset.sum_fiberwise (s := Finset.univ.filter fun x : F => x ≠ 0) (g := fun x => x + A + B / x)]
  have h2 : ∀ z : F, ∑ x ∈ (Finset.univ.filter fun x : F => x ≠ 0).filter (fun x => x + A + B / x = z),
      quadraticChar F (x + A + B / x) = quadraticChar F z + quadraticChar F (z * (z ^ 2 - 2 * A * z + (A ^ 2 - 4 * B))) := by
    intro z
    rw [Finset.sum_congr rfl (g := fun _ => quadraticChar F z) (fun x hx => by rw [(Finset.mem_filter.1 hx).2]),
      Finset.sum_const, nsmul_eq_mul, card_fiber hF A B hB z, map_mul,
      show z ^ 2 - 2 * A * z + (A ^ 2 - 4 * B) = (z - A) ^ 2 - 4 * B by ring]
    ring
  simp only [h2]
  rw [Finset.sum_add_distrib, quadraticChar_sum_zero hF, zero_add]

/-- For a root `e` of `x^3 + a x + b`, the curve and its quotient by `(e, 0)` have the same character sum. -/
theorem char_sum_velu2 (hF : ringChar F ≠ 2) (a b e : F) (he : e ^ 3 + a * e + b = 0) (hB : 3 * e ^ 2 + a ≠ 0) :
    ∑ x : F, quadraticChar F (x ^ 3 + a * x + b) =
      ∑ x : F, quadraticChar F (x ^ 3 + velu2A a e * x + velu2B a b e) := by
  have h := char_sum_two_isogeny hF (3 * e) (3 * e ^ 2 + a) hB
  rw [← Equiv.sum_comp (Equiv.addRight e) fun x => quadraticChar F (x ^ 3 + a * x + b),
    ← Equiv.sum_comp (Equiv.subRight (2 * e)) fun x => quadraticChar F (x ^ 3 + velu2A a e * x + velu2B a b e)]
  refine Eq.trans (Finset.sum_congr rfl fun x _ => ?_) (h.trans (Finset.sum_congr rfl fun x _ => ?_))
  · congr 1
    simp only [Equiv.coe_addRight]
    linear_combination he
  · congr 1
    simp only [Equiv.subRight_apply]
    unfold velu2A velu2B
    linear_combination -he

end EC
