import Verif.Lemmas.EDSTors
import Mathlib.NumberTheory.LegendreSymbol.QuadraticChar.Basic

/-! Pure mathematics: the number of points of `y^2 = x^3 + a x + b` over a finite field, and of its quadratic twist. -/

namespace EC
open WeierstrassCurve EDS

section
variable {F : Type} [Field F] [DecidableEq F] {a b : F}

theorem nonsing_of (h2 : (2 : F) ≠ 0) (hd : 4 * a ^ 3 + 27 * b ^ 2 ≠ 0) {x y : F} (h : y ^ 2 = x ^ 3 + a * x + b) :
    (cv a b).Nonsingular x y := by
  have hD : (cv a b).Δ ≠ 0 := by
    have : (cv a b).Δ = -2 ^ 4 * (4 * a ^ 3 + 27 * b ^ 2) := by
      simp only [WeierstrassCurve.Δ, WeierstrassCurve.b₂, WeierstrassCurve.b₄, WeierstrassCurve.b₆, WeierstrassCurve.b₈]
      ring
    rw [this]
    exact mul_ne_zero (neg_ne_zero.2 (pow_ne_zero _ h2)) hd
  refine (Affine.equation_iff_nonsingular_of_Δ_ne_zero hD).1 ?_
  rw [Affine.equation_iff]
  simpa using h

variable [Fintype F]

/-- The number of points is one more than the number of solutions of the equation, counted by `x`. -/
theorem card_points (h2 : ringChar F ≠ 2) (hd : 4 * a ^ 3 + 27 * b ^ 2 ≠ 0) :
    (Nat.card (Pt a b) : ℤ) = Fintype.card F + 1 + ∑ x : F, quadraticChar F (x ^ 3 + a * x + b) := by
  have h2' : (2 : F) ≠ 0 := Ring.two_ne_zero h2
  let e : Pt a b ≃ Option (Σ x : F, {y : F // y ∈ ({y : F | y ^ 2 = x ^ 3 + a * x + b} : Set F).toFinset}) :=
    { toFun := fun P => match P with
        | .zero => none
        | .some x y h => some ⟨x, y, by
            have := (Affine.equation_iff _ _).1 h.1
            simp only [Set.mem_toFinset, Set.mem_setOf_eq]
            simpa using this⟩
      invFun := fun o => match o with
        | none => .zero
        | some ⟨x, y, h⟩ => .some x y (nonsing_of h2' hd (by simpa using h))
      left_inv := fun P => by cases P <;> rfl
      right_inv := fun o => by rcases o with _ | ⟨x, y, h⟩ <;> rfl }
  rw [Nat.card_congr e, Nat.card_eq_fintype_card, Fintype.card_option, Fintype.card_sigma]
  push_cast
  refine (congrArg (· + 1) (Finset.sum_congr (g := fun x => quadraticChar F (x ^ 3 + a * x + b) + 1) rfl
    fun x _ => ?_)).trans ?_
  · rw [← quadraticChar_card_sqrts h2, Nat.cast_inj]
    exact Fintype.card_of_subtype _ fun y => by simp
  rw [Finset.sum_add_distrib, Finset.sum_const, Finset.card_univ, nsmul_eq_mul,
    mul_one]
  ring

/-- A curve and its twist by a nonsquare `c` have `2 #F + 2` points together. -/
theorem card_twist (h2 : ringChar F ≠ 2) (hd : 4 * a ^ 3 + 27 * b ^ 2 ≠ 0) {c : F} (hc : ¬ IsSquare c) :
    (Nat.card (Pt a b) : ℤ) + Nat.card (Pt (c ^ 2 * a) (c ^ 3 * b)) = 2 * Fintype.card F + 2 := by
  have hc0 : c ≠ 0 := by rintro rfl; exact hc (by simp)
  have hd' : 4 * (c ^ 2 * a) ^ 3 + 27 * (c ^ 3 * b) ^ 2 ≠ 0 := by
    have : 4 * (c ^ 2 * a) ^ 3 + 27 * (c ^ 3 * b) ^ 2 = c ^ 6 * (4 * a ^ 3 + 27 * b ^ 2) := by ring
    rw [this]; exact mul_ne_zero (pow_ne_zero _ hc0) hd
  rw [card_points h2 hd, card_points h2 hd']
  have e : ∑ x : F, quadraticChar F (x ^ 3 + (c ^ 2 * a) * x + c ^ 3 * b) =
      ∑ x : F, -quadraticChar F (x ^ 3 + a * x + b) := by
    rw [← Equiv.sum_comp (Equiv.mulLeft₀ c hc0)]
    apply Finset.sum_congr rfl
    intro x _
    rw [Equiv.mulLeft₀_apply, show (c * x) ^ 3 + c ^ 2 * a * (c * x) + c ^ 3 * b = c ^ 3 * (x ^ 3 + a * x + b) by ring,
      map_mul, map_pow, quadraticChar_neg_one_iff_not_isSquare.2 hc]
    ring
  rw [e, Finset.sum_neg_distrib]
  ring

omit [Fintype F] in
theorem three_dvd_card (h2 : (2 : F) ≠ 0) {x y : F} (hd : 4 * a ^ 3 + 27 * b ^ 2 ≠ 0) (h : y ^ 2 = x ^ 3 + a * x + b)
    (h3 : psi3 a b x = 0) : 3 ∣ Nat.card (Pt a b) := by
  let P : Pt a b := .some x y (nonsing_of h2 hd h)
  have hP : P ≠ 0 := Affine.Point.some_ne_zero _
  have h3P : 3 • P = 0 := (F_eq_zero_iff h2 hP 3 (by norm_num)).1 (by rw [F_three]; exact h3)
  have : addOrderOf P = 3 := addOrderOf_eq_prime h3P hP (hp := ⟨Nat.prime_three⟩)
  rw [← this]
  exact addOrderOf_dvd_natCard P

/-- A root in `F` of the third division polynomial makes `#F + 1 - #E` (or the twist's) congruent to `#F + 1` modulo 3. -/
theorem root_three (h2 : ringChar F ≠ 2) (hd : 4 * a ^ 3 + 27 * b ^ 2 ≠ 0) {x : F} (h3 : psi3 a b x = 0) :
    (3 : ℤ) ∣ Nat.card (Pt a b) ∨ (3 : ℤ) ∣ 2 * Fintype.card F + 2 - Nat.card (Pt a b) := by
  have h2' : (2 : F) ≠ 0 := Ring.two_ne_zero h2
  set c := x ^ 3 + a * x + b with hc
  by_cases hs : IsSquare c
  · obtain ⟨y, hy⟩ := hs
    left
    exact_mod_cast three_dvd_card h2' hd (y := y) (by rw [← hc, hy, pow_two]) h3
  · right
    have hc0 : c ≠ 0 := by intro h0; rw [h0] at hs; exact hs (by simp)
    rw [← card_twist h2 hd hs, add_sub_cancel_left]
    have hd' : 4 * (c ^ 2 * a) ^ 3 + 27 * (c ^ 3 * b) ^ 2 ≠ 0 := by
      have : 4 * (c ^ 2 * a) ^ 3 + 27 * (c ^ 3 * b) ^ 2 = c ^ 6 * (4 * a ^ 3 + 27 * b ^ 2) := by ring
      rw [this]; exact mul_ne_zero (pow_ne_zero _ hc0) hd
    have := three_dvd_card h2' (x := c * x) (y := c ^ 2) hd' (by rw [show (c ^ 2) ^ 2 = c ^ 3 * c by ring, hc]; ring)
      (by rw [show psi3 (c ^ 2 * a) (c ^ 3 * b) (c * x) = c ^ 4 * psi3 a b x by unfold psi3; ring, h3, mul_zero])
    exact_mod_cast this

end
end EC
