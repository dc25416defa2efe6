import Verif.Lemmas.SchoofYExact

/-! The test on `y` for `l = 3` and `q = 1` modulo 3: the action of Frobenius on the points of order 3. -/

namespace EC
open Poly Polynomial WeierstrassCurve EDS

section
variable {K : Type} [Field K] [DecidableEq K] {a b q : ℤ}

theorem yDefect_of_ne {A R J : Pt (a : K) b} (hA : A ≠ 0) (hR : R ≠ 0) (h : xc A ≠ xc R) :
    yDefect A R J = (xc A - xc R) ^ 2 *
      ((yc (A + R) - yc J) * (xc A - xc R) - 2 * xc A * (yc A - yc R)) := by
  have hX := xc_add hA hR h
  have hY := yc_add hA hR h
  unfold yDefect
  linear_combination (-(xc A - xc R) ^ 2) * hY + (yc A - yc R) * hX

theorem yDefect_self (A J : Pt (a : K) b) : yDefect A A J = 0 := by
  unfold yDefect; ring

/-- Three points of order 3 on a line. -/
theorem yc_ne_of_three (h2 : (2 : K) ≠ 0) {P : Pt (a : K) b} (hP : P ≠ 0) (h3P : 3 • P = 0) : yc P ≠ 0 := by
  intro h0
  have := (two_nsmul_eq_zero_iff h2 hP).2 h0
  apply hP
  rw [show (3 : ℕ) • P = P + P + P by abel, this, zero_add] at h3P
  exact h3P

theorem line_eq {P0 P1 P2 : Pt (a : K) b} (h0 : P0 ≠ 0) (h1 : P1 ≠ 0) (hs : P0 + P1 + P2 = 0)
    (hx : xc P0 ≠ xc P1) : (yc P0 - yc P2) * (xc P0 - xc P1) = (yc P0 - yc P1) * (xc P0 - xc P2) := by
  have hsum : P0 + P1 = -P2 := by rwa [eq_neg_iff_add_eq_zero]
  have hY := yc_add h0 h1 hx
  rw [hsum, xc_neg, yc_neg] at hY
  linear_combination hY

/-- Wrong sign: the equation cannot hold at all three points. -/
theorem three_wrong' (h2 : (2 : K) ≠ 0) {P0 P1 P2 : Pt (a : K) b} (h0 : P0 ≠ 0) (h1 : P1 ≠ 0) (h2' : P2 ≠ 0)
    (h3 : yc P2 ≠ 0)
    (hs : P0 + P1 + P2 = 0) (x01 : xc P0 ≠ xc P1) (x12 : xc P1 ≠ xc P2) (x20 : xc P2 ≠ xc P0)
    (d0 : yDefect P0 P1 P2 = 0) (d1 : yDefect P1 P2 P0 = 0) (d2 : yDefect P2 P0 P1 = 0) : False := by
  have hs1 : P1 + P2 + P0 = 0 := by rw [← hs]; abel
  have hs2 : P2 + P0 + P1 = 0 := by rw [← hs]; abel
  have aux : ∀ {A B C : Pt (a : K) b}, A ≠ 0 → B ≠ 0 → A + B + C = 0 → xc A ≠ xc B → yDefect A B C = 0 →
      yc C * (xc A - xc B) = - xc A * (yc A - yc B) := by
    intro A B C hA hB hs hx hd
    rw [yDefect_of_ne hA hB hx, show A + B = -C by rwa [eq_neg_iff_add_eq_zero], yc_neg] at hd
    have := (mul_eq_zero.1 hd).resolve_left (pow_ne_zero 2 (sub_ne_zero.2 hx))
    apply mul_left_cancel₀ h2
    linear_combination -this
  have e0 := aux h0 h1 hs x01 d0
  have e1 := aux h1 h2' hs1 x12 d1
  have e2 := aux h2' h0 hs2 x20 d2
  have hl := line_eq h0 h1 hs x01
  have f01 := sub_ne_zero.2 x01
  have f12 := sub_ne_zero.2 x12
  have f20 := sub_ne_zero.2 x20
  obtain ⟨L, hL⟩ : ∃ L, yc P0 - yc P1 = L * (xc P0 - xc P1) := ⟨(yc P0 - yc P1) / (xc P0 - xc P1), by field_simp⟩
  have hL2 : yc P0 - yc P2 = L * (xc P0 - xc P2) := by
    apply mul_right_cancel₀ f01
    linear_combination hl + (xc P0 - xc P2) * hL
  have g0 : yc P2 = - xc P0 * L := by
    apply mul_right_cancel₀ f01
    linear_combination e0 - xc P0 * hL
  have g1 : yc P0 = - xc P1 * L := by
    apply mul_right_cancel₀ f12
    linear_combination e1 - xc P1 * (hL2 - hL)
  have hL0 : L = 0 := by
    have : L * (xc P1 - xc P2) = 0 := by linear_combination -hL2 + g1 - g0
    exact (mul_eq_zero.1 this).resolve_right f12
  exact h3 (by rw [g0, hL0, mul_zero])

theorem three_wrong (h2 : (2 : K) ≠ 0) {P0 P1 P2 : Pt (a : K) b} (h0 : P0 ≠ 0) (h1 : P1 ≠ 0) (h2' : P2 ≠ 0)
    (h3 : 3 • P2 = 0)
    (hs : P0 + P1 + P2 = 0) (x01 : xc P0 ≠ xc P1) (x12 : xc P1 ≠ xc P2) (x20 : xc P2 ≠ xc P0)
    (d0 : yDefect P0 P1 P2 = 0) (d1 : yDefect P1 P2 P0 = 0) (d2 : yDefect P2 P0 P1 = 0) : False :=
  three_wrong' h2 h0 h1 h2' (yc_ne_of_three h2 h2' h3) hs x01 x12 x20 d0 d1 d2

/-- Right sign: the equation at `P0` says that the line is horizontal or `P0` has x-coordinate 0. -/
theorem three_right (h2 : (2 : K) ≠ 0) {P0 P1 P2 : Pt (a : K) b} (h0 : P0 ≠ 0) (h1 : P1 ≠ 0)
    (hs : P0 + P1 + P2 = 0) (x01 : xc P0 ≠ xc P1) :
    yDefect P0 P1 (-P2) = 0 ↔ xc P0 = 0 ∨ yc P0 = yc P1 := by
  rw [yDefect_of_ne h0 h1 x01, show P0 + P1 = -P2 by rwa [eq_neg_iff_add_eq_zero], sub_self, zero_mul, zero_sub,
    mul_eq_zero, neg_eq_zero, mul_eq_zero, mul_eq_zero, sub_eq_zero]
  constructor
  · rintro (h | (h | h) | h)
    · exact absurd (pow_eq_zero_iff (two_ne_zero)|>.1 h) (sub_ne_zero.2 x01)
    · exact absurd h h2
    · exact .inl h
    · exact .inr h
  · rintro (h | h)
    · exact .inr (.inl (.inr h))
    · exact .inr (.inr h)

theorem psi3_root (h2 : (2 : K) ≠ 0) {P : Pt (a : K) b} (hP : P ≠ 0) (h3P : 3 • P = 0) :
    3 * xc P ^ 4 + 6 * a * xc P ^ 2 + 12 * b * xc P - (a : K) ^ 2 = 0 := by
  have hroot : psi3 (a : K) b (xc P) = 0 := by
    rw [← F_three]; exact (F_eq_zero_iff h2 hP 3 (by norm_num)).2 h3P
  rw [← hroot]
  unfold psi3
  ring

/-- A horizontal line through three points of order 3: the coefficient `a` is zero. -/
theorem a_of_horizontal (h2 : (2 : K) ≠ 0) (h3 : (3 : K) ≠ 0) {P0 P1 P2 : Pt (a : K) b} (h0 : P0 ≠ 0) (h1 : P1 ≠ 0)
    (h2' : P2 ≠ 0) (t0 : 3 • P0 = 0) (t1 : 3 • P1 = 0) (t2 : 3 • P2 = 0) (x01 : xc P0 ≠ xc P1) (x12 : xc P1 ≠ xc P2)
    (x20 : xc P2 ≠ xc P0) (y01 : yc P0 = yc P1) (y12 : yc P1 = yc P2) : (a : K) = 0 := by
  have r0 := psi3_root h2 h0 t0
  have r1 := psi3_root h2 h1 t1
  have r2 := psi3_root h2 h2' t2
  have e0 := eqn h0
  have e1 := eqn h1
  have e2 := eqn h2'
  rw [← y12, ← y01] at e2
  rw [← y01] at e1
  have q0 : 3 * a * xc P0 ^ 2 + (9 * b + 3 * yc P0 ^ 2) * xc P0 - (a : K) ^ 2 = 0 := by
    linear_combination r0 + 3 * xc P0 * e0
  have q1 : 3 * a * xc P1 ^ 2 + (9 * b + 3 * yc P0 ^ 2) * xc P1 - (a : K) ^ 2 = 0 := by
    linear_combination r1 + 3 * xc P1 * e1
  have q2 : 3 * a * xc P2 ^ 2 + (9 * b + 3 * yc P0 ^ 2) * xc P2 - (a : K) ^ 2 = 0 := by
    linear_combination r2 + 3 * xc P2 * e2
  have f01 := sub_ne_zero.2 x01
  have f12 := sub_ne_zero.2 x12
  have f20 := sub_ne_zero.2 x20
  have s1 : 3 * a * (xc P0 + xc P1) + (9 * b + 3 * yc P0 ^ 2) = 0 := by
    apply (mul_eq_zero.1 (show (xc P0 - xc P1) * _ = 0 by linear_combination q0 - q1)).resolve_left f01
  have s2 : 3 * a * (xc P1 + xc P2) + (9 * b + 3 * yc P0 ^ 2) = 0 := by
    apply (mul_eq_zero.1 (show (xc P1 - xc P2) * _ = 0 by linear_combination q1 - q2)).resolve_left f12
  have : (3 * (a : K)) * (xc P2 - xc P0) = 0 := by linear_combination s2 - s1
  exact (mul_eq_zero.1 ((mul_eq_zero.1 this).resolve_right f20)).resolve_left h3

/-- For `a = 0` a line through three points of order 3 with nonzero x-coordinates is horizontal. -/
theorem horizontal_of_a (h2 : (2 : K) ≠ 0) (h3 : (3 : K) ≠ 0) {P0 P1 P2 : Pt (a : K) b} (h0 : P0 ≠ 0) (h1 : P1 ≠ 0)
    (h2' : P2 ≠ 0) (t0 : 3 • P0 = 0) (t1 : 3 • P1 = 0) (t2 : 3 • P2 = 0) (hs : P0 + P1 + P2 = 0)
    (x01 : xc P0 ≠ xc P1) (x12 : xc P1 ≠ xc P2) (x20 : xc P2 ≠ xc P0)
    (n0 : xc P0 ≠ 0) (n1 : xc P1 ≠ 0) (n2 : xc P2 ≠ 0) (ha : (a : K) = 0) : yc P0 = yc P1 := by
  have cube : ∀ {P : Pt (a : K) b}, P ≠ 0 → 3 • P = 0 → xc P ≠ 0 → yc P ^ 2 = -3 * b := by
    intro P hP ht hx
    have r := psi3_root h2 hP ht
    have e := eqn hP
    have : xc P ^ 3 + 4 * b = 0 := by
      apply (mul_eq_zero.1 (show (3 * xc P) * (xc P ^ 3 + 4 * b) = 0 by linear_combination r - (6 * xc P ^ 2 - (a : K)) * ha)).resolve_left
      exact mul_ne_zero h3 hx
    linear_combination e + this + xc P * ha
  have c0 := cube h0 t0 n0
  have c1 := cube h1 t1 n1
  have c2 := cube h2' t2 n2
  have hl := line_eq h0 h1 hs x01
  have f01 := sub_ne_zero.2 x01
  have f12 := sub_ne_zero.2 x12
  have f20 := sub_ne_zero.2 x20
  have sq : ∀ u v : K, u ^ 2 = -3 * b → v ^ 2 = -3 * b → u = v ∨ u = -v := fun u v hu hv =>
    sq_eq_sq_iff_eq_or_eq_neg.1 (hu.trans hv.symm)
  rcases sq _ _ c0 c1 with h | h
  · exact h
  rcases sq _ _ c0 c2 with h' | h'
  · rw [h', sub_self, zero_mul] at hl
    have := (mul_eq_zero.1 hl.symm).resolve_right (sub_ne_zero.2 x20.symm)
    rw [h']
    exact sub_eq_zero.1 this
  · -- `y1 = y2 = -y0`
    exfalso
    have h5 : yc P1 = yc P2 := neg_injective (h.symm.trans h')
    rw [← h5] at hl
    have h6 : (yc P0 - yc P1) * (xc P2 - xc P1) = 0 := by linear_combination hl
    have h7 := (mul_eq_zero.1 h6).resolve_right (sub_ne_zero.2 x12.symm)
    have h8 : yc P0 = 0 := by
      apply mul_left_cancel₀ h2
      rw [h] at h7 ⊢
      linear_combination h7
    exact yc_ne_of_three h2 h0 t0 h8


variable [Fact (Nat.Prime q.toNat)] [CharP K q.toNat]

local notation "φ" => frobPoint q.toNat a b

theorem frob_inj {P Q : Pt (a : K) b} (h : φ P = φ Q) : P = Q := by
  by_cases hP : P = 0
  · by_contra hc
    have hQ : Q ≠ 0 := fun h0 => hc (hP.trans h0.symm)
    rw [hP, frob_zero] at h
    exact (frobPoint_ne (q := q) hQ).1 h.symm
  · by_cases hQ : Q = 0
    · rw [hQ, frob_zero] at h
      exact absurd h (frobPoint_ne (q := q) hP).1
    obtain ⟨-, p2, p3⟩ := frobPoint_ne (q := q) hP
    obtain ⟨-, q2, q3⟩ := frobPoint_ne (q := q) hQ
    rw [h] at p2 p3
    refine EDS.ext hP hQ ?_ ?_
    · exact frobenius_inj K q.toNat (p2.symm.trans q2)
    · exact frobenius_inj K q.toNat (p3.symm.trans q3)

/-- A point whose x-coordinate is fixed by Frobenius is fixed by the square of Frobenius. -/
theorem frob_sq_of_xc {P : Pt (a : K) b} (h : xc P ^ q.toNat = xc P) : φ (φ P) = P := by
  by_cases hP : P = 0
  · rw [hP, frob_zero, frob_zero]
  obtain ⟨p1, p2, -⟩ := frobPoint_ne (q := q) hP
  rcases (xc_eq_iff p1 hP).1 (p2.trans h) with h1 | h1
  · rw [h1, h1]
  · rw [h1, frob_neg, h1, neg_neg]

/-- The triple of points of order 3 that a point not fixed by `F^2` generates. -/
theorem frob_triple (h2 : (2 : K) ≠ 0) {s : ℤ} (hs : s = 1 ∨ s = -1)
    (hF : ∀ P : Pt (a : K) b, 3 • P = 0 → φ (φ P) + P = s • φ P) {P : Pt (a : K) b} (h3 : 3 • P = 0) :
    P + φ (φ P) + φ (φ (φ (φ P))) = 0 ∧ φ (φ (φ (φ (φ (φ P))))) = P ∧ φ P = -(s • φ (φ (φ (φ P)))) := by
  have tor : ∀ {R : Pt (a : K) b}, 3 • R = 0 → 3 • φ R = 0 := by
    intro R hR
    have := frob_zsmul (q := q) h2 3 R
    rw [show (3 : ℤ) = ((3 : ℕ) : ℤ) from rfl, natCast_zsmul, hR, frob_zero, natCast_zsmul] at this
    exact this.symm
  have ss : s * s = 1 := by rcases hs with rfl | rfl <;> norm_num
  have key : ∀ {R : Pt (a : K) b}, 3 • R = 0 → R + φ (φ R) + φ (φ (φ (φ R))) = 0 := by
    intro R hR
    have e1 := hF R hR
    have e2 := hF _ (tor (tor hR))
    have e3 := hF _ (tor hR)
    have e4 : s • φ (φ (φ R)) = -R := by
      have : φ (φ (φ R)) = s • φ (φ R) - φ R := by rw [← e3]; abel
      rw [this, smul_sub, ← mul_smul, ss, one_smul, ← e1]
      abel
    rw [e4] at e2
    rw [add_assoc, add_comm (φ (φ R)), e2, add_neg_cancel]
  have k1 := key h3
  have k2 := key (tor (tor h3))
  refine ⟨k1, ?_, ?_⟩
  · have : φ (φ (φ (φ (φ (φ P))))) - P =
        φ (φ P) + φ (φ (φ (φ P))) + φ (φ (φ (φ (φ (φ P))))) - (P + φ (φ P) + φ (φ (φ (φ P)))) := by abel
    rw [k1, k2, sub_zero] at this
    exact sub_eq_zero.1 this
  · have e1 := hF P h3
    have : φ (φ (φ (φ P))) = -(s • φ P) := by
      rw [← e1, eq_neg_iff_add_eq_zero, ← k1]; abel
    rw [this, smul_neg, neg_neg, ← mul_smul, ss, one_smul]

theorem three_test_iff (h2 : (2 : K) ≠ 0) (h3K : (3 : K) ≠ 0) {s : ℤ} (hs : s = 1 ∨ s = -1)
    (hF : ∀ P : Pt (a : K) b, 3 • P = 0 → φ (φ P) + P = s • φ P) :
    (∀ P : Pt (a : K) b, P ≠ 0 → 3 • P = 0 → yDefect P (φ (φ P)) (φ P) = 0) ↔
      (∀ P : Pt (a : K) b, 3 • P = 0 → φ (φ P) = P) ∨ (s = 1 ∧ (a : K) = 0) := by
  have hpr : Nat.Prime q.toNat := Fact.out
  have tor : ∀ {R : Pt (a : K) b}, 3 • R = 0 → 3 • φ R = 0 := by
    intro R hR
    have := frob_zsmul (q := q) h2 3 R
    rw [show (3 : ℤ) = ((3 : ℕ) : ℤ) from rfl, natCast_zsmul, hR, frob_zero, natCast_zsmul] at this
    exact this.symm
  have ne0 : ∀ {R : Pt (a : K) b}, R ≠ 0 → φ (φ R) ≠ 0 := fun hR =>
    (frobPoint_ne (q := q) (frobPoint_ne (q := q) hR).1).1
  have hxne : ∀ {R : Pt (a : K) b}, R ≠ 0 → 3 • R = 0 → φ (φ R) ≠ R → xc R ≠ xc (φ (φ R)) := by
    intro R hR h3 hne hx
    rcases (xc_eq_iff hR (ne0 hR)).1 hx with h | h
    · exact hne h.symm
    · have e := hF R h3
      have h0 : φ (φ R) + R = 0 := by rw [← neg_eq_iff_add_eq_zero]; exact h.symm
      rw [h0] at e
      apply (frobPoint_ne (q := q) hR).1
      rcases hs with rfl | rfl
      · rwa [one_smul, eq_comm] at e
      · rwa [neg_smul, one_smul, eq_comm, neg_eq_zero] at e
  constructor
  · intro hall
    by_cases hc : ∀ P : Pt (a : K) b, 3 • P = 0 → φ (φ P) = P
    · exact .inl hc
    push Not at hc
    obtain ⟨P, h3, hne⟩ := hc
    right
    have hP : P ≠ 0 := by rintro rfl; exact hne (by rw [frob_zero, frob_zero])
    obtain ⟨k1, k2, k3⟩ := frob_triple h2 hs hF h3
    obtain ⟨-, -, k4⟩ := frob_triple h2 hs hF (tor (tor h3))
    obtain ⟨-, -, k5⟩ := frob_triple h2 hs hF (tor (tor (tor (tor h3))))
    rw [k2] at k4 k5
    have d0 := (congrArg (yDefect P _) k3).symm.trans (hall P hP h3)
    have d1 := (congrArg (yDefect _ _) k4).symm.trans (hall _ (ne0 hP) (tor (tor h3)))
    have d2 := (congrArg (yDefect _ _) k5).symm.trans (hall _ (ne0 (ne0 hP)) (tor (tor (tor (tor h3)))))
    rw [k2] at d2
    have hne1 : φ (φ (φ (φ P))) ≠ φ (φ P) := fun h => hne (frob_inj (frob_inj h))
    have hne2 : φ (φ (φ (φ (φ (φ P))))) ≠ φ (φ (φ (φ P))) := fun h => hne1 (frob_inj (frob_inj h))
    have x01 := hxne hP h3 hne
    have x12 := hxne (ne0 hP) (tor (tor h3)) hne1
    have x20 := hxne (ne0 (ne0 hP)) (tor (tor (tor (tor h3)))) hne2
    rw [k2] at x20
    have n0 := hP
    have n1 := ne0 hP
    have n2 := ne0 n1
    have t1 := tor (tor h3)
    have t2 := tor (tor t1)
    generalize φ (φ (φ (φ P))) = P2 at *
    generalize φ (φ P) = P1 at *
    have hs1 : P1 + P2 + P = 0 := by rw [← k1]; abel
    have hs2 : P2 + P + P1 = 0 := by rw [← k1]; abel
    rcases hs with rfl | rfl
    · refine ⟨rfl, ?_⟩
      rw [one_smul] at d0 d1 d2
      rw [three_right h2 n0 n1 k1 x01] at d0
      rw [three_right h2 n1 n2 hs1 x12] at d1
      rw [three_right h2 n2 n0 hs2 x20] at d2
      have y01 : yc P = yc P1 := by
        rcases d0 with h | h
        · rcases d1 with h' | h'
          · exact absurd (h.trans h'.symm) x01
          · rcases d2 with h'' | h''
            · exact absurd (h''.trans h.symm) x20
            · exact (h'.trans h'').symm
        · exact h
      have y12 : yc P1 = yc P2 := by
        rcases d1 with h | h
        · rcases d2 with h' | h'
          · exact absurd (h.trans h'.symm) x12
          · rw [h', y01]
        · exact h
      exact a_of_horizontal h2 h3K n0 n1 n2 h3 t1 t2 x01 x12 x20 y01 y12
    · exfalso
      rw [neg_smul, one_smul, neg_neg] at d0 d1 d2
      exact three_wrong h2 n0 n1 n2 t2 k1 x01 x12 x20 d0 d1 d2
  · rintro (hc | ⟨rfl, ha⟩) P hP h3
    · rw [hc P h3]; exact yDefect_self _ _
    · by_cases hne : φ (φ P) = P
      · rw [hne]; exact yDefect_self _ _
      obtain ⟨k1, k2, k3⟩ := frob_triple h2 hs hF h3
      have hne1 : φ (φ (φ (φ P))) ≠ φ (φ P) := fun h => hne (frob_inj (frob_inj h))
      have hne2 : φ (φ (φ (φ (φ (φ P))))) ≠ φ (φ (φ (φ P))) := fun h => hne1 (frob_inj (frob_inj h))
      have x01 := hxne hP h3 hne
      have x12 := hxne (ne0 hP) (tor (tor h3)) hne1
      have x20 := hxne (ne0 (ne0 hP)) (tor (tor (tor (tor h3)))) hne2
      rw [k2] at x20
      have nz : ∀ {R : Pt (a : K) b}, φ (φ R) ≠ R → xc R ≠ 0 := by
        intro R hR h0
        exact hR (frob_sq_of_xc (by rw [h0, zero_pow hpr.ne_zero]))
      rw [one_smul] at k3
      refine (congrArg (yDefect P _) k3).trans ((three_right h2 hP (ne0 hP) k1 x01).2 (.inr ?_))
      exact horizontal_of_a h2 h3K hP (ne0 hP) (ne0 (ne0 hP)) h3 (tor (tor h3)) (tor (tor (tor (tor h3)))) k1 x01 x12 x20
        (nz hne) (nz hne1) (nz hne2) ha

end
end EC
