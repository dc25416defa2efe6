import Verif.Props.Curve
import Verif.Props.BigInt
import Verif.Lemmas.NoTimeout

/-! C41, C42, C44, C50 for every modulus: `new_raw` accepts any integer `p`, so the exact domain of `is_on_curve`, `plus`,
`negate` and `j_invariant` is stated for every `p`, prime or not, zero and negative included; and what goes wrong when `p` is
not prime. -/

namespace EC

open EllipticCurve

variable {ec : EllipticCurve}

theorem fmod_modEq (x p : ℤ) : Int.fmod x p ≡ x [ZMOD p] := by
  rw [Int.modEq_iff_dvd]
  exact ⟨Int.fdiv x p, by have := Int.mul_fdiv_add_fmod x p; linarith⟩

theorem fmod_eq_zero_iff (x p : ℤ) : Int.fmod x p = 0 ↔ p ∣ x := Int.dvd_iff_fmod_eq_zero.symm

theorem fmod_eq_iff (x y p : ℤ) : Int.fmod x p = Int.fmod y p ↔ x ≡ y [ZMOD p] := by
  constructor
  · intro h
    exact (fmod_modEq x p).symm.trans (h ▸ fmod_modEq y p)
  · intro h
    obtain ⟨k, hk⟩ := (Int.modEq_iff_dvd.1 h)
    rw [show y = x + p * k by linarith, Int.add_mul_fmod_self_left]

theorem isOnCurve_any (hw : ec.WF) (hp : ec.p ≠ 0) (P : ECPoint) :
    ec.isOnCurve P = .ok (decide (P.z = 0 ∨ P.y ^ 2 ≡ P.x ^ 3 + ec.a * P.x + ec.b [ZMOD ec.p])) := by
  unfold isOnCurve
  by_cases hz : P.z = 0
  · simp [ECPoint.isInfinity, hz]
  · have hz' : P.isInfinity = false := by simp [ECPoint.isInfinity, hz]
    rw [hw, evalXY_curvePol]
    simp only [hz', modFloor_of hp, Res.ok_bind, hz, false_or]
    rw [power_eq_pow _ _ (by norm_num)]
    simp only [Bool.false_eq_true, if_false, Res.ok.injEq]
    rw [Bool.eq_iff_iff, beq_iff_eq, decide_eq_true_iff, fmod_eq_zero_iff]
    norm_num
    rw [← Int.modEq_iff_dvd]
    exact ⟨fun h => (fmod_modEq _ _).symm.trans (h.trans (fmod_modEq _ _)),
      fun h => (fmod_modEq _ _).trans (h.trans (fmod_modEq _ _).symm)⟩

/-- **C41.**  `is_on_curve` for an arbitrary modulus: it returns exactly for a point at infinity or a modulus other than 0, and
then it decides the curve equation modulo `p`. -/
theorem C41_any_modulus (hw : ec.WF) (P : ECPoint) :
    ((∃ r, ec.isOnCurve P = .ok r) ↔ P.z = 0 ∨ ec.p ≠ 0) ∧
    (ec.isOnCurve P = .ok true ↔ P.z = 0 ∨ (ec.p ≠ 0 ∧ ec.p ∣ P.y ^ 2 - (P.x ^ 3 + ec.a * P.x + ec.b))) ∧
    (¬ (P.z = 0 ∨ ec.p ≠ 0) → ec.isOnCurve P = .panic .divByZero) := by
  by_cases hp : ec.p = 0
  · by_cases hz : P.z = 0
    · have : ec.isOnCurve P = .ok true := by
        unfold isOnCurve
        simp [ECPoint.isInfinity, hz]
      exact ⟨⟨fun _ => .inl hz, fun _ => ⟨_, this⟩⟩, ⟨fun _ => .inl hz, fun _ => this⟩, fun h => absurd (.inl hz) h⟩
    · have : ec.isOnCurve P = .panic .divByZero := by
        unfold isOnCurve
        simp [ECPoint.isInfinity, hz, modFloor, hp]
      rw [this]
      simp [hz, hp]
  · have hd : P.y ^ 2 ≡ P.x ^ 3 + ec.a * P.x + ec.b [ZMOD ec.p] ↔ ec.p ∣ P.y ^ 2 - (P.x ^ 3 + ec.a * P.x + ec.b) :=
      ⟨fun h => Int.modEq_iff_dvd.1 h.symm, fun h => (Int.modEq_iff_dvd.2 h).symm⟩
    rw [isOnCurve_any hw hp, Res.ok.injEq, decide_eq_true_iff]
    refine ⟨⟨fun _ => .inr hp, fun _ => ⟨_, rfl⟩⟩, ?_, fun h => absurd (.inr hp) h⟩
    constructor
    · rintro (h | h)
      · exact .inl h
      · exact .inr ⟨hp, hd.1 h⟩
    · rintro (h | ⟨-, h⟩)
      · exact .inl h
      · exact .inr (hd.2 h)

/-- The sum of two affine points of the curve, as `plus` computes it. -/
theorem plus_formula (hp : ec.p ≠ 0) {P1 P2 : ECPoint} (z1 : P1.z ≠ 0) (z2 : P2.z ≠ 0)
    (o1 : ec.isOnCurve P1 = .ok true) (o2 : ec.isOnCurve P2 = .ok true) : ec.plus P1 P2 =
      if Int.fmod P1.x ec.p ≠ Int.fmod P2.x ec.p then do
        let r ← inverse (Int.fmod P2.x ec.p - Int.fmod P1.x ec.p) ec.p
        let m := (Int.fmod P2.y ec.p - Int.fmod P1.y ec.p) * r
        let x3 := power m 2 - Int.fmod P1.x ec.p - Int.fmod P2.x ec.p
        let y3 := m * (Int.fmod P1.x ec.p - x3) - Int.fmod P1.y ec.p
        .ok (⟨Int.fmod x3 ec.p, Int.fmod y3 ec.p, 1⟩ : ECPoint)
      else if Int.fmod P1.y ec.p ≠ Int.fmod P2.y ec.p ∨ Int.fmod P1.y ec.p = 0 then .ok ECPoint.infinity
      else (do
        let r ← inverse (2 * Int.fmod P1.y ec.p) ec.p
        let m := (3 * power (Int.fmod P1.x ec.p) 2 + ec.a) * r
        let x3 := power m 2 - 2 * Int.fmod P1.x ec.p
        let y3 := m * (Int.fmod P1.x ec.p - x3) - Int.fmod P1.y ec.p
        .ok (⟨Int.fmod x3 ec.p, Int.fmod y3 ec.p, 1⟩ : ECPoint)) := by
  have i1 : P1.isInfinity = false := by simp [ECPoint.isInfinity, z1]
  have i2 : P2.isInfinity = false := by simp [ECPoint.isInfinity, z2]
  unfold EllipticCurve.plus canonicalize
  simp only [o1, o2, Res.ok_bind, rassert_true, i1, i2, modFloor_of hp, Bool.false_eq_true, if_false]

theorem plus_any (hp : ec.p ≠ 0) {P1 P2 : ECPoint} (z1 : P1.z ≠ 0) (z2 : P2.z ≠ 0)
    (o1 : ec.isOnCurve P1 = .ok true) (o2 : ec.isOnCurve P2 = .ok true) :
    ((∃ R, ec.plus P1 P2 = .ok R) ↔ 2 ≤ ec.p ∨ (P1.x ≡ P2.x [ZMOD ec.p] ∧ (¬ P1.y ≡ P2.y [ZMOD ec.p] ∨ ec.p ∣ P1.y))) ∧
    (∀ R, ec.plus P1 P2 = .ok R → R = ECPoint.infinity ∨
      (2 ≤ ec.p ∧ 0 ≤ R.x ∧ R.x < ec.p ∧ 0 ≤ R.y ∧ R.y < ec.p ∧ R.z = 1)) ∧
    (ec.plus P1 P2 = .ok ECPoint.infinity ↔ P1.x ≡ P2.x [ZMOD ec.p] ∧ (¬ P1.y ≡ P2.y [ZMOD ec.p] ∨ ec.p ∣ P1.y)) ∧
    (¬ (∃ R, ec.plus P1 P2 = .ok R) → ∃ w, ec.plus P1 P2 = .panic w) := by
  have hinv : ∀ a : ℤ, ¬ 2 ≤ ec.p → ∃ w, inverse a ec.p = .panic w := fun a h => (C03_inverse_panics a ec.p).2 (by omega)
  have hinv' : ∀ a : ℤ, 2 ≤ ec.p → ∃ r, inverse a ec.p = .ok r := fun a h => ⟨_, inverse_eq a ec.p h⟩
  have hplus := plus_formula hp z1 z2 o1 o2
  have haff : ∀ (x y : ℤ), 2 ≤ ec.p → 0 ≤ Int.fmod x ec.p ∧ Int.fmod x ec.p < ec.p ∧
      0 ≤ Int.fmod y ec.p ∧ Int.fmod y ec.p < ec.p :=
    fun x y h => ⟨Int.fmod_nonneg_of_pos _ (by omega), Int.fmod_lt_of_pos _ (by omega), Int.fmod_nonneg_of_pos _ (by omega),
      Int.fmod_lt_of_pos _ (by omega)⟩
  have hne : ∀ x y : ℤ, (⟨x, y, 1⟩ : ECPoint) ≠ ECPoint.infinity := by
    intro x y h
    have := congrArg ECPoint.z h
    simp [ECPoint.infinity] at this
  rw [← fmod_eq_iff, ← fmod_eq_iff, ← fmod_eq_zero_iff]
  rw [hplus]
  by_cases hx : Int.fmod P1.x ec.p = Int.fmod P2.x ec.p
  · rw [if_neg (by simpa using hx)]
    by_cases hy : Int.fmod P1.y ec.p ≠ Int.fmod P2.y ec.p ∨ Int.fmod P1.y ec.p = 0
    · rw [if_pos hy]
      refine ⟨⟨fun _ => .inr ⟨hx, hy⟩, fun _ => ⟨_, rfl⟩⟩, fun R hR => ?_, ⟨fun _ => ⟨hx, hy⟩, fun _ => rfl⟩,
        fun h => absurd ⟨_, rfl⟩ h⟩
      cases hR; exact .inl rfl
    · rw [if_neg hy]
      by_cases h2 : 2 ≤ ec.p
      · obtain ⟨r, hr⟩ := hinv' (2 * Int.fmod P1.y ec.p) h2
        simp only [hr, Res.ok_bind, modFloor_of hp]
        refine ⟨⟨fun _ => .inl h2, fun _ => ⟨_, rfl⟩⟩, fun R hR => ?_, ⟨fun h => ?_, fun h => absurd h.2 hy⟩,
          fun h => absurd ⟨_, rfl⟩ h⟩
        · cases hR
          obtain ⟨a1, a2, a3, a4⟩ := haff _ _ h2
          exact .inr ⟨h2, a1, a2, a3, a4, rfl⟩
        · exact absurd (Res.ok.inj h) (hne _ _)
      · obtain ⟨w, hw⟩ := hinv (2 * Int.fmod P1.y ec.p) h2
        simp only [hw, Res.panic_bind]
        refine ⟨⟨?_, ?_⟩, ?_, ⟨?_, ?_⟩, fun _ => ⟨_, rfl⟩⟩
        · rintro ⟨R, h⟩; cases h
        · rintro (h | h)
          · exact absurd h h2
          · exact absurd h.2 hy
        · intro R h; cases h
        · intro h; cases h
        · intro h; exact absurd h.2 hy
  · rw [if_pos hx]
    by_cases h2 : 2 ≤ ec.p
    · obtain ⟨r, hr⟩ := hinv' (Int.fmod P2.x ec.p - Int.fmod P1.x ec.p) h2
      simp only [hr, Res.ok_bind, modFloor_of hp]
      refine ⟨⟨fun _ => .inl h2, fun _ => ⟨_, rfl⟩⟩, fun R hR => ?_, ⟨fun h => ?_, fun h => absurd h.1 hx⟩,
        fun h => absurd ⟨_, rfl⟩ h⟩
      · cases hR
        obtain ⟨a1, a2, a3, a4⟩ := haff _ _ h2
        exact .inr ⟨h2, a1, a2, a3, a4, rfl⟩
      · exact absurd (Res.ok.inj h) (hne _ _)
    · obtain ⟨w, hw⟩ := hinv (Int.fmod P2.x ec.p - Int.fmod P1.x ec.p) h2
      simp only [hw, Res.panic_bind]
      refine ⟨⟨?_, ?_⟩, ?_, ⟨?_, ?_⟩, fun _ => ⟨_, rfl⟩⟩
      · rintro ⟨R, h⟩; cases h
      · rintro (h | h)
        · exact absurd h h2
        · exact absurd h.1 hx
      · intro R h; cases h
      · intro h; cases h
      · intro h; exact absurd h.1 hx

/-- **C42.**  The exact domain of `plus` for an arbitrary modulus `p`, prime or not: both points have to be on the curve, and if
both are affine then either `p ≥ 2` or they have the same `x` and are opposite, or their `y` is 0, modulo `p` (no slope is then
needed).  In every other case it panics. -/
theorem C42_any_modulus (P1 P2 : ECPoint) :
    ((∃ R, ec.plus P1 P2 = .ok R) ↔ ec.isOnCurve P1 = .ok true ∧ ec.isOnCurve P2 = .ok true ∧
      (P1.z = 0 ∨ P2.z = 0 ∨ 2 ≤ ec.p ∨
        (P1.x ≡ P2.x [ZMOD ec.p] ∧ (¬ P1.y ≡ P2.y [ZMOD ec.p] ∨ ec.p ∣ P1.y)))) ∧
    (¬ (∃ R, ec.plus P1 P2 = .ok R) → ∃ w, ec.plus P1 P2 = .panic w) := by
  have hnt : ∀ P, ec.isOnCurve P ≠ .timeout := by
    intro P
    unfold isOnCurve
    nt
  have hp0 : ∀ P : ECPoint, P.z ≠ 0 → ec.isOnCurve P = .ok true → ec.p ≠ 0 := by
    intro P hz h hp
    unfold isOnCurve at h
    simp [ECPoint.isInfinity, hz, modFloor, hp] at h
  by_cases o1 : ec.isOnCurve P1 = .ok true
  swap
  · have : ∃ w, ec.plus P1 P2 = .panic w := by
      unfold EllipticCurve.plus
      cases h : ec.isOnCurve P1 with
      | ok b => cases b
                · exact ⟨_, rfl⟩
                · exact absurd h o1
      | panic w => exact ⟨_, rfl⟩
      | timeout => exact absurd h (hnt _)
    obtain ⟨w, hw⟩ := this
    rw [hw]
    exact ⟨⟨fun ⟨R, h⟩ => (by cases h), fun h => absurd h.1 o1⟩, fun _ => ⟨w, rfl⟩⟩
  by_cases o2 : ec.isOnCurve P2 = .ok true
  swap
  · have : ∃ w, ec.plus P1 P2 = .panic w := by
      unfold EllipticCurve.plus
      rw [o1]
      cases h : ec.isOnCurve P2 with
      | ok b => cases b
                · exact ⟨_, rfl⟩
                · exact absurd h o2
      | panic w => exact ⟨_, rfl⟩
      | timeout => exact absurd h (hnt _)
    obtain ⟨w, hw⟩ := this
    rw [hw]
    exact ⟨⟨fun ⟨R, h⟩ => (by cases h), fun h => absurd h.2.1 o2⟩, fun _ => ⟨w, rfl⟩⟩
  by_cases z1 : P1.z = 0
  · have : ec.plus P1 P2 = .ok { x := P2.x, y := P2.y, z := P2.z } := by
      unfold EllipticCurve.plus
      simp [o1, o2, rassert_true, ECPoint.isInfinity, z1]
    rw [this]
    exact ⟨⟨fun _ => ⟨o1, o2, .inl z1⟩, fun _ => ⟨_, rfl⟩⟩, fun h => absurd ⟨_, rfl⟩ h⟩
  by_cases z2 : P2.z = 0
  · have : ec.plus P1 P2 = .ok { x := P1.x, y := P2.y, z := P2.z } := by
      unfold EllipticCurve.plus
      simp [o1, o2, rassert_true, ECPoint.isInfinity, z1, z2]
    rw [this]
    exact ⟨⟨fun _ => ⟨o1, o2, .inr (.inl z2)⟩, fun _ => ⟨_, rfl⟩⟩, fun h => absurd ⟨_, rfl⟩ h⟩
  obtain ⟨h1, -, -, h4⟩ := plus_any (hp0 P1 z1 o1) z1 z2 o1 o2
  refine ⟨h1.trans ⟨fun h => ⟨o1, o2, .inr (.inr h)⟩, ?_⟩, h4⟩
  rintro ⟨-, -, h | h | h⟩
  · exact absurd h z1
  · exact absurd h z2
  · exact h

/-- **C42.**  Whatever the modulus, the sum of two affine points is `O` exactly when they agree in `x` modulo `p` and their `y`
differ modulo `p` or vanish; any other sum that is returned has coordinates in `[0, p)`. -/
theorem C42_any_modulus_result (P1 P2 R : ECPoint) (z1 : P1.z ≠ 0) (z2 : P2.z ≠ 0) (h : ec.plus P1 P2 = .ok R) :
    (R = ECPoint.infinity ↔ P1.x ≡ P2.x [ZMOD ec.p] ∧ (¬ P1.y ≡ P2.y [ZMOD ec.p] ∨ ec.p ∣ P1.y)) ∧
    (R = ECPoint.infinity ∨ (2 ≤ ec.p ∧ 0 ≤ R.x ∧ R.x < ec.p ∧ 0 ≤ R.y ∧ R.y < ec.p ∧ R.z = 1)) := by
  obtain ⟨o1, o2, -⟩ := (C42_any_modulus P1 P2).1.1 ⟨R, h⟩
  have hp : ec.p ≠ 0 := by
    intro hp
    unfold isOnCurve at o1
    simp [ECPoint.isInfinity, z1, modFloor, hp] at o1
  obtain ⟨-, h2, h3, -⟩ := plus_any hp z1 z2 o1 o2
  refine ⟨?_, h2 R h⟩
  rw [← h3, h, Res.ok.injEq]

/-- **C44.**  `negate` returns exactly for a point at infinity or a modulus other than 0, for any modulus; a negative modulus
puts the new `y` in `(p, 0]`. -/
theorem C44_any_modulus (P : ECPoint) :
    ((∃ R, ec.negate P = .ok R) ↔ P.z = 0 ∨ ec.p ≠ 0) ∧
    (∀ R, ec.negate P = .ok R → P.z ≠ 0 → R.x = P.x ∧ R.z = P.z ∧ ec.p ∣ R.y + P.y ∧
      (0 < ec.p → 0 ≤ R.y ∧ R.y < ec.p) ∧ (ec.p < 0 → ec.p < R.y ∧ R.y ≤ 0)) := by
  unfold negate
  by_cases hz : P.z = 0
  · simp [ECPoint.isInfinity, hz]
  · by_cases hp : ec.p = 0
    · simp [ECPoint.isInfinity, hz, modFloor, hp]
    · simp only [ECPoint.isInfinity, modFloor_of hp, Res.ok_bind]
      simp only [beq_iff_eq, hz, if_false, Res.ok.injEq]
      refine ⟨⟨fun _ => .inr hp, fun _ => ⟨_, rfl⟩⟩, ?_⟩
      rintro R rfl -
      refine ⟨rfl, rfl, ?_, fun h => ⟨Int.fmod_nonneg_of_pos _ h, Int.fmod_lt_of_pos _ h⟩, fun h => ?_⟩
      · have := (Int.modEq_iff_dvd.1 (fmod_modEq (-P.y) ec.p).symm)
        simpa [sub_neg_eq_add] using this
      · have h1 := Int.fmod_nonneg_of_pos (P.y) (b := -ec.p) (by omega)
        have h2 := Int.fmod_lt_of_pos (P.y) (b := -ec.p) (by omega)
        have h3 : Int.fmod (-P.y) ec.p = - Int.fmod P.y (-ec.p) := by
          have := Int.neg_fmod_neg P.y (-ec.p)
          rw [neg_neg] at this
          exact this
        dsimp only
        omega

/-- **C50.**  `j_invariant` returns exactly for moduli from 2 on, prime or not, and its result lies in `[0, p)`. -/
theorem C50_any_modulus : ((∃ j, ec.jInvariant = .ok j) ↔ 2 ≤ ec.p) ∧
    (¬ 2 ≤ ec.p → ∃ w, ec.jInvariant = .panic w) ∧ ∀ j, ec.jInvariant = .ok j → 0 ≤ j ∧ j < ec.p := by
  unfold jInvariant
  by_cases h2 : 2 ≤ ec.p
  · simp only [inverse_eq _ _ h2, Res.ok_bind, modFloor_of (show ec.p ≠ 0 by omega)]
    refine ⟨⟨fun _ => h2, fun _ => ⟨_, rfl⟩⟩, fun h => absurd h2 h, ?_⟩
    rintro j h
    cases h
    exact ⟨Int.fmod_nonneg_of_pos _ (by omega), Int.fmod_lt_of_pos _ (by omega)⟩
  · obtain ⟨w, hw⟩ := (C03_inverse_panics (4 * power ec.a 3 + 27 * power ec.b 2) ec.p).2 (by omega)
    simp only [hw, Res.panic_bind]
    exact ⟨⟨fun ⟨_, h⟩ => (by cases h), fun h => absurd h h2⟩, fun _ => ⟨_, rfl⟩, fun _ h => (by cases h)⟩

/-- **C42.**  The group law needs a prime modulus: `new_raw` takes 15, the discriminant 31 of `y² = x³ + x + 1` and the difference 7
of the abscissas are invertible modulo 15, both points are on the curve, and yet the sum `plus` returns is not. -/
theorem C42_composite_modulus_refuted :
    ∃ (a b p : ℤ) (P Q R : ECPoint), IsCoprime (4 * a ^ 3 + 27 * b ^ 2) p ∧ IsCoprime (Q.x - P.x) p ∧
      (newRaw a b p).isOnCurve P = .ok true ∧ (newRaw a b p).isOnCurve Q = .ok true ∧
      (newRaw a b p).plus P Q = .ok R ∧ (newRaw a b p).isOnCurve R = .ok false :=
  ⟨1, 1, 15, ⟨0, 1, 1⟩, ⟨7, 9, 1⟩, ⟨9, 5, 1⟩, ⟨1, -2, by norm_num⟩, ⟨-2, 1, by norm_num⟩, by decide +kernel, by decide +kernel,
    by decide +kernel, by decide +kernel⟩

/-! Concrete cases: a composite, a negative, a unit and a zero modulus. -/

example : (newRaw 1 1 (-5)).isOnCurve ⟨0, 1, 1⟩ = .ok true := by decide +kernel
example : (newRaw 1 1 (-5)).plus ⟨0, 1, 1⟩ ⟨0, 4, 1⟩ = .ok ECPoint.infinity := by decide +kernel
example : ∃ w, (newRaw 1 1 (-5)).plus ⟨0, 1, 1⟩ ⟨0, 1, 1⟩ = .panic w := ⟨.assertion, by decide +kernel⟩
example : (newRaw 1 1 (-5)).negate ⟨0, 1, 1⟩ = .ok ⟨0, -1, 1⟩ := by decide +kernel
example : (newRaw 1 1 1).plus ⟨3, 7, 1⟩ ⟨0, 4, 1⟩ = .ok ECPoint.infinity := by decide +kernel
example : (newRaw 1 1 0).isOnCurve ⟨0, 1, 1⟩ = .panic .divByZero := by decide +kernel
example : (newRaw 1 1 0).plus ECPoint.infinity ECPoint.infinity = .ok ECPoint.infinity := by decide +kernel
example : (newRaw 1 1 15).jInvariant = .ok 12 := by decide +kernel
example := C41_any_modulus (wf_newRaw 1 1 15) ⟨7, 9, 1⟩
example := C42_any_modulus_result (ec := newRaw 1 1 15) ⟨0, 1, 1⟩ ⟨7, 9, 1⟩ ⟨9, 5, 1⟩ (by decide) (by decide) (by decide +kernel)

end EC
