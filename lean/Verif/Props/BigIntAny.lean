import Verif.Props.BigInt
import Mathlib.FieldTheory.Finite.Basic

/-! Properties C02, C03 and C04 for the remaining arguments: every exponent and every modulus, whatever its sign and
whether or not it is prime, and the size of the Bezout coefficients. -/

namespace EC

private theorem modEq_of_eq (p : ℤ) {u v : ℤ} (h : u = v) : u ≡ v [ZMOD p] := h ▸ Int.ModEq.refl u

private theorem fmod_modEq (x p : ℤ) : Int.fmod x p ≡ x [ZMOD p] := by
  rw [Int.modEq_comm]
  exact (Int.modEq_iff_dvd).2 ⟨-Int.fdiv x p, by have := Int.mul_fdiv_add_fmod x p; linarith [this]⟩

private theorem fmod_of_modEq {x y p : ℤ} (h : x ≡ y [ZMOD p]) : Int.fmod x p = Int.fmod y p := by
  obtain ⟨k, hk⟩ := h.dvd
  have : y = x + k * p := by linarith
  rw [this, Int.add_mul_fmod_self_right]

private theorem powModLoop_any {p : ℤ} (hp : p ≠ 0) : ∀ (e b r : ℤ), 1 ≤ e →
    powModLoop p e b r = .ok (Int.fmod (r * b ^ e.toNat) p) := by
  intro e
  induction hm : e.toNat using Nat.strong_induction_on generalizing e with
  | _ m ih =>
    intro b r he
    rw [powModLoop]
    by_cases h1 : e > 1
    · have h2 : e.tdiv 2 = e / 2 := Int.tdiv_eq_ediv_of_nonneg (by omega)
      simp only [h1, if_true, modFloor_of hp, h2]
      have hb : Int.fmod (b * b) p ^ (e / 2).toNat ≡ (b * b) ^ (e / 2).toNat [ZMOD p] := (fmod_modEq _ _).pow _
      split_ifs with ho
      · simp only [Res.ok_bind]
        rw [ih (e / 2).toNat (by omega) (e / 2) rfl _ _ (by omega)]
        congr 1
        apply fmod_of_modEq
        refine ((fmod_modEq _ _).mul hb).trans ?_
        rw [← hm, show e.toNat = 2 * (e / 2).toNat + 1 by omega]
        exact modEq_of_eq p (by ring)
      · simp only [Res.ok_bind]
        rw [ih (e / 2).toNat (by omega) (e / 2) rfl _ _ (by omega)]
        congr 1
        apply fmod_of_modEq
        refine ((Int.ModEq.refl r).mul hb).trans ?_
        rw [← hm, show e.toNat = 2 * (e / 2).toNat by omega]
        exact modEq_of_eq p (by ring)
    · have : e = 1 := by omega
      subst this
      subst hm
      simp [modFloor_of hp]

/-- C02, every exponent and every modulus: for `n ≠ 0` and `p ≠ 0` the result is congruent to `x^n` (to `x` itself if
`n` is negative), and lies in `[0, p)` for a positive and in `(p, 0]` for a negative modulus. -/
theorem C02_any_modulus (x n p : ℤ) (hn : n ≠ 0) (hp : p ≠ 0) :
    ∃ r, powerModulo x n p = .ok r ∧ r ≡ (if 0 < n then x ^ n.toNat else x) [ZMOD p] ∧
      (0 < p → 0 ≤ r ∧ r < p) ∧ (p < 0 → p < r ∧ r ≤ 0) := by
  have key : powerModulo x n p = .ok (Int.fmod (if 0 < n then x ^ n.toNat else x) p) := by
    rw [powerModulo, if_neg hn]
    by_cases h : 0 < n
    · rw [powModLoop_any hp n x 1 (by omega), if_pos h, one_mul]
    · rw [powModLoop, if_neg (by omega), if_neg h, modFloor_of hp, one_mul]
  refine ⟨_, key, fmod_modEq _ _, fun h => ⟨Int.fmod_nonneg_of_pos _ h, Int.fmod_lt_of_pos _ h⟩, fun h => ?_⟩
  generalize (if 0 < n then x ^ n.toNat else x) = y
  have h1 := Int.fmod_nonneg_of_pos (-y) (b := -p) (by omega)
  have h2 := Int.fmod_lt_of_pos (-y) (b := -p) (by omega)
  have h3 : Int.fmod (-y) (-p) = - Int.fmod y p := Int.neg_fmod_neg ..
  omega

example := C02_any_modulus 3 (-5) 7 (by norm_num) (by norm_num)
example : powerModulo 3 (-5) 7 = .ok 3 ∧ powerModulo 10 (-5) 7 = .ok 3 ∧ powerModulo 3 2 (-7) = .ok (-5) := by decide +kernel

/-- C03, every modulus: for `p ≥ 2`, prime or not, `inverse` returns the residue of `a^(p-2)` (1 for `p = 2`), and this
is an inverse of `a` modulo `p` exactly if `a^(p-1) ≡ 1`. -/
theorem C03_any_modulus (a p : ℤ) (hp : 2 < p) :
    ∃ r, inverse a p = .ok r ∧ 0 ≤ r ∧ r < p ∧ r ≡ a ^ (p.toNat - 2) [ZMOD p] ∧
      (a * r ≡ 1 [ZMOD p] ↔ a ^ (p.toNat - 1) ≡ 1 [ZMOD p]) := by
  obtain ⟨r, h1, h2, h3, -⟩ := C02_any_modulus a (p - 2) p (by omega) (by omega)
  rw [if_pos (by omega), show (p - 2).toNat = p.toNat - 2 by omega] at h2
  refine ⟨r, ?_, (h3 (by omega)).1, (h3 (by omega)).2, h2, ?_⟩
  · rw [inverse, rassert, decide_eq_true (by omega)]
    exact h1
  · have h4 : a * r ≡ a ^ (p.toNat - 1) [ZMOD p] := by
      refine ((Int.ModEq.refl a).mul h2).trans ?_
      rw [show p.toNat - 1 = p.toNat - 2 + 1 by omega, pow_succ]
      exact modEq_of_eq p (by ring)
    exact ⟨fun h => h4.symm.trans h, fun h => h4.trans h⟩

/-- C03: for a composite modulus the answer can be no inverse although there is one. -/
theorem C03_composite_refuted : ¬ ∀ a p : ℤ, 2 < p → IsCoprime a p → ∃ r, inverse a p = .ok r ∧ a * r ≡ 1 [ZMOD p] := by
  intro h
  obtain ⟨r, h1, h2⟩ := h 2 9 (by norm_num) ⟨-4, 1, by norm_num⟩
  have : inverse 2 9 = .ok 2 := by decide +kernel
  rw [this] at h1
  cases h1
  exact absurd h2 (by decide)

example := C03_any_modulus 2 9 (by norm_num)
/-- Modulo the Carmichael number 561 the answer is right for 2. -/
example : inverse 2 561 = .ok 281 ∧ (2 * 281) % 561 = 1 := by decide +kernel

/-- C04: the size of the coefficients.  `|x| g ≤ max(g, |b|)` and `|y| g ≤ max(g, |a|)`. -/
theorem C04_coefficients (a b g x y : ℤ) (h : extendedGcd a b = (g, x, y)) :
    |x| * |g| ≤ max |g| |b| ∧ |y| * |g| ≤ max |g| |a| := by
  induction hm : a.natAbs using Nat.strong_induction_on generalizing a b g x y with
  | _ m ih =>
    rw [extendedGcd] at h
    split_ifs at h with h0
    · cases h
      simp
    · rcases ht : extendedGcd (b.tmod a) a with ⟨g', x', y'⟩
      simp only [ht, Prod.mk.injEq] at h
      obtain ⟨rfl, rfl, rfl⟩ := h
      have hlt : (b.tmod a).natAbs < m := by
        rw [Int.natAbs_tmod, ← hm]
        exact Nat.mod_lt _ (by omega)
      obtain ⟨i1, i2⟩ := ih _ hlt (b.tmod a) a g' x' y' ht rfl
      obtain ⟨-, hg, -⟩ := C04_extended_gcd _ _ _ _ _ ht
      have ha : |g'| ≤ |a| := by
        rw [Int.abs_eq_natAbs, Int.abs_eq_natAbs, hg]
        exact_mod_cast Nat.le_of_dvd (by omega) (Int.natCast_dvd.1 (Int.gcd_dvd_right _ _))
      have hb : |b| = |b.tmod a| + |b.tdiv a| * |a| := by
        rw [Int.abs_eq_natAbs, Int.abs_eq_natAbs, Int.abs_eq_natAbs, Int.abs_eq_natAbs, Int.natAbs_tmod, Int.natAbs_tdiv]
        exact_mod_cast (Nat.mod_add_div' _ _).symm
      rw [max_eq_right ha] at i1
      refine ⟨?_, i1.trans (le_max_right _ _)⟩
      by_cases hr : b.tmod a = 0
      · rw [hr, extendedGcd, if_pos rfl] at ht
        cases ht
        simp
      · have hr' : |g'| ≤ |b.tmod a| := by
          rw [Int.abs_eq_natAbs, Int.abs_eq_natAbs, hg]
          exact_mod_cast Nat.le_of_dvd (by omega) (Int.natCast_dvd.1 (Int.gcd_dvd_left _ _))
        rw [max_eq_right hr'] at i2
        refine le_max_of_le_right ?_
        have h1 : |y' - b.tdiv a * x'| ≤ |y'| + |b.tdiv a| * |x'| := by
          rw [← abs_mul]; exact abs_sub _ _
        have h2 := mul_le_mul_of_nonneg_right h1 (abs_nonneg g')
        have h3 := mul_le_mul_of_nonneg_left i1 (abs_nonneg (b.tdiv a))
        rw [hb]
        nlinarith

example : extendedGcd 240 46 = (2, -9, 47) := by decide +kernel
example := C04_coefficients 240 46 2 (-9) 47 (by decide +kernel)

end EC
