import Verif.Props.Hasse
import Verif.Lemmas.Twist
import Mathlib.NumberTheory.LegendreSymbol.Basic

/-! Property C82: isomorphic curves and twists; curves with `p + 1` points. -/

namespace EC
open EllipticCurve WeierstrassCurve EDS

section
variable {F : Type} [Field F] [Fintype F] [DecidableEq F] {a b : F}

theorem card_scale (h2 : ringChar F ≠ 2) (hd : 4 * a ^ 3 + 27 * b ^ 2 ≠ 0) {c : F} (hc0 : c ≠ 0) :
    (Nat.card (Pt (c ^ 2 * a) (c ^ 3 * b)) : ℤ) - (Fintype.card F + 1) =
      quadraticChar F c * ((Nat.card (Pt a b) : ℤ) - (Fintype.card F + 1)) := by
  have hd' : 4 * (c ^ 2 * a) ^ 3 + 27 * (c ^ 3 * b) ^ 2 ≠ 0 := by
    have : 4 * (c ^ 2 * a) ^ 3 + 27 * (c ^ 3 * b) ^ 2 = c ^ 6 * (4 * a ^ 3 + 27 * b ^ 2) := by ring
    rw [this]; exact mul_ne_zero (pow_ne_zero _ hc0) hd
  rw [card_points h2 hd, card_points h2 hd']
  have e : ∑ x : F, quadraticChar F (x ^ 3 + (c ^ 2 * a) * x + c ^ 3 * b) =
      ∑ x : F, quadraticChar F c * quadraticChar F (x ^ 3 + a * x + b) := by
    rw [← Equiv.sum_comp (Equiv.mulLeft₀ c hc0)]
    apply Finset.sum_congr rfl
    intro x _
    have h3 : quadraticChar F c ^ 3 = quadraticChar F c := by
      rcases quadraticChar_dichotomy hc0 with h | h <;> rw [h] <;> norm_num
    rw [Equiv.mulLeft₀_apply, show (c * x) ^ 3 + c ^ 2 * a * (c * x) + c ^ 3 * b = c ^ 3 * (x ^ 3 + a * x + b) by ring,
      map_mul, map_pow, h3]
  rw [e, ← Finset.mul_sum]
  ring

/-- Curves with the same `j`, not 0 or 1728, differ by a scaling. -/
theorem exists_scale (h3 : (3 : F) ≠ 0) {a b a' b' : F} (ha : a ≠ 0) (hb : b ≠ 0) (ha' : a' ≠ 0)
    (h : a ^ 3 * (4 * a' ^ 3 + 27 * b' ^ 2) = a' ^ 3 * (4 * a ^ 3 + 27 * b ^ 2)) (hb' : b' ≠ 0) :
    ∃ c : F, c ≠ 0 ∧ a' = c ^ 2 * a ∧ b' = c ^ 3 * b := by
  have hk : a ^ 3 * b' ^ 2 = a' ^ 3 * b ^ 2 := by
    have : (3 : F) ^ 3 * (a ^ 3 * b' ^ 2 - a' ^ 3 * b ^ 2) = 0 := by linear_combination h
    exact sub_eq_zero.1 ((mul_eq_zero.1 this).resolve_left (pow_ne_zero _ h3))
  refine ⟨b' * a / (b * a'), div_ne_zero (mul_ne_zero hb' ha) (mul_ne_zero hb ha'), ?_, ?_⟩
  · field_simp
    linear_combination -hk
  · field_simp
    linear_combination -hk

/-- `#E = q + 1` for `a = 0`, if cubing is a bijection. -/
theorem card_j_zero (h2 : ringChar F ≠ 2) (hd : 4 * a ^ 3 + 27 * b ^ 2 ≠ 0) (ha : a = 0)
    (hb : Function.Bijective fun x : F => x ^ 3) : (Nat.card (Pt a b) : ℤ) = Fintype.card F + 1 := by
  rw [card_points h2 hd]
  have e : ∑ x : F, quadraticChar F (x ^ 3 + a * x + b) = ∑ x : F, quadraticChar F x := by
    rw [← Equiv.sum_comp ((Equiv.ofBijective _ hb).trans (Equiv.addRight b)) fun x => quadraticChar F x]
    apply Finset.sum_congr rfl
    intro x _
    simp [ha]
  rw [e, quadraticChar_sum_zero h2, add_zero]

/-- `#E = q + 1` for `b = 0`, if `-1` is not a square. -/
theorem card_j_1728 (h2 : ringChar F ≠ 2) (hd : 4 * a ^ 3 + 27 * b ^ 2 ≠ 0) (hb : b = 0)
    (h1 : ¬ IsSquare (-1 : F)) : (Nat.card (Pt a b) : ℤ) = Fintype.card F + 1 := by
  rw [card_points h2 hd]
  have e : ∑ x : F, quadraticChar F (x ^ 3 + a * x + b) = ∑ x : F, -quadraticChar F (x ^ 3 + a * x + b) := by
    rw [← Equiv.sum_comp (Equiv.neg F)]
    apply Finset.sum_congr rfl
    intro x _
    rw [Equiv.neg_apply, show (-x) ^ 3 + a * -x + b = (-1) * (x ^ 3 + a * x + b) by rw [hb]; ring, map_mul,
      quadraticChar_neg_one_iff_not_isSquare.2 h1]
    ring
  rw [Finset.sum_neg_distrib] at e
  omega

end

/-- Data of a curve made by `new`. -/
theorem new_data {a b p : ℤ} {ec : EllipticCurve} (h : EllipticCurve.new a b p = .ok ec)
    (hne : p ≠ 2) (hd : ¬ p ∣ 4 * a ^ 3 + 27 * b ^ 2) :
    ec.Good ∧ ec.a = a ∧ ec.b = b ∧ ec.p = p ∧ Nat.Prime p.toNat ∧ 2 < p ∧
      (∀ [Fact (Nat.Prime p.toNat)], ec.cardinality = Nat.card (Pt (a : ZMod p.toNat) (b : ZMod p.toNat))) := by
  obtain ⟨hg, hp, hb, -⟩ := good_of_new hne hd h
  have hpr : Nat.Prime p.toNat := hp ▸ hg.prime
  obtain ⟨ec', e1, e2, e3, -⟩ := C45_new a b p hpr hb
  rw [h] at e1; cases e1
  exact ⟨hg, e2, e3, hp, hpr, by have := hpr.two_le; omega, fun {_} => C45_cardinality a b p ec h hne hd⟩

theorem zmod_data {a b p : ℤ} [Fact (Nat.Prime p.toNat)] (hp : 2 < p) (hd : ¬ p ∣ 4 * a ^ 3 + 27 * b ^ 2) :
    ringChar (ZMod p.toNat) ≠ 2 ∧ 4 * (a : ZMod p.toNat) ^ 3 + 27 * (b : ZMod p.toNat) ^ 2 ≠ 0 ∧
      (Fintype.card (ZMod p.toNat) : ℤ) = p := by
  refine ⟨?_, ?_, ?_⟩
  · rw [ZMod.ringChar_zmod_n]; omega
  · intro h0
    exact hd ((zmod_eq_zero_iff (by omega) _).1 (by push_cast; exact h0))
  · rw [ZMod.card]; omega

theorem cube_bijective {p : ℕ} [Fact p.Prime] (h3 : p % 3 = 2) : Function.Bijective fun x : ZMod p => x ^ 3 := by
  have hp := Fact.out (p := p.Prime)
  apply Finite.injective_iff_bijective.1
  obtain ⟨k, hk⟩ : ∃ k, 3 * k = 2 * (p - 1) + 1 := ⟨(2 * (p - 1) + 1) / 3, by have := hp.two_le; omega⟩
  have key : ∀ x : ZMod p, (x ^ 3) ^ k = x := by
    intro x
    by_cases hx : x = 0
    · subst hx
      rw [← pow_mul, hk, pow_succ, mul_zero]
    · rw [← pow_mul, hk, pow_succ, mul_comm 2, pow_mul, ZMod.pow_card_sub_one_eq_one hx, one_pow, one_mul]
  intro x y hxy
  rw [← key x, ← key y]
  exact congrArg (· ^ k) hxy

theorem cast_of_modEq {p x y : ℤ} (hp : 2 < p) (h : x ≡ y [ZMOD p]) : (x : ZMod p.toNat) = y := by
  rw [ZMod.intCast_eq_intCast_iff]
  rwa [Int.toNat_of_nonneg (by omega)]

theorem new_j_eq {a b p a' b' : ℤ} {ec ec' : EllipticCurve} (h : EllipticCurve.new a b p = .ok ec)
    (h' : EllipticCurve.new a' b' p = .ok ec') (hne : p ≠ 2) (hd : ¬ p ∣ 4 * a ^ 3 + 27 * b ^ 2)
    (hd' : ¬ p ∣ 4 * a' ^ 3 + 27 * b' ^ 2)
    (e : 1728 * 4 * ((a : ZMod p.toNat) ^ 3 * (4 * (a' : ZMod p.toNat) ^ 3 + 27 * (b' : ZMod p.toNat) ^ 2)) =
      1728 * 4 * ((a' : ZMod p.toNat) ^ 3 * (4 * (a : ZMod p.toNat) ^ 3 + 27 * (b : ZMod p.toNat) ^ 2))) :
    ec.jInvariant = ec'.jInvariant := by
  obtain ⟨hg, ea, eb, ep, hpr, hp, -⟩ := new_data h hne hd
  obtain ⟨hg', ea', eb', ep', -, -, -⟩ := new_data h' hne hd'
  have : Fact (Nat.Prime p.toNat) := ⟨hpr⟩
  obtain ⟨-, hD, -⟩ := zmod_data hp hd
  obtain ⟨-, hD', -⟩ := zmod_data hp hd'
  obtain ⟨j, f1, f2, f3, f4⟩ := C50_j_invariant hg
  obtain ⟨j', g1, g2, g3, g4⟩ := C50_j_invariant hg'
  rw [ea, eb, ep] at f4
  rw [ea', eb', ep'] at g4
  rw [ep] at f3
  rw [ep'] at g3
  rw [f1, g1]
  congr 1
  have f5 := (zmod_eq_zero_iff (show 0 ≤ p by omega) _).2 (Int.dvd_of_emod_eq_zero f4)
  have g5 := (zmod_eq_zero_iff (show 0 ≤ p by omega) _).2 (Int.dvd_of_emod_eq_zero g4)
  push_cast at f5 g5
  have hj : (j : ZMod p.toNat) = j' := by
    have : ((j : ZMod p.toNat) - j') * ((4 * (a : ZMod p.toNat) ^ 3 + 27 * (b : ZMod p.toNat) ^ 2) *
        (4 * (a' : ZMod p.toNat) ^ 3 + 27 * (b' : ZMod p.toNat) ^ 2)) = 0 := by
      linear_combination (4 * (a' : ZMod p.toNat) ^ 3 + 27 * (b' : ZMod p.toNat) ^ 2) * f5 -
        (4 * (a : ZMod p.toNat) ^ 3 + 27 * (b : ZMod p.toNat) ^ 2) * g5 + e
    exact sub_eq_zero.1 ((mul_eq_zero.1 this).resolve_right (mul_ne_zero hD hD'))
  rw [ZMod.intCast_eq_intCast_iff, Int.toNat_of_nonneg (by omega)] at hj
  unfold Int.ModEq at hj
  rwa [Int.emod_eq_of_lt f2 f3, Int.emod_eq_of_lt g2 g3] at hj

theorem same_j {a b p a' b' : ℤ} {ec ec' : EllipticCurve} (h : EllipticCurve.new a b p = .ok ec)
    (h' : EllipticCurve.new a' b' p = .ok ec') (hne : p ≠ 2) (hd : ¬ p ∣ 4 * a ^ 3 + 27 * b ^ 2)
    (hd' : ¬ p ∣ 4 * a' ^ 3 + 27 * b' ^ 2) (hj : ec.jInvariant = ec'.jInvariant) :
    1728 * 4 * ((a : ZMod p.toNat) ^ 3 * (4 * (a' : ZMod p.toNat) ^ 3 + 27 * (b' : ZMod p.toNat) ^ 2)) =
      1728 * 4 * ((a' : ZMod p.toNat) ^ 3 * (4 * (a : ZMod p.toNat) ^ 3 + 27 * (b : ZMod p.toNat) ^ 2)) := by
  obtain ⟨hg, ea, eb, ep, hpr, hp, -⟩ := new_data h hne hd
  obtain ⟨hg', ea', eb', ep', -, -, -⟩ := new_data h' hne hd'
  have : Fact (Nat.Prime p.toNat) := ⟨hpr⟩
  obtain ⟨j, f1, f2, f3, f4⟩ := C50_j_invariant hg
  obtain ⟨j', g1, g2, g3, g4⟩ := C50_j_invariant hg'
  rw [ea, eb, ep] at f4
  rw [ea', eb', ep'] at g4
  rw [f1, g1] at hj
  cases hj
  have f5 := (zmod_eq_zero_iff (show 0 ≤ p by omega) _).2 (Int.dvd_of_emod_eq_zero f4)
  have g5 := (zmod_eq_zero_iff (show 0 ≤ p by omega) _).2 (Int.dvd_of_emod_eq_zero g4)
  push_cast at f5 g5
  linear_combination (4 * (a : ZMod p.toNat) ^ 3 + 27 * (b : ZMod p.toNat) ^ 2) * g5 -
    (4 * (a' : ZMod p.toNat) ^ 3 + 27 * (b' : ZMod p.toNat) ^ 2) * f5

/-- C82: for `u` not divisible by `p`, the curves with coefficients `a, b` and `u^4 a, u^6 b` (modulo `p`) have the same
number of points and the same j-invariant.  (In particular `u = 1`: only the residues of `a` and `b` matter.) -/
theorem C82_isomorphic (a b p a' b' u : ℤ) (ec ec' : EllipticCurve) (h : EllipticCurve.new a b p = .ok ec)
    (h' : EllipticCurve.new a' b' p = .ok ec') (hne : p ≠ 2) (hd : ¬ p ∣ 4 * a ^ 3 + 27 * b ^ 2) (hu : ¬ p ∣ u)
    (ha : a' ≡ u ^ 4 * a [ZMOD p]) (hb : b' ≡ u ^ 6 * b [ZMOD p]) :
    ec'.cardinality = ec.cardinality ∧ ec'.jInvariant = ec.jInvariant := by
  obtain ⟨hg, -, -, -, hpr, hp, hc⟩ := new_data h hne hd
  have : Fact (Nat.Prime p.toNat) := ⟨hpr⟩
  have hu0 : (u : ZMod p.toNat) ≠ 0 := fun h0 => hu ((zmod_eq_zero_iff (by omega) u).1 h0)
  have za : (a' : ZMod p.toNat) = ((u : ZMod p.toNat) ^ 2) ^ 2 * a := by
    rw [cast_of_modEq hp ha]; push_cast; ring
  have zb : (b' : ZMod p.toNat) = ((u : ZMod p.toNat) ^ 2) ^ 3 * b := by
    rw [cast_of_modEq hp hb]; push_cast; ring
  obtain ⟨h2, hD, -⟩ := zmod_data hp hd
  have hd' : ¬ p ∣ 4 * a' ^ 3 + 27 * b' ^ 2 := by
    intro h0
    have h0 := (zmod_eq_zero_iff (show 0 ≤ p by omega) _).2 h0
    push_cast at h0
    rw [za, zb] at h0
    apply mul_ne_zero (pow_ne_zero 12 hu0) hD
    linear_combination h0
  obtain ⟨-, -, -, -, -, -, hc'⟩ := new_data h' hne hd'
  refine ⟨?_, (new_j_eq h h' hne hd hd' (by rw [za, zb]; ring)).symm⟩
  have := card_scale h2 hD (pow_ne_zero 2 hu0)
  rw [quadraticChar_sq_one' hu0, one_mul, ← za, ← zb, ← hc, ← hc'] at this
  omega

/-- C82: for `c` not a square modulo `p`, the curve and its twist, with coefficients `c^2 a, c^3 b`, have `2 p + 2` points
together, and the same j-invariant. -/
theorem C82_twist (a b p a' b' c : ℤ) (ec ec' : EllipticCurve) (h : EllipticCurve.new a b p = .ok ec)
    (h' : EllipticCurve.new a' b' p = .ok ec') (hne : p ≠ 2) (hd : ¬ p ∣ 4 * a ^ 3 + 27 * b ^ 2)
    (hns : ¬ ∃ s : ℤ, s ^ 2 ≡ c [ZMOD p])
    (ha : a' ≡ c ^ 2 * a [ZMOD p]) (hb : b' ≡ c ^ 3 * b [ZMOD p]) :
    (ec.cardinality : ℤ) + ec'.cardinality = 2 * p + 2 ∧ ec'.jInvariant = ec.jInvariant := by
  obtain ⟨hg, -, -, -, hpr, hp, hc⟩ := new_data h hne hd
  have : Fact (Nat.Prime p.toNat) := ⟨hpr⟩
  have hsq : ¬ IsSquare (c : ZMod p.toNat) := by
    rintro ⟨s, hs⟩
    apply hns
    refine ⟨(s.val : ℤ), ?_⟩
    have e : (((s.val : ℤ) ^ 2 : ℤ) : ZMod p.toNat) = c := by
      push_cast; rw [ZMod.natCast_zmod_val, hs, pow_two]
    rw [ZMod.intCast_eq_intCast_iff, Int.toNat_of_nonneg (by omega)] at e
    exact e
  have hc0 : (c : ZMod p.toNat) ≠ 0 := by intro h0; rw [h0] at hsq; exact hsq (by simp)
  have za : (a' : ZMod p.toNat) = (c : ZMod p.toNat) ^ 2 * a := by
    rw [cast_of_modEq hp ha]; push_cast; ring
  have zb : (b' : ZMod p.toNat) = (c : ZMod p.toNat) ^ 3 * b := by
    rw [cast_of_modEq hp hb]; push_cast; ring
  obtain ⟨h2, hD, hF⟩ := zmod_data hp hd
  have hd' : ¬ p ∣ 4 * a' ^ 3 + 27 * b' ^ 2 := by
    intro h0
    have h0 := (zmod_eq_zero_iff (show 0 ≤ p by omega) _).2 h0
    push_cast at h0
    rw [za, zb] at h0
    apply mul_ne_zero (pow_ne_zero 6 hc0) hD
    linear_combination h0
  obtain ⟨-, -, -, -, -, -, hc'⟩ := new_data h' hne hd'
  refine ⟨?_, (new_j_eq h h' hne hd hd' (by rw [za, zb]; ring)).symm⟩
  have := card_twist h2 hD hsq
  rw [← za, ← zb, ← hc, ← hc', hF] at this
  exact this

/-- C82: two curves over GF(p), `p > 3`, with the same j-invariant, not 0 or 1728, have the same number of points, or
`2 p + 2` points together. -/
theorem C82_same_j (a b p a' b' : ℤ) (ec ec' : EllipticCurve) (h : EllipticCurve.new a b p = .ok ec)
    (h' : EllipticCurve.new a' b' p = .ok ec') (h3 : 3 < p) (hd : ¬ p ∣ 4 * a ^ 3 + 27 * b ^ 2)
    (hd' : ¬ p ∣ 4 * a' ^ 3 + 27 * b' ^ 2) (ha : ¬ p ∣ a) (hb : ¬ p ∣ b)
    (hj : ec'.jInvariant = ec.jInvariant) :
    ec'.cardinality = ec.cardinality ∨ (ec.cardinality : ℤ) + ec'.cardinality = 2 * p + 2 := by
  obtain ⟨hg, -, -, -, hpr, hp, hc⟩ := new_data h (by omega) hd
  obtain ⟨-, -, -, -, -, -, hc'⟩ := new_data h' (by omega) hd'
  have : Fact (Nat.Prime p.toNat) := ⟨hpr⟩
  obtain ⟨h2, hD, hF⟩ := zmod_data hp hd
  obtain ⟨-, hD', -⟩ := zmod_data hp hd'
  have hz : ∀ n : ℤ, (n : ZMod p.toNat) = 0 → p ∣ n := fun n => (zmod_eq_zero_iff (by omega) n).1
  have z2 : (2 : ZMod p.toNat) ≠ 0 := fun h0 => by
    have := Int.le_of_dvd (by norm_num) (hz 2 (by exact_mod_cast h0)); omega
  have z3 : (3 : ZMod p.toNat) ≠ 0 := fun h0 => by
    have := Int.le_of_dvd (by norm_num) (hz 3 (by exact_mod_cast h0)); omega
  have za : (a : ZMod p.toNat) ≠ 0 := fun h0 => ha (hz a h0)
  have zb : (b : ZMod p.toNat) ≠ 0 := fun h0 => hb (hz b h0)
  have e := same_j h h' (by omega) hd hd' hj.symm
  have z4 : (1728 * 4 : ZMod p.toNat) ≠ 0 := by
    rw [show (1728 * 4 : ZMod p.toNat) = 2 ^ 8 * 3 ^ 3 by norm_num]
    exact mul_ne_zero (pow_ne_zero _ z2) (pow_ne_zero _ z3)
  have e := mul_left_cancel₀ z4 e
  have za' : (a' : ZMod p.toNat) ≠ 0 := by
    intro h0
    rw [h0] at e hD'
    have : (a : ZMod p.toNat) ^ 3 * (4 * 0 ^ 3 + 27 * (b' : ZMod p.toNat) ^ 2) = 0 := by rw [e]; ring
    exact (mul_ne_zero (pow_ne_zero _ za) hD') this
  have zb' : (b' : ZMod p.toNat) ≠ 0 := by
    intro h0
    rw [h0] at e
    have : (3 : ZMod p.toNat) ^ 3 * ((a' : ZMod p.toNat) ^ 3 * (b : ZMod p.toNat) ^ 2) = 0 := by linear_combination -e
    exact mul_ne_zero (pow_ne_zero _ z3) (mul_ne_zero (pow_ne_zero _ za') (pow_ne_zero _ zb)) this
  obtain ⟨c, hc0, e1, e2⟩ := exists_scale z3 za zb za' e zb'
  have := card_scale h2 hD hc0
  rw [← e1, ← e2, ← hc, ← hc', hF] at this
  rcases quadraticChar_dichotomy hc0 with hq | hq
  · rw [hq] at this; left; omega
  · rw [hq] at this; right; omega

/-- C82: `y^2 = x^3 + b` over GF(p), `p = 2` modulo 3, has `p + 1` points. -/
theorem C82_j_zero (a b p : ℤ) (ec : EllipticCurve) (h : EllipticCurve.new a b p = .ok ec) (hne : p ≠ 2)
    (hd : ¬ p ∣ 4 * a ^ 3 + 27 * b ^ 2) (ha : p ∣ a) (h3 : p % 3 = 2) : (ec.cardinality : ℤ) = p + 1 := by
  obtain ⟨hg, -, -, -, hpr, hp, hc⟩ := new_data h hne hd
  have : Fact (Nat.Prime p.toNat) := ⟨hpr⟩
  obtain ⟨h2, hD, hF⟩ := zmod_data hp hd
  rw [hc, card_j_zero h2 hD ((zmod_eq_zero_iff (by omega) a).2 ha) (cube_bijective (by omega)), hF]

/-- C82: `y^2 = x^3 + a x` over GF(p), `p = 3` modulo 4, has `p + 1` points. -/
theorem C82_j_1728 (a b p : ℤ) (ec : EllipticCurve) (h : EllipticCurve.new a b p = .ok ec)
    (hd : ¬ p ∣ 4 * a ^ 3 + 27 * b ^ 2) (hb : p ∣ b) (h4 : p % 4 = 3) : (ec.cardinality : ℤ) = p + 1 := by
  obtain ⟨hg, -, -, -, hpr, hp, hc⟩ := new_data h (by omega) hd
  have : Fact (Nat.Prime p.toNat) := ⟨hpr⟩
  obtain ⟨h2, hD, hF⟩ := zmod_data hp hd
  rw [hc, card_j_1728 h2 hD ((zmod_eq_zero_iff (by omega) b).2 hb) (by
    rw [ZMod.exists_sq_eq_neg_one_iff]; omega), hF]

/-! The hypotheses are met: the curves `y^2 = x^3 + x + 1` and `y^2 = x^3 + 2 x + 1` (`u = 2`: `16 = 2`, `64 = 1`), the
twist of the first by `c = 3` (`9 = 2`, `27 = 6`), and the curves `y^2 = x^3 + x` over GF(7), `y^2 = x^3 + 1` over GF(5). -/
example : ∃ ec ec' ec'' : EllipticCurve, EllipticCurve.new 1 1 7 = .ok ec ∧ EllipticCurve.new 2 1 7 = .ok ec' ∧
    EllipticCurve.new 2 6 7 = .ok ec'' ∧ ¬ (7 : ℤ) ∣ 4 * 1 ^ 3 + 27 * 1 ^ 2 ∧ ¬ (7 : ℤ) ∣ 2 ∧
    (2 : ℤ) ≡ 2 ^ 4 * 1 [ZMOD 7] ∧ (1 : ℤ) ≡ 2 ^ 6 * 1 [ZMOD 7] ∧ (¬ ∃ s : ℤ, s ^ 2 ≡ 3 [ZMOD 7]) ∧
    (2 : ℤ) ≡ 3 ^ 2 * 1 [ZMOD 7] ∧ (6 : ℤ) ≡ 3 ^ 3 * 1 [ZMOD 7] ∧ ec'.cardinality = ec.cardinality ∧
    (ec.cardinality : ℤ) + ec''.cardinality = 16 := by
  have hns : ¬ ∃ s : ℤ, s ^ 2 ≡ 3 [ZMOD 7] := by
    rintro ⟨s, hs⟩
    have h1 : s % 7 = 0 ∨ s % 7 = 1 ∨ s % 7 = 2 ∨ s % 7 = 3 ∨ s % 7 = 4 ∨ s % 7 = 5 ∨ s % 7 = 6 := by omega
    unfold Int.ModEq at hs
    rcases h1 with h | h | h | h | h | h | h <;> simp [pow_two, Int.mul_emod, h] at hs
  obtain ⟨ec, h⟩ : ∃ ec, EllipticCurve.new 1 1 7 = .ok ec := ⟨_, new_eq (show Nat.Prime 7 by norm_num) (by norm_num)⟩
  obtain ⟨ec', h'⟩ : ∃ ec, EllipticCurve.new 2 1 7 = .ok ec := ⟨_, new_eq (show Nat.Prime 7 by norm_num) (by norm_num)⟩
  obtain ⟨ec'', h''⟩ : ∃ ec, EllipticCurve.new 2 6 7 = .ok ec := ⟨_, new_eq (show Nat.Prime 7 by norm_num) (by norm_num)⟩
  refine ⟨ec, ec', ec'', h, h', h'', by decide, by decide, by decide, by decide, hns, by decide, by decide, ?_, ?_⟩
  · exact (C82_isomorphic 1 1 7 2 1 2 ec ec' h h' (by decide) (by decide) (by decide) (by decide) (by decide)).1
  · exact (C82_twist 1 1 7 2 6 3 ec ec'' h h'' (by decide) (by decide) hns (by decide) (by decide)).1

example : ∃ ec ec' : EllipticCurve, EllipticCurve.new 1 0 7 = .ok ec ∧ EllipticCurve.new 0 1 5 = .ok ec' ∧
    (ec.cardinality : ℤ) = 8 ∧ (ec'.cardinality : ℤ) = 6 := by
  obtain ⟨ec, h⟩ : ∃ ec, EllipticCurve.new 1 0 7 = .ok ec := ⟨_, new_eq (show Nat.Prime 7 by norm_num) (by norm_num)⟩
  obtain ⟨ec', h'⟩ : ∃ ec, EllipticCurve.new 0 1 5 = .ok ec := ⟨_, new_eq (show Nat.Prime 5 by norm_num) (by norm_num)⟩
  exact ⟨ec, ec', h, h', C82_j_1728 1 0 7 ec h (by decide) (by decide) (by decide),
    C82_j_zero 0 1 5 ec' h' (by decide) (by decide) (by decide) (by decide)⟩

/-- `C82_same_j` for the curve and its twist. -/
example : ∃ ec ec' : EllipticCurve, EllipticCurve.new 1 1 7 = .ok ec ∧ EllipticCurve.new 2 6 7 = .ok ec' ∧
    ec'.jInvariant = ec.jInvariant ∧ ¬ (7 : ℤ) ∣ 1 := by
  have hns : ¬ ∃ s : ℤ, s ^ 2 ≡ 3 [ZMOD 7] := by
    rintro ⟨s, hs⟩
    have h1 : s % 7 = 0 ∨ s % 7 = 1 ∨ s % 7 = 2 ∨ s % 7 = 3 ∨ s % 7 = 4 ∨ s % 7 = 5 ∨ s % 7 = 6 := by omega
    unfold Int.ModEq at hs
    rcases h1 with h | h | h | h | h | h | h <;> simp [pow_two, Int.mul_emod, h] at hs
  obtain ⟨ec, h⟩ : ∃ ec, EllipticCurve.new 1 1 7 = .ok ec := ⟨_, new_eq (show Nat.Prime 7 by norm_num) (by norm_num)⟩
  obtain ⟨ec', h'⟩ : ∃ ec, EllipticCurve.new 2 6 7 = .ok ec := ⟨_, new_eq (show Nat.Prime 7 by norm_num) (by norm_num)⟩
  exact ⟨ec, ec', h, h', (C82_twist 1 1 7 2 6 3 ec ec' h h' (by decide) (by decide) hns (by decide) (by decide)).2,
    by decide⟩

end EC
