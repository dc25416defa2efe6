import Verif.Lemmas.TwoIsogenyCount
import Verif.Props.SeaTwo
import Verif.Props.Singular

/-! Property C93: a curve and its quotient by a point of order 2 have the same number of points. -/

namespace EC

open Poly

/-- **C93.**  Let `(e, 0)` be a nonsingular point of `y^2 = x^3 + a x + b` over GF(p), `p` an odd prime.  The curve built with
the coefficients of Vélu's formulas for the quotient by `(e, 0)` (or any integers congruent to them) has the same
`cardinality()`. -/
theorem C93_two_isogeny (a b p e a' b' : ℤ) (ec ec' : EllipticCurve) (h : EllipticCurve.new a b p = .ok ec)
    (h' : EllipticCurve.new a' b' p = .ok ec') (hne : p ≠ 2) (he : p ∣ e ^ 3 + a * e + b) (hs : ¬ p ∣ 3 * e ^ 2 + a)
    (ha : a' ≡ a - 5 * (3 * e ^ 2 + a) [ZMOD p]) (hb : b' ≡ b - 7 * (e * (3 * e ^ 2 + a)) [ZMOD p]) :
    ec'.cardinality = ec.cardinality := by
  obtain ⟨hf, ea, eb, ep, hpr, hlt⟩ := fair_of_new hne h
  have : Fact (Nat.Prime p.toNat) := ⟨hpr⟩
  have hp2 := hpr.two_le
  have hp : 2 < p := by omega
  have h2 : ringChar (ZMod p.toNat) ≠ 2 := by rw [ZMod.ringChar_zmod_n]; omega
  have s1 := C87_cardinality_sum a b p ec h hne
  have s2 := C87_cardinality_sum a' b' p ec' h' hne
  rw [sum_legendre] at s1 s2
  have za := cast_of_modEq hp ha
  have zb := cast_of_modEq hp hb
  have ze : (e : ZMod p.toNat) ^ 3 + a * e + b = 0 := by
    have := (zmod_eq_zero_iff (by omega) _).2 he
    push_cast at this
    exact this
  have zs : 3 * (e : ZMod p.toNat) ^ 2 + a ≠ 0 := by
    intro h0
    apply hs
    rw [← zmod_eq_zero_iff (by omega)]
    push_cast
    exact h0
  have key := char_sum_velu2 h2 (a : ZMod p.toNat) b e ze zs
  push_cast at za zb
  rw [za, zb] at s2
  have key' : ∑ x : ZMod p.toNat, quadraticChar (ZMod p.toNat) (x ^ 3 + a * x + b) =
      ∑ x : ZMod p.toNat, quadraticChar (ZMod p.toNat) (x ^ 3 + (a - 5 * (3 * (e : ZMod p.toNat) ^ 2 + a)) * x +
        (b - 7 * (e * (3 * (e : ZMod p.toNat) ^ 2 + a)))) := key
  rw [← key'] at s2
  omega

/-- C93 is met: `y^2 = x^3 + 2x - 3` over GF(1009) has the point `(1, 0)`, and the quotient is `y^2 = x^3 - 23x - 38`. -/
example : ∃ ec ec', EllipticCurve.new 2 (-3) 1009 = .ok ec ∧ EllipticCurve.new (-23) (-38) 1009 = .ok ec' ∧
    ec'.cardinality = ec.cardinality := by
  have hp : Nat.Prime (1009 : ℤ).toNat := by rw [show (1009 : ℤ).toNat = 1009 from rfl]; norm_num
  exact ⟨_, _, new_eq hp (by norm_num), new_eq hp (by norm_num),
    C93_two_isogeny 2 (-3) 1009 1 (-23) (-38) _ _ (new_eq hp (by norm_num))
      (new_eq hp (by norm_num)) (by norm_num) (by norm_num) (by norm_num)
      (by norm_num) (by norm_num)⟩

end EC
