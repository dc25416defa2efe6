import Verif.Lemmas.FrobCharAll
import Verif.Props.Secp256k1

/-! Properties C70 and C71: Hasse's bound for the number of points, and the order of the group of secp256k1. -/

namespace EC
open EllipticCurve WeierstrassCurve

/-- Hasse's bound over GF(p). -/
theorem hasse_zmod (a b p : ℤ) (hp : Nat.Prime p.toNat) (hne : p ≠ 2) (hd : ¬ p ∣ 4 * a ^ 3 + 27 * b ^ 2) :
    (p + 1 - Nat.card (shortW (a : ZMod p.toNat) (b : ZMod p.toNat)).toAffine.Point) ^ 2 ≤ 4 * p := by
  have : Fact (Nat.Prime p.toNat) := ⟨hp⟩
  have hp2 : 2 ≤ p := by have := hp.two_le; omega
  have hpz : ((p.toNat : ℕ) : ℤ) = p := Int.toNat_of_nonneg (by omega)
  have hcast : ∀ n : ℤ, ((n : ℤ) : ZMod p.toNat) = 0 → p ∣ n := by
    intro n hn
    have := (ZMod.intCast_zmod_eq_zero_iff_dvd n p.toNat).1 hn
    rwa [hpz] at this
  have h2 : (2 : ZMod p.toNat) ≠ 0 := by
    intro h0
    have := Int.le_of_dvd (by norm_num) (hcast 2 (by exact_mod_cast h0))
    omega
  have hd' : 4 * (a : ZMod p.toNat) ^ 3 + 27 * (b : ZMod p.toNat) ^ 2 ≠ 0 := by
    intro h0
    exact hd (hcast _ (by push_cast; exact h0))
  have := hasse h2 hd'
  unfold trc at this
  rw [ZMod.card, hpz] at this
  exact this

/-- C70: Hasse's bound: for a nonsingular curve over GF(p), `p` an odd prime, the `cardinality` `N` of the curve built
by `EllipticCurve::new` satisfies `(p + 1 - N)^2 ≤ 4 p`. -/
theorem C70_hasse (a b p : ℤ) (ec : EllipticCurve) (h : EllipticCurve.new a b p = .ok ec)
    (hne : p ≠ 2) (hd : ¬ p ∣ 4 * a ^ 3 + 27 * b ^ 2) : (p + 1 - ec.cardinality) ^ 2 ≤ 4 * p := by
  obtain ⟨hg, hp, -, -⟩ := good_of_new hne hd h
  have := hasse_zmod a b p (hp ▸ hg.prime) hne hd
  rw [C45_cardinality a b p ec h hne hd]
  exact this

/-- C70: in particular there are points besides `O` if `p > 4`, and never more than `2 p + 1` points. -/
theorem C70_bounds (a b p : ℤ) (ec : EllipticCurve) (h : EllipticCurve.new a b p = .ok ec)
    (hne : p ≠ 2) (hd : ¬ p ∣ 4 * a ^ 3 + 27 * b ^ 2) :
    (5 ≤ p → 2 ≤ (ec.cardinality : ℤ)) ∧ (ec.cardinality : ℤ) ≤ 2 * p + 1 ∧ 1 ≤ (ec.cardinality : ℤ) := by
  obtain ⟨hg, hp, -, -⟩ := good_of_new hne hd h
  have hp2 : 2 ≤ p := by have := (hp ▸ hg.prime : Nat.Prime p.toNat).two_le; omega
  have h1 := C70_hasse a b p ec h hne hd
  refine ⟨fun h5 => ?_, ?_, ?_⟩
  · by_contra hc
    nlinarith
  · by_contra hc
    nlinarith
  · by_contra hc
    nlinarith

/-- The hypotheses are met by `y^2 = x^3 + x + 1` over GF(5), which has 9 points: the bound is attained nearly. -/
example : ∃ ec, EllipticCurve.new 1 1 5 = .ok ec ∧ (5 : ℤ) ≠ 2 ∧ ¬ (5 : ℤ) ∣ 4 * 1 ^ 3 + 27 * 1 ^ 2 ∧ ec.cardinality = 9 := by
  obtain ⟨ec, h, -⟩ := C45_new 1 1 5 (by show Nat.Prime 5; norm_num) (by norm_num)
  refine ⟨ec, h, by norm_num, by norm_num, ?_⟩
  rw [new_eq (by show Nat.Prime 5; norm_num) (by norm_num)] at h
  cases h
  decide +kernel

/-- C71: the group of secp256k1 has exactly `n` elements (the curve has cofactor 1). -/
theorem C71_order : Nat.card Secp256k1.new.ec.W.Point = secpN := by
  obtain ⟨G, hG, -⟩ := C52_generator_exists
  have hgood := C52_good
  obtain ⟨h1, h2, h3, -⟩ := C52_parameters
  have hfin : Finite Secp256k1.new.ec.W.Point := finite_point hgood.p_pos
  have hord := C52_generator_order G hG
  obtain ⟨k, hk⟩ : secpN ∣ Nat.card Secp256k1.new.ec.W.Point := hord ▸ addOrderOf_dvd_natCard G
  have hpos : 0 < Nat.card Secp256k1.new.ec.W.Point := Nat.card_pos
  have hH := hasse_zmod Secp256k1.new.ec.a Secp256k1.new.ec.b Secp256k1.new.ec.p hgood.prime
    (by rw [h1]; decide +kernel) (by rw [h1, h2, h3]; decide +kernel)
  have hH' : (Secp256k1.new.ec.p + 1 - (Nat.card Secp256k1.new.ec.W.Point : ℤ)) ^ 2 ≤ 4 * Secp256k1.new.ec.p := hH
  clear hH
  generalize Nat.card Secp256k1.new.ec.W.Point = N at *
  rw [h1] at hH'
  subst hk
  have hk1 : k ≠ 0 := by rintro rfl; simp at hpos
  by_cases hk2 : k = 1
  · rw [hk2, mul_one]
  exfalso
  have hk3 : (2 : ℤ) ≤ k := by omega
  have hN : (secpN : ℤ) = 115792089237316195423570985008687907852837564279074904382605163141518161494337 := by
    decide +kernel
  have hP : secpP = 115792089237316195423570985008687907853269984665640564039457584007908834671663 := by
    decide +kernel
  push_cast at hH'
  rw [hN, hP] at hH'
  have hM : (115792089237316195423570985008687907852405143892509244725752742275123193317011 : ℤ) ≤
      115792089237316195423570985008687907852837564279074904382605163141518161494337 * k -
      (115792089237316195423570985008687907853269984665640564039457584007908834671663 + 1) := by
    nlinarith
  nlinarith

/-- C71: every point of secp256k1 is a multiple of the base point. -/
theorem C71_cyclic (G : Secp256k1.new.ec.W.Point) (hG : Secp256k1.new.ec.Rep Secp256k1.new.g G)
    (Q : Secp256k1.new.ec.W.Point) : ∃ m : ℕ, m < secpN ∧ m • G = Q := by
  have hfin : Finite Secp256k1.new.ec.W.Point := finite_point C52_good.p_pos
  have hord := C52_generator_order G hG
  have hz : AddSubgroup.zmultiples G = ⊤ :=
    AddSubgroup.eq_top_of_card_eq _ (by rw [Nat.card_zmultiples, hord, C71_order])
  have hQ : Q ∈ AddSubgroup.zmultiples G := by rw [hz]; trivial
  obtain ⟨m, hm, rfl⟩ := (isOfFinAddOrder_of_finite G).mem_zmultiples_iff_mem_range_addOrderOf.1 hQ |> Finset.mem_image.1
  exact ⟨m, by rw [← hord]; exact Finset.mem_range.1 hm, rfl⟩

/-- C71: `multiply_scalar(P, k)` is `k P` for every point `P` of secp256k1 and every `k ≥ 0`. -/
theorem C71_multiply_scalar (P : ECPoint) (hP : Secp256k1.new.ec.isOnCurve P = .ok true) (k : ℕ) :
    ∃ Q S, Secp256k1.new.ec.Rep P Q ∧ Secp256k1.new.ec.multiplyScalar P k = .ok S ∧ Secp256k1.new.ec.Rep S (k • Q) := by
  obtain ⟨Q, hQ⟩ := (isOnCurve_iff_rep C52_good P).1 hP
  have hfin : Finite Secp256k1.new.ec.W.Point := finite_point C52_good.p_pos
  have hd : addOrderOf Q ∣ secpN := C71_order ▸ addOrderOf_dvd_natCard Q
  obtain ⟨S, h1, h2⟩ := C46_odd_order C52_good P Q hQ k (Odd.of_dvd_nat (by decide +kernel) hd)
  exact ⟨Q, S, hQ, h1, h2⟩

end EC
