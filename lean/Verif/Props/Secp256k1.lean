import Verif.Props.Curve
import Verif.Lemmas.Pratt
import Verif.Lemmas.SecpOrder

/-! Property C52: secp256k1. -/

namespace EC
open EllipticCurve

/-- The prime of the field. -/
def secpP : ℤ := 2 ^ 256 - 2 ^ 32 - 977

/-- The order of the generator (SEC 2). -/
def secpN : ℕ := 0xFFFFFFFFFFFFFFFFFFFFFFFFFFFFFFFEBAAEDCE6AF48A03BBFD25E8CD0364141

/-- C52: the parameters are those of SEC 2: `p = 2^256 - 2^32 - 977`, `a = 0`, `b = 7` and the standard
base point. -/
theorem C52_parameters : Secp256k1.new.ec.p = secpP ∧ Secp256k1.new.ec.a = 0 ∧ Secp256k1.new.ec.b = 7 ∧
    Secp256k1.new.g.x = 0x79BE667EF9DCBBAC55A06295CE870B07029BFCDB2DCE28D959F2815B16F81798 ∧
    Secp256k1.new.g.y = 0x483ADA7726A3C4655DA4FBFC0E1108A8FD17B448A68554199C47D08FFB10D4B8 ∧
    Secp256k1.new.g.z = 1 := by
  decide +kernel

/-- C52: `p` and `n` are prime. -/
theorem C52_primes : Nat.Prime secpP.toNat ∧ Nat.Prime secpN := by
  constructor
  · have : secpP.toNat = 115792089237316195423570985008687907853269984665640564039457584007908834671663 := by
      decide +kernel
    rw [this]; exact prime_cert_5
  · exact prime_cert_12

/-- C52: the curve is nonsingular over GF(p). -/
theorem C52_good : Secp256k1.new.ec.Good := by
  obtain ⟨h1, h2, h3, -⟩ := C52_parameters
  refine ⟨rfl, by rw [h1]; exact C52_primes.1, by rw [h1]; decide +kernel, ?_⟩
  rw [h1, h2, h3]
  decide +kernel

instance : Fact (Nat.Prime Secp256k1.new.ec.p.toNat) := ⟨C52_good.prime⟩

/-- C52: the base point is on the curve. -/
theorem C52_generator_on_curve : Secp256k1.new.ec.isOnCurve Secp256k1.new.g = .ok true := by
  decide +kernel

/-- If `n` is prime, `P` is affine and `(n-1) P` is computed to be the affine point `-P`, then `P` has
order `n`. -/
theorem order_of_pred {ec : EllipticCurve} [Fact (Nat.Prime ec.p.toNat)] (hg : ec.Good) {P N : ECPoint}
    {G : ec.W.Point} (hG : ec.Rep P G) (hz : P.z ≠ 0) {n m : ℕ} (hn : Nat.Prime n) (hm : m + 1 = n)
    (h1 : ec.multiplyScalar P m = .ok N) (h2 : ec.negate P = .ok N) (hNz : N.z ≠ 0) :
    addOrderOf G = n := by
  obtain ⟨S, e1, e2, e3⟩ := C46_multiply_scalar hg P G hG m
  rw [h1] at e1
  cases e1
  have hrep := e2 (fun hb => hNz (by simpa [ECPoint.isInfinity] using e3 hb))
  obtain ⟨N', n1, -, -, n4⟩ := C44_negate hg P ((isOnCurve_iff_rep hg P).2 ⟨G, hG⟩)
  rw [h2] at n1
  cases n1
  have hneg := hrep.unique (n4 G hG)
  have h0 : n • G = 0 := by rw [← hm, succ_nsmul, hneg, neg_add_cancel]
  rcases (Nat.dvd_prime hn).1 (addOrderOf_dvd_of_nsmul_eq_zero h0) with h | h
  · exact absurd ((rep_zero_iff hG).2 (AddMonoid.addOrderOf_eq_one_iff.1 h)) hz
  · exact h

/-- C52: the base point has order exactly `n`. -/
theorem C52_generator_order (G : Secp256k1.new.ec.W.Point) (hG : Secp256k1.new.ec.Rep Secp256k1.new.g G) :
    addOrderOf G = secpN := by
  refine order_of_pred (m := 115792089237316195423570985008687907852837564279074904382605163141518161494336)
    C52_good hG ?_ C52_primes.2 (by decide +kernel) secp_mul_pred (by decide +kernel) (by norm_num)
  rw [C52_parameters.2.2.2.2.2]; norm_num

/-- C52: `multiply_scalar(G,k)` is `k • G` for every `k ≥ 0`, and so for every multiple of the base point. -/
theorem C52_multiply_scalar (G : Secp256k1.new.ec.W.Point) (hG : Secp256k1.new.ec.Rep Secp256k1.new.g G)
    (P : ECPoint) (m : ℕ) (hP : Secp256k1.new.ec.Rep P (m • G)) (k : ℕ) :
    ∃ S, Secp256k1.new.ec.multiplyScalar P k = .ok S ∧ Secp256k1.new.ec.Rep S (k • (m • G)) := by
  refine C46_odd_order C52_good P _ hP k ?_
  have hd : addOrderOf (m • G) ∣ secpN := by
    rw [← C52_generator_order G hG]
    exact addOrderOf_smul_dvd m
  exact Odd.of_dvd_nat (by decide +kernel) hd

/-- C52: such a `G` exists, so the statements above are not vacuous. -/
theorem C52_generator_exists : ∃! G, Secp256k1.new.ec.Rep Secp256k1.new.g G :=
  (C41_denotes C52_good _).1 C52_generator_on_curve

end EC
