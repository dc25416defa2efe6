import Verif.Props.SchoofModFive
import Verif.Props.Hasse
import Verif.Props.SchoofReturns
import Verif.Props.CurveTwist
import Verif.Props.BigInt

/-! Property C83: `schoof` followed by `chinese_remainder`. -/

namespace EC
open WeierstrassCurve

/-- The moduli of the answer of `schoof`. -/
theorem schoof_entries {a b q : ℤ} {fuel : ℕ} {r : List ModResult} (h : schoof fuel a b q = .ok r) :
    (q ≤ 3 ∧ ∃ r2, r = [⟨2, r2⟩]) ∨ (3 < q ∧ q ≤ 5 ∧ ∃ r2 r3, r = [⟨2, r2⟩, ⟨3, r3⟩]) ∨
      (5 < q ∧ ∃ r2 r3 r5, r = [⟨2, r2⟩, ⟨3, r3⟩, ⟨5, r5⟩]) := by
  have hm := (C54_shape a b q fuel r h).1
  by_cases h3 : q ≤ 3
  · rw [if_pos h3] at hm
    match r, hm with
    | [⟨l, s⟩], hm => simp at hm; exact .inl ⟨h3, s, by rw [hm]⟩
  rw [if_neg h3] at hm
  by_cases h5 : q ≤ 5
  · rw [if_pos h5] at hm
    match r, hm with
    | [⟨l, s⟩, ⟨l', s'⟩], hm =>
      simp at hm; exact .inr (.inl ⟨by omega, h5, s, s', by rw [hm.1, hm.2]⟩)
  · rw [if_neg h5] at hm
    match r, hm with
    | [⟨l, s⟩, ⟨l', s'⟩, ⟨l'', s''⟩], hm =>
      simp at hm; exact .inr (.inr ⟨by omega, s, s', s'', by rw [hm.1, hm.2.1, hm.2.2]⟩)

theorem schoof_moduli {a b q : ℤ} {fuel : ℕ} {r : List ModResult} (h : schoof fuel a b q = .ok r) :
    (∀ s ∈ r, 0 < s.l) ∧ r.Pairwise (fun s t => IsCoprime s.l t.l) := by
  have h23 : IsCoprime (2 : ℤ) 3 := ⟨-1, 1, by norm_num⟩
  have h25 : IsCoprime (2 : ℤ) 5 := ⟨-2, 1, by norm_num⟩
  have h35 : IsCoprime (3 : ℤ) 5 := ⟨2, -1, by norm_num⟩
  rcases schoof_entries h with ⟨-, r2, rfl⟩ | ⟨-, -, r2, r3, rfl⟩ | ⟨-, r2, r3, r5, rfl⟩
  · simp
  · refine ⟨by simp, ?_⟩
    simp only [List.mem_cons, List.not_mem_nil, or_false, forall_eq, List.pairwise_cons]
    exact ⟨h23, by simp, .nil⟩
  · refine ⟨by simp, ?_⟩
    simp only [List.mem_cons, List.not_mem_nil, or_false, forall_eq_or_imp, forall_eq, List.pairwise_cons]
    exact ⟨⟨h23, h25⟩, h35, by simp, .nil⟩

/-- C83: the answer of `schoof` never leads to the trace: whenever `schoof(a, b, q)` returns for a nonsingular curve over GF(q),
`q` an odd prime, the residue `chinese_remainder` makes of its answer is odd and the trace of the curve is even, so the
residue is not the trace modulo the product of the moduli, and `q + 1` minus the residue is not the number of points. -/
theorem C83_never_trace (a b q : ℤ) (hq : Nat.Prime q.toNat) (h2 : q ≠ 2)
    (hns : ¬ q ∣ 4 * a ^ 3 + 27 * b ^ 2) (fuel : ℕ) (r : List ModResult) (h : schoof fuel a b q = .ok r) (t : ℤ)
    (ht : t = q + 1 - Nat.card (shortW (a : ZMod q.toNat) (b : ZMod q.toNat)).toAffine.Point) :
    Odd (chineseRemainder r).r ∧ Even t ∧ ¬ (chineseRemainder r).r ≡ t [ZMOD (chineseRemainder r).l] ∧
      ∀ k : ℤ, q + 1 - ((chineseRemainder r).r + k * (chineseRemainder r).l) ≠
        Nat.card (shortW (a : ZMod q.toNat) (b : ZMod q.toNat)).toAffine.Point := by
  have hi : q ≤ 2147483647 := by
    by_contra hc
    exact C62_large a b q (by omega) fuel r h
  obtain ⟨h0, hev⟩ := C53_parity_refuted a b q hq hi h2 hns fuel r h
  obtain ⟨m1, m2⟩ := schoof_moduli h
  obtain ⟨c1, c2, -⟩ := C05_chinese_remainder r m1 m2
  have hmem : (⟨2, 1⟩ : ModResult) ∈ r := List.mem_of_getElem? h0
  have e1 : (chineseRemainder r).r ≡ 1 [ZMOD 2] := c2 _ hmem
  have hodd : Odd (chineseRemainder r).r := by
    rw [Int.odd_iff]; exact e1
  have hl : (2 : ℤ) ∣ (chineseRemainder r).l := by
    rw [c1]
    exact List.dvd_prod (List.mem_map.2 ⟨_, hmem, rfl⟩)
  rw [← ht] at hev
  obtain ⟨k1, hk1⟩ := hodd
  obtain ⟨k2, hk2⟩ := hev
  obtain ⟨k3, hk3⟩ := hl
  refine ⟨⟨k1, hk1⟩, ⟨k2, hk2⟩, fun hc => ?_, fun k hk => ?_⟩
  · obtain ⟨k4, hk4⟩ := hc.dvd
    rw [hk3, mul_assoc] at hk4
    omega
  · rw [← hk, hk3, mul_left_comm] at ht
    omega

/-- C83: what a user can get out of the answer.  Replace the entry modulo 2 by 0 (the trace is even whenever the call
returns).  For a prime `5 < q ≤ 53` the residue of `chinese_remainder` nearest to zero then gives the number of points,
`q + 1` minus the residue, exactly if the entries modulo 3 and 5 are the trace modulo 3 and 5 (see C67, C73 and C79 for
when they are). -/
theorem C83_recover (a b q : ℤ) (hq : Nat.Prime q.toNat) (h5 : 5 < q) (h53 : q ≤ 53)
    (hns : ¬ q ∣ 4 * a ^ 3 + 27 * b ^ 2) (fuel : ℕ) (r : List ModResult) (h : schoof fuel a b q = .ok r) (t : ℤ)
    (ht : t = q + 1 - Nat.card (shortW (a : ZMod q.toNat) (b : ZMod q.toNat)).toAffine.Point) :
    ((Nat.card (shortW (a : ZMod q.toNat) (b : ZMod q.toNat)).toAffine.Point : ℤ) =
        q + 1 - (((chineseRemainder (⟨2, 0⟩ :: r.tail)).r + 15) % 30 - 15)) ↔
      ∀ e ∈ r, e.l ≠ 2 → e.r ≡ t [ZMOD e.l] := by
  obtain ⟨-, hev⟩ := C53_parity_refuted a b q hq (by omega) (by omega) hns fuel r h
  have hH : t ^ 2 ≤ 4 * q := by
    rw [ht]
    exact hasse_zmod a b q hq (by omega) hns
  rcases schoof_entries h with ⟨h0, -⟩ | ⟨-, h0, -⟩ | ⟨-, r2, r3, r5, rfl⟩
  · omega
  · omega
  have h23 : IsCoprime (2 : ℤ) 3 := ⟨-1, 1, by norm_num⟩
  have h25 : IsCoprime (2 : ℤ) 5 := ⟨-2, 1, by norm_num⟩
  have h35 : IsCoprime (3 : ℤ) 5 := ⟨2, -1, by norm_num⟩
  obtain ⟨c1, c2, -⟩ := C05_chinese_remainder [⟨2, 0⟩, ⟨3, r3⟩, ⟨5, r5⟩] (by simp) (by
    simp only [List.mem_cons, List.not_mem_nil, or_false, forall_eq_or_imp, forall_eq, List.pairwise_cons]
    simp only [h23, h25, h35]; simp)
  simp only [List.tail_cons]
  generalize chineseRemainder [⟨2, 0⟩, ⟨3, r3⟩, ⟨5, r5⟩] = m at c1 c2 ⊢
  have d2 : m.r ≡ 0 [ZMOD 2] := c2 ⟨2, 0⟩ (by simp)
  have d3 : m.r ≡ r3 [ZMOD 3] := c2 ⟨3, r3⟩ (by simp)
  have d5 : m.r ≡ r5 [ZMOD 5] := c2 ⟨5, r5⟩ (by simp)
  have e2 : t % 2 = 0 := by rw [← ht] at hev; exact Int.even_iff.1 hev
  have b1 : t ≤ 14 := by nlinarith
  have b2 : -14 ≤ t := by nlinarith
  unfold Int.ModEq at d2 d3 d5
  constructor
  · intro hc
    have : t = (m.r + 15) % 30 - 15 := by omega
    simp only [List.mem_cons, List.not_mem_nil, or_false, forall_eq_or_imp, forall_eq, Int.ModEq]
    omega
  · intro hc
    have f3 := hc ⟨3, r3⟩ (by simp) (by simp)
    have f5 := hc ⟨5, r5⟩ (by simp) (by simp)
    simp only [Int.ModEq] at f3 f5
    omega

/-- The hypotheses hold for `y^2 = x^3 + x` over GF(7): the call returns, its entries modulo 3 and 5 are right, and the
corrected list gives the 8 points. -/
example : ∃ fuel r, schoof fuel 1 0 7 = .ok r ∧
    (Nat.card (shortW ((1 : ℤ) : ZMod (7 : ℤ).toNat) ((0 : ℤ) : ZMod (7 : ℤ).toNat)).toAffine.Point : ℤ) =
        7 + 1 - (((chineseRemainder (⟨2, 0⟩ :: r.tail)).r + 15) % 30 - 15) := by
  obtain ⟨r, N, hr⟩ := returns_7
  have h' := hr N le_rfl
  refine ⟨N, r, h', (C83_recover 1 0 7 (show Nat.Prime 7 by norm_num) (by norm_num) (by norm_num) (by decide) N r h' _ rfl).2
    fun e he h2 => ?_⟩
  have ht : (7 : ℤ) + 1 - Nat.card (shortW ((1 : ℤ) : ZMod (7 : ℤ).toNat) ((0 : ℤ) : ZMod (7 : ℤ).toNat)).toAffine.Point = 0 := by
    obtain ⟨ec, h⟩ : ∃ ec, EllipticCurve.new 1 0 7 = .ok ec := ⟨_, new_eq (show Nat.Prime 7 by norm_num) (by norm_num)⟩
    have e1 := C82_j_1728 1 0 7 ec h (by decide) (by decide) (by decide)
    rw [C45_cardinality 1 0 7 ec h (by decide) (by decide)] at e1
    rw [e1]; norm_num
  have hl : e.l = 3 ∨ e.l = 5 := by
    have h1 : e.l ∈ r.map (·.l) := List.mem_map.2 ⟨e, he, rfl⟩
    rw [(C54_shape 1 0 7 N r h').1] at h1
    norm_num at h1
    rcases h1 with h1 | h1 | h1
    · exact absurd h1 h2
    · exact .inl h1
    · exact .inr h1
  rcases hl with hl | hl
  · have := C73_right 1 0 7 (by norm_num) (by decide) N r h' e he hl _ rfl
    rw [hl]
    exact (this.1 (by rw [ht])).2 (by
      rintro ⟨c, hc, h⟩; exact hc (pow_eq_zero_iff (n := 3) (by norm_num) |>.1 (by simpa using h)))
  · have := C79_right 1 0 7 (by decide) N r h' e he hl _ rfl
    rw [hl]
    exact (this.1 (by rw [ht])).2 (by rintro ⟨h, -⟩; exact absurd h (by decide))

end EC
