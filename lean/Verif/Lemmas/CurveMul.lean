import Verif.Lemmas.Curve
import Verif.Lemmas.Irange
import Mathlib.GroupTheory.OrderOfElement
import Mathlib.SetTheory.Cardinal.Finite

/-! Lemmas about scalar multiplication, point order and enumeration of points
(`/repo/src/elliptic_curve.rs`). -/

namespace EC
open Poly WeierstrassCurve

namespace EllipticCurve

variable {ec : EllipticCurve}

theorem plus_inf_left (h : ec.Fair) {P1 P2 : ECPoint} {Q2 : ec.W.Point} (z1 : P1.z = 0) (r2 : ec.Rep P2 Q2) :
    ec.plus P1 P2 = .ok P2 := by
  have o1 := onCurve_of_rep (Q := .zero) h z1
  have o2 := onCurve_of_rep h r2
  have i1 : P1.isInfinity = true := by simp [ECPoint.isInfinity, z1]
  unfold plus
  simp only [o1, o2, Res.ok_bind, rassert_true, i1, if_true]

theorem plus_inf_right (h : ec.Fair) {P1 P2 : ECPoint} {Q1 : ec.W.Point} (r1 : ec.Rep P1 Q1) (z1 : P1.z ≠ 0)
    (z2 : P2.z = 0) : ec.plus P1 P2 = .ok ⟨P1.x, P2.y, P2.z⟩ := by
  have o1 := onCurve_of_rep h r1
  have o2 := onCurve_of_rep (Q := .zero) h z2
  have i1 : P1.isInfinity = false := by simp [ECPoint.isInfinity, z1]
  have i2 : P2.isInfinity = true := by simp [ECPoint.isInfinity, z2]
  unfold plus
  simp only [o1, o2, Res.ok_bind, rassert_true, i1, i2, if_true, Bool.false_eq_true, if_false]

variable [Fact (Nat.Prime ec.p.toNat)]

/-- `plus` denotes the group sum, unless the right operand is infinity and the left one is not. -/
theorem plus_rep (h : ec.Fair) {P1 P2 : ECPoint} {Q1 Q2 : ec.W.Point}
    (r1 : ec.Rep P1 Q1) (r2 : ec.Rep P2 Q2) (hz : P1.z = 0 ∨ P2.z ≠ 0) :
    ∃ R, ec.plus P1 P2 = .ok R ∧ ec.Rep R (Q1 + Q2) ∧ (P1.z ≠ 0 ∨ P2.Canonical ec.p → R.Canonical ec.p) := by
  by_cases z1 : P1.z = 0
  · refine ⟨P2, plus_inf_left h z1 r2, ?_, fun hc => hc.resolve_left (not_not.2 z1)⟩
    rw [(rep_zero_iff r1).1 z1, zero_add]
    exact r2
  · obtain ⟨R, e1, e2, e3⟩ := plus_affine h r1 r2 z1 (hz.resolve_left z1)
    exact ⟨R, e1, e3, fun _ => e2⟩

/-- Infinity in, infinity out. -/
theorem plus_zero (h : ec.Fair) {P1 P2 : ECPoint} {Q1 : ec.W.Point} (r1 : ec.Rep P1 Q1) (z2 : P2.z = 0) :
    ∃ R, ec.plus P1 P2 = .ok R ∧ R.z = 0 := by
  by_cases z1 : P1.z = 0
  · exact ⟨P2, plus_inf_left (Q2 := .zero) h z1 z2, z2⟩
  · exact ⟨_, plus_inf_right h r1 z1 z2, z2⟩

theorem tdiv_two {e : ℤ} (h : 0 ≤ e) : e.tdiv 2 = e / 2 := Int.tdiv_eq_ediv_of_nonneg h

theorem mulLoop_gt (ec : EllipticCurve) {e : ℤ} (he : 1 < e) (b r : ECPoint) : ec.mulLoop e b r = (do
    let r' ← if e % 2 = 1 then ec.plus r b else .ok r
    let b' ← ec.plus b b
    ec.mulLoop (e / 2) b' r') := by
  rw [mulLoop, if_pos he, tdiv_two (by omega)]

theorem mulLoop_one (ec : EllipticCurve) {e : ℤ} (he : e ≤ 1) (b r : ECPoint) :
    ec.mulLoop e b r = ec.plus r b := by
  rw [mulLoop, if_neg (by omega)]

/-- The double-and-add loop, as long as no power-of-two multiple of the base that it uses vanishes. -/
theorem mulLoop_rep (h : ec.Fair) : ∀ (n : ℕ) (b r : ECPoint) (B R : ec.W.Point), 1 ≤ n →
    ec.Rep b B → ec.Rep r R → (∀ j, 2 ^ j ≤ n → 2 ^ j • B ≠ 0) →
    ∃ S, ec.mulLoop n b r = .ok S ∧ ec.Rep S (R + n • B) ∧
      (2 ≤ n ∨ b.Canonical ec.p ∨ r.z ≠ 0 → S.Canonical ec.p) := by
  intro n
  induction n using Nat.strong_induction_on with
  | _ n ih =>
    intro b r B R hn rb rr hB
    have hb0 : B ≠ 0 := by simpa using hB 0 (by simpa using hn)
    have hbz : b.z ≠ 0 := fun hz => hb0 ((rep_zero_iff rb).1 hz)
    by_cases h1 : n = 1
    · subst h1
      rw [Nat.cast_one, mulLoop_one ec le_rfl]
      obtain ⟨S, e1, e2, e3⟩ := plus_rep h rr rb (.inr hbz)
      refine ⟨S, e1, by rwa [one_smul], fun hc => e3 ?_⟩
      rcases hc with hc | hc | hc
      · omega
      · exact .inr hc
      · exact .inl hc
    · have hn2 : 2 ≤ n := by omega
      rw [mulLoop_gt ec (by exact_mod_cast hn2)]
      obtain ⟨b', f1, f2, f3⟩ := plus_rep h rb rb (.inr hbz)
      have hdiv : ((n : ℤ) / 2) = ((n / 2 : ℕ) : ℤ) := by push_cast; rfl
      have hB' : ∀ j, 2 ^ j ≤ n / 2 → 2 ^ j • (B + B) ≠ 0 := by
        intro j hj
        have := hB (j + 1) (by rw [pow_succ]; omega)
        rwa [pow_succ, mul_smul, two_smul] at this
      have hsm : n • B = (n % 2) • B + (n / 2) • (B + B) := by
        rw [← two_smul ℕ B, smul_smul, ← add_smul]
        congr 1; omega
      by_cases hodd : (n : ℤ) % 2 = 1
      · obtain ⟨r', g1, g2, g3⟩ := plus_rep h rr rb (.inr hbz)
        obtain ⟨S, e1, e2, e3⟩ := ih (n / 2) (by omega) b' r' _ _ (by omega) f2 g2 hB'
        refine ⟨S, ?_, ?_, fun _ => e3 (.inr (.inl (f3 (.inl hbz))))⟩
        · simp only [hodd, if_true, g1, f1, Res.ok_bind, hdiv, e1]
        · rw [hsm, show n % 2 = 1 by omega, one_smul, ← add_assoc]; exact e2
      · obtain ⟨S, e1, e2, e3⟩ := ih (n / 2) (by omega) b' r _ _ (by omega) f2 rr hB'
        refine ⟨S, ?_, ?_, fun _ => e3 (.inr (.inl (f3 (.inl hbz))))⟩
        · simp only [hodd, if_false, f1, Res.ok_bind, hdiv, e1]
        · rw [hsm, show n % 2 = 0 by omega, zero_nsmul, zero_add]; exact e2

/-- The loop with base infinity: infinity. -/
theorem mulLoop_inf (h : ec.Fair) : ∀ (n : ℕ) (b r : ECPoint) (R : ec.W.Point), 1 ≤ n →
    b.z = 0 → ec.Rep r R → ∃ S, ec.mulLoop n b r = .ok S ∧ S.z = 0 := by
  intro n
  induction n using Nat.strong_induction_on with
  | _ n ih =>
    intro b r R hn hb rr
    by_cases h1 : n = 1
    · subst h1
      rw [Nat.cast_one, mulLoop_one ec le_rfl]
      exact plus_zero h rr hb
    · rw [mulLoop_gt ec (by omega)]
      have hdiv : ((n : ℤ) / 2) = ((n / 2 : ℕ) : ℤ) := by push_cast; rfl
      have f1 : ec.plus b b = .ok b := plus_inf_left (Q2 := .zero) h hb hb
      by_cases hodd : (n : ℤ) % 2 = 1
      · obtain ⟨r', g1, g2⟩ := plus_zero h rr hb
        obtain ⟨S, e1, e2⟩ := ih (n / 2) (by omega) b r' .zero (by omega) hb g2
        exact ⟨S, by simp only [hodd, if_true, g1, f1, Res.ok_bind, hdiv, e1], e2⟩
      · obtain ⟨S, e1, e2⟩ := ih (n / 2) (by omega) b r R (by omega) hb rr
        exact ⟨S, by simp only [hodd, if_false, f1, Res.ok_bind, hdiv, e1], e2⟩

/-- The loop when some power-of-two multiple of the base vanishes in time: infinity. -/
theorem mulLoop_pow (h : ec.Fair) : ∀ (j n : ℕ) (b r : ECPoint) (B R : ec.W.Point), 2 ^ j ≤ n →
    ec.Rep b B → ec.Rep r R → 2 ^ j • B = 0 → ∃ S, ec.mulLoop n b r = .ok S ∧ S.z = 0 := by
  intro j
  induction j with
  | zero =>
    intro n b r B R hn rb rr hB
    rw [pow_zero, one_smul] at hB
    exact mulLoop_inf h n b r R (by simpa using hn) ((rep_zero_iff rb).2 hB) rr
  | succ j ih =>
    intro n b r B R hn rb rr hB
    have h2 : 2 ≤ n := by
      have : 2 ^ 1 ≤ 2 ^ (j + 1) := Nat.pow_le_pow_right (by norm_num) (by omega)
      omega
    by_cases hb0 : b.z = 0
    · exact mulLoop_inf h n b r R (by omega) hb0 rr
    rw [mulLoop_gt ec (by omega)]
    have hdiv : ((n : ℤ) / 2) = ((n / 2 : ℕ) : ℤ) := by push_cast; rfl
    obtain ⟨b', f1, f2, -⟩ := plus_rep h rb rb (.inr hb0)
    have hB' : 2 ^ j • (B + B) = 0 := by rwa [pow_succ, mul_smul, two_smul] at hB
    have hj : 2 ^ j ≤ n / 2 := by rw [pow_succ] at hn; omega
    by_cases hodd : (n : ℤ) % 2 = 1
    · obtain ⟨r', g1, g2, -⟩ := plus_rep h rr rb (.inr hb0)
      obtain ⟨S, e1, e2⟩ := ih (n / 2) b' r' _ _ hj f2 g2 hB'
      exact ⟨S, by simp only [hodd, if_true, g1, f1, Res.ok_bind, hdiv, e1], e2⟩
    · obtain ⟨S, e1, e2⟩ := ih (n / 2) b' r _ _ hj f2 rr hB'
      exact ⟨S, by simp only [hodd, if_false, f1, Res.ok_bind, hdiv, e1], e2⟩

omit [Fact (Nat.Prime ec.p.toNat)] in
theorem rep_infinity (ec : EllipticCurve) : ec.Rep ECPoint.infinity (.zero) := rfl

omit [Fact (Nat.Prime ec.p.toNat)] in
theorem canonical_infinity (p : ℤ) : ECPoint.infinity.Canonical p := .inl rfl

theorem mulPos_rep (h : ec.Fair) {n : ℕ} {P : ECPoint} {Q : ec.W.Point} (hn : 1 ≤ n) (rp : ec.Rep P Q)
    (hQ : ∀ j, 2 ^ j ≤ n → 2 ^ j • Q ≠ 0) :
    ∃ S, ec.mulPos P n = .ok S ∧ ec.Rep S (n • Q) ∧ (2 ≤ n ∨ P.Canonical ec.p → S.Canonical ec.p) := by
  unfold mulPos
  by_cases h1 : n = 1
  · subst h1
    refine ⟨P, by simp, by rwa [one_smul], fun hc => hc.resolve_left (by omega)⟩
  · rw [if_neg (by omega)]
    obtain ⟨S, e1, e2, e3⟩ := mulLoop_rep h n P ECPoint.infinity Q 0 hn rp (rep_infinity ec) hQ
    exact ⟨S, e1, by rwa [zero_add] at e2, fun hc => e3 (.inl (by omega))⟩

theorem mulPos_pow (h : ec.Fair) {j n : ℕ} {P : ECPoint} {Q : ec.W.Point} (hn : 2 ^ j ≤ n) (rp : ec.Rep P Q)
    (hQ : 2 ^ j • Q = 0) : ∃ S, ec.mulPos P n = .ok S ∧ S.z = 0 := by
  unfold mulPos
  by_cases h1 : n = 1
  · have hj : j = 0 := by
      by_contra hj
      have : 2 ^ 1 ≤ 2 ^ j := Nat.pow_le_pow_right (by norm_num) (by omega)
      omega
    subst hj
    rw [pow_zero, one_smul] at hQ
    exact ⟨P, by simp [h1], (rep_zero_iff rp).2 hQ⟩
  · rw [if_neg (by omega)]
    exact mulLoop_pow h j n P ECPoint.infinity Q 0 hn rp (rep_infinity ec) hQ

omit [Fact (Nat.Prime ec.p.toNat)] in
theorem finite_point (hp : 0 < ec.p) : Finite ec.W.Point := by
  have : NeZero ec.p.toNat := ⟨by omega⟩
  let f : ec.W.Point → Option (ZMod ec.p.toNat × ZMod ec.p.toNat)
    | .zero => none
    | .some x y _ => Option.some (x, y)
  refine Finite.of_injective f ?_
  intro P Q hPQ
  cases P <;> cases Q <;> simp_all [f]

/-- The loop of `point_order`. -/
theorem orderLoop_spec (h : ec.Fair) {P : ECPoint} {Q : ec.W.Point} (rp : ec.Rep P Q) (hz : P.z ≠ 0) :
    ∀ (d k : ℕ) (r : ECPoint) (fuel : ℕ), ec.Rep r (k • Q) → 1 ≤ k → k + d + 1 = addOrderOf Q →
      d + 1 ≤ fuel → ec.orderLoop P fuel r (k + 1) = .ok (addOrderOf Q) := by
  intro d
  induction d with
  | zero =>
    intro k r fuel rr hk hd hf
    have hkq : k • Q ≠ 0 := fun h0 => by
      have := Nat.le_of_dvd (by omega) (addOrderOf_dvd_of_nsmul_eq_zero h0); omega
    have hrz : r.z ≠ 0 := fun h0 => hkq ((rep_zero_iff rr).1 h0)
    obtain ⟨f, rfl⟩ : ∃ f, fuel = f + 1 := ⟨fuel - 1, by omega⟩
    obtain ⟨R, e1, e2, -⟩ := plus_rep h rp rr (.inr hrz)
    have : Q + k • Q = 0 := by rw [← succ_nsmul', show k + 1 = addOrderOf Q by omega, addOrderOf_nsmul_eq_zero]
    rw [this] at e2
    have hR : R.isInfinity = true := by simp [ECPoint.isInfinity, (rep_zero_iff e2).2 rfl]
    simp only [orderLoop, e1, Res.ok_bind, hR, if_true, Res.ok.injEq]
    omega
  | succ d ih =>
    intro k r fuel rr hk hd hf
    have hkq : k • Q ≠ 0 := fun h0 => by
      have := Nat.le_of_dvd (by omega) (addOrderOf_dvd_of_nsmul_eq_zero h0); omega
    have hrz : r.z ≠ 0 := fun h0 => hkq ((rep_zero_iff rr).1 h0)
    obtain ⟨f, rfl⟩ : ∃ f, fuel = f + 1 := ⟨fuel - 1, by omega⟩
    obtain ⟨R, e1, e2, -⟩ := plus_rep h rp rr (.inr hrz)
    rw [← succ_nsmul'] at e2
    have hkq' : (k + 1) • Q ≠ 0 := fun h0 => by
      have := Nat.le_of_dvd (by omega) (addOrderOf_dvd_of_nsmul_eq_zero h0); omega
    have hR : R.isInfinity = false := by
      have : R.z ≠ 0 := fun h0 => hkq' ((rep_zero_iff e2).1 h0)
      simp [ECPoint.isInfinity, this]
    simp only [orderLoop, e1, Res.ok_bind, hR, Bool.false_eq_true, if_false]
    have := ih (k + 1) R f e2 (by omega) (by omega) (by omega)
    push_cast at this
    exact this

/-- The loop when the order of the base is a power of two dividing `n`: exactly `(0,1,0)`. -/
theorem mulLoop_dvd (h : ec.Fair) : ∀ (j n : ℕ) (b : ECPoint) (B : ec.W.Point), 1 ≤ n → 2 ^ j ∣ n →
    ec.Rep b B → b.Canonical ec.p → 2 ^ j • B = 0 →
    ec.mulLoop n b ECPoint.infinity = .ok ECPoint.infinity := by
  intro j
  have h0 : ∀ n : ℕ, 1 ≤ n → ec.mulLoop n ECPoint.infinity ECPoint.infinity = .ok ECPoint.infinity := by
    intro n
    have hp : ec.plus ECPoint.infinity ECPoint.infinity = .ok ECPoint.infinity :=
      plus_inf_left (Q2 := .zero) h rfl rfl
    induction n using Nat.strong_induction_on with
    | _ n ih =>
      intro hn
      by_cases h1 : n = 1
      · subst h1; rw [Nat.cast_one, mulLoop_one ec le_rfl, hp]
      · rw [mulLoop_gt ec (by omega)]
        have hdiv : ((n : ℤ) / 2) = ((n / 2 : ℕ) : ℤ) := by push_cast; rfl
        simp only [hp, ite_self, Res.ok_bind, hdiv]
        exact ih _ (by omega) (by omega)
  have hinf : ∀ b : ECPoint, b.z = 0 → b.Canonical ec.p → b = ECPoint.infinity := by
    rintro b hz (rfl | ⟨-, -, h1⟩)
    · rfl
    · omega
  induction j with
  | zero =>
    intro n b B hn _ rb hc hB
    rw [pow_zero, one_smul] at hB
    rw [hinf b ((rep_zero_iff rb).2 hB) hc]
    exact h0 n hn
  | succ j ih =>
    intro n b B hn hd rb hc hB
    by_cases hz : b.z = 0
    · rw [hinf b hz hc]; exact h0 n hn
    obtain ⟨k, hk⟩ := hd
    have hk' : n = 2 * (2 ^ j * k) := by rw [hk, pow_succ]; ring
    rw [mulLoop_gt ec (by omega)]
    have hdiv : ((n : ℤ) / 2) = ((n / 2 : ℕ) : ℤ) := by push_cast; rfl
    obtain ⟨b', f1, f2, f3⟩ := plus_rep h rb rb (.inr hz)
    have hB' : 2 ^ j • (B + B) = 0 := by rwa [pow_succ, mul_smul, two_smul] at hB
    have heven : ¬ (n : ℤ) % 2 = 1 := by omega
    simp only [heven, if_false, f1, Res.ok_bind, hdiv]
    exact ih (n / 2) b' _ (by omega) ⟨k, by omega⟩ f2 (f3 (.inl hz)) hB'

theorem mulPos_dvd (h : ec.Fair) {j n : ℕ} {P : ECPoint} {Q : ec.W.Point} (hn : 1 ≤ n) (hd : 2 ^ j ∣ n)
    (rp : ec.Rep P Q) (hc : P.Canonical ec.p) (hQ : 2 ^ j • Q = 0) :
    ec.mulPos P n = .ok ECPoint.infinity := by
  unfold mulPos
  by_cases h1 : n = 1
  · subst h1
    have : 2 ^ j = 1 := Nat.dvd_one.1 hd
    rw [this, one_smul] at hQ
    have hz := (rep_zero_iff rp).2 hQ
    rcases hc with rfl | ⟨-, -, h1⟩
    · rfl
    · omega
  · rw [if_neg (by omega)]
    exact mulLoop_dvd h j n P Q hn hd rp hc hQ

end EllipticCurve
end EC
