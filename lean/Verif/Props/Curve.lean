import Verif.Lemmas.CurvePoints

/-! Properties C41-C51: elliptic curves over prime fields.

`ec.W` is Mathlib's affine Weierstrass curve `y^2 = x^3 + a x + b` over `ZMod p`, `ec.W.Point` its
group of rational points, and `ec.Rep P Q` says that the structure `P` denotes `Q`
(`Verif.Spec.CurvePoints`). -/

namespace EC
open WeierstrassCurve

namespace EllipticCurve

variable {ec : EllipticCurve}

/-! ### C41 -/

/-- C41: `is_on_curve` decides the curve equation modulo `p`; points at infinity are on the curve. -/
theorem C41_is_on_curve (hw : ec.WF) (hp : 1 ≤ ec.p) (P : ECPoint) :
    ∃ r, ec.isOnCurve P = .ok r ∧
      (r = true ↔ P.z = 0 ∨ (P.y ^ 2 - (P.x ^ 3 + ec.a * P.x + ec.b)) % ec.p = 0) := by
  refine ⟨_, isOnCurve_eq hw (by omega) P, ?_⟩
  rw [decide_eq_true_iff, Int.emod_emod_of_dvd _ dvd_rfl |>.symm, Int.modEq_comm, Int.modEq_iff_dvd,
    Int.dvd_iff_emod_eq_zero, Int.emod_emod_of_dvd _ dvd_rfl]

/-- C41: the answer depends only on the residues of the coordinates. -/
theorem C41_representatives (hw : ec.WF) (hp : 1 ≤ ec.p) (P P' : ECPoint) (hz : P.z = 0 ↔ P'.z = 0)
    (hx : P.x % ec.p = P'.x % ec.p) (hy : P.y % ec.p = P'.y % ec.p) :
    ec.isOnCurve P = ec.isOnCurve P' := by
  rw [isOnCurve_eq hw (by omega), isOnCurve_eq hw (by omega)]
  have hx : P.x ≡ P'.x [ZMOD ec.p] := hx
  have hy : P.y ≡ P'.y [ZMOD ec.p] := hy
  have h1 : P.x ^ 3 + ec.a * P.x + ec.b ≡ P'.x ^ 3 + ec.a * P'.x + ec.b [ZMOD ec.p] :=
    ((hx.pow 3).add (hx.mul_left _)).add_right _
  congr 1
  rw [decide_eq_decide, hz]
  refine or_congr Iff.rfl ⟨fun h => ((hy.pow 2).symm.trans h).trans h1,
    fun h => ((hy.pow 2).trans h).trans h1.symm⟩

/-- C41: on a nonsingular curve over a prime field of odd characteristic the on-curve structures are
exactly those that denote a rational point, and they denote exactly one. -/
theorem C41_denotes (h : ec.Good) (P : ECPoint) :
    ec.isOnCurve P = .ok true ↔ ∃! Q, ec.Rep P Q := by
  rw [isOnCurve_iff_rep h]
  exact ⟨fun ⟨Q, hQ⟩ => ⟨Q, hQ, fun Q' hQ' => hQ'.unique hQ⟩, fun ⟨Q, hQ, _⟩ => ⟨Q, hQ⟩⟩

/-! ### C42 -/

variable [Fact (Nat.Prime ec.p.toNat)]

/-- C42: `plus` of two affine points on the curve returns their sum in the group, on the curve and in
canonical form. -/
theorem C42_plus (h : ec.Good) (P1 P2 : ECPoint) (z1 : P1.z ≠ 0) (z2 : P2.z ≠ 0)
    (o1 : ec.isOnCurve P1 = .ok true) (o2 : ec.isOnCurve P2 = .ok true) :
    ∃ R, ec.plus P1 P2 = .ok R ∧ R.Canonical ec.p ∧ ec.isOnCurve R = .ok true ∧
      ∀ Q1 Q2, ec.Rep P1 Q1 → ec.Rep P2 Q2 → ec.Rep R (Q1 + Q2) := by
  obtain ⟨Q1, r1⟩ := (isOnCurve_iff_rep h P1).1 o1
  obtain ⟨Q2, r2⟩ := (isOnCurve_iff_rep h P2).1 o2
  obtain ⟨R, e1, e2, e3⟩ := plus_affine h r1 r2 z1 z2
  refine ⟨R, e1, e2, (isOnCurve_iff_rep h R).2 ⟨_, e3⟩, fun Q1' Q2' r1' r2' => ?_⟩
  rw [r1'.unique r1, r2'.unique r2]
  exact e3

omit [Fact (Nat.Prime ec.p.toNat)] in
/-- C42: `O + P` is `P`. -/
theorem C42_zero_plus (h : ec.Good) (O P : ECPoint) (z : O.z = 0) (o : ec.isOnCurve P = .ok true) :
    ec.plus O P = .ok P := by
  obtain ⟨Q, r⟩ := (isOnCurve_iff_rep h P).1 o
  exact plus_inf_left h z r

/-- C42: `plus` is commutative on affine points. -/
theorem C42_comm (h : ec.Good) (P1 P2 : ECPoint) (z1 : P1.z ≠ 0) (z2 : P2.z ≠ 0)
    (o1 : ec.isOnCurve P1 = .ok true) (o2 : ec.isOnCurve P2 = .ok true) :
    ec.plus P1 P2 = ec.plus P2 P1 := by
  obtain ⟨Q1, r1⟩ := (isOnCurve_iff_rep h P1).1 o1
  obtain ⟨Q2, r2⟩ := (isOnCurve_iff_rep h P2).1 o2
  obtain ⟨R, e1, e2, e3⟩ := plus_affine h r1 r2 z1 z2
  obtain ⟨R', f1, f2, f3⟩ := plus_affine h r2 r1 z2 z1
  rw [add_comm] at f3
  rw [e1, f1, canonical_unique h.p_pos e3 f3 e2 f2]

/-- C42: `plus` is associative on affine points, as long as no sum at infinity is used as a right
operand. -/
theorem C42_assoc (h : ec.Good) (P1 P2 P3 S T : ECPoint) (z1 : P1.z ≠ 0) (z2 : P2.z ≠ 0) (z3 : P3.z ≠ 0)
    (c3 : P3.Canonical ec.p)
    (o1 : ec.isOnCurve P1 = .ok true) (o2 : ec.isOnCurve P2 = .ok true) (o3 : ec.isOnCurve P3 = .ok true)
    (hS : ec.plus P1 P2 = .ok S) (hT : ec.plus P2 P3 = .ok T) (zT : T.z ≠ 0) :
    ec.plus S P3 = ec.plus P1 T := by
  obtain ⟨Q1, r1⟩ := (isOnCurve_iff_rep h P1).1 o1
  obtain ⟨Q2, r2⟩ := (isOnCurve_iff_rep h P2).1 o2
  obtain ⟨Q3, r3⟩ := (isOnCurve_iff_rep h P3).1 o3
  obtain ⟨S', e1, e2, e3⟩ := plus_affine h r1 r2 z1 z2
  obtain ⟨T', f1, f2, f3⟩ := plus_affine h r2 r3 z2 z3
  rw [hS] at e1; cases e1
  rw [hT] at f1; cases f1
  obtain ⟨A, g1, g2, g3⟩ := plus_rep h e3 r3 (.inr z3)
  obtain ⟨B, k1, k2, k3⟩ := plus_rep h r1 f3 (.inr zT)
  rw [add_assoc] at g2
  rw [g1, k1, canonical_unique h.p_pos g2 k2 (g3 (.inr c3)) (k3 (.inl z1))]

omit [Fact (Nat.Prime ec.p.toNat)] in
/-- C42: an operand that is not on the curve makes `plus` panic. -/
theorem C42_panics (hw : ec.WF) (hp : 1 ≤ ec.p) (P1 P2 : ECPoint)
    (ho : ec.isOnCurve P1 = .ok false ∨ ec.isOnCurve P2 = .ok false) :
    ec.plus P1 P2 = .panic .assertion := by
  unfold plus
  rcases ho with ho | ho
  · simp only [ho, Res.ok_bind]; rfl
  · rw [isOnCurve_eq hw (by omega) P1]
    simp only [ho, Res.ok_bind]
    cases decide (P1.z = 0 ∨ P1.y ^ 2 ≡ P1.x ^ 3 + ec.a * P1.x + ec.b [ZMOD ec.p]) <;> rfl

/-! ### C43 -/

omit [Fact (Nat.Prime ec.p.toNat)] in
/-- C43 (the half that holds): `O + P = P`. -/
theorem C43_neutral_partial (h : ec.Good) (P : ECPoint) (o : ec.isOnCurve P = .ok true) :
    ec.plus ECPoint.infinity P = .ok P := C42_zero_plus h _ P rfl o

omit [Fact (Nat.Prime ec.p.toNat)] in
/-- C43 fails: `P + O` is a point at infinity for *every* affine point `P` of every curve. -/
theorem C43_plus_zero_refuted (h : ec.Good) (P : ECPoint) (o : ec.isOnCurve P = .ok true) (z : P.z ≠ 0) :
    ec.plus P ECPoint.infinity = .ok ⟨P.x, 1, 0⟩ ∧ ec.plus P ECPoint.infinity ≠ .ok P ∧
      ∀ Q, ec.Rep P Q → ¬ ec.Rep ⟨P.x, 1, 0⟩ Q := by
  obtain ⟨Q, r⟩ := (isOnCurve_iff_rep h P).1 o
  have e := plus_inf_right (P2 := ECPoint.infinity) h r z rfl
  refine ⟨e, ?_, ?_⟩
  · rw [e]
    intro h1
    simp only [Res.ok.injEq] at h1
    exact z (by rw [← h1]; rfl)
  · intro Q' r' r''
    exact z ((rep_zero_iff r').2 ((rep_zero_iff r'').1 rfl))

/-! ### C44 -/

omit [Fact (Nat.Prime ec.p.toNat)] in
/-- C44: `negate` returns a point on the curve that denotes the group inverse. -/
theorem C44_negate (h : ec.Good) (P : ECPoint) (o : ec.isOnCurve P = .ok true) :
    ∃ N, ec.negate P = .ok N ∧ ec.isOnCurve N = .ok true ∧ (P.Canonical ec.p → N.Canonical ec.p) ∧
      ∀ Q, ec.Rep P Q → ec.Rep N (-Q) := by
  have hp := h.p_pos
  have key : ∃ N, ec.negate P = .ok N ∧ (P.Canonical ec.p → N.Canonical ec.p) ∧
      ∀ Q, ec.Rep P Q → ec.Rep N (-Q) := by
    by_cases z : P.z = 0
    · refine ⟨P, negate_inf z, id, fun Q r => ?_⟩
      rw [(rep_zero_iff r).1 z]
      exact z
    · refine ⟨_, negate_affine hp z, ?_, fun Q r => ?_⟩
      · rintro (rfl | ⟨c1, c2, c3⟩)
        · exact absurd rfl z
        · exact .inr ⟨c1, ⟨Int.emod_nonneg _ hp.ne', Int.emod_lt_of_pos _ hp⟩, c3⟩
      · cases Q with
        | zero => exact absurd r z
        | some x y hxy =>
          obtain ⟨r1, r2, r3⟩ := r
          rw [Affine.Point.neg_some]
          refine ⟨z, r2, ?_⟩
          simp only [zmod_emod hp.le, Affine.negY]
          push_cast
          rw [r3]
          ring
  obtain ⟨N, e1, e2, e3⟩ := key
  obtain ⟨Q, r⟩ := (isOnCurve_iff_rep h P).1 o
  exact ⟨N, e1, (isOnCurve_iff_rep h N).2 ⟨_, e3 Q r⟩, e2, e3⟩

omit [Fact (Nat.Prime ec.p.toNat)] in
/-- C44: negating twice gives the point back. -/
theorem C44_involutive (h : ec.Good) (P : ECPoint) (c : P.Canonical ec.p) (N : ECPoint)
    (hN : ec.negate P = .ok N) : ec.negate N = .ok P := by
  have hp := h.p_pos
  rcases c with rfl | ⟨c1, c2, c3⟩
  · rw [negate_inf rfl] at hN; cases hN; exact negate_inf rfl
  · have z : P.z ≠ 0 := by omega
    rw [negate_affine hp z] at hN; cases hN
    rw [negate_affine hp (show (ECPoint.mk P.x (-P.y % ec.p) P.z).z ≠ 0 from z)]
    have : -(-P.y % ec.p) % ec.p = P.y := by
      rw [← Int.emod_eq_of_lt c2.1 c2.2]
      conv_rhs => rw [← neg_neg P.y]
      exact ((Int.mod_modEq (-(P.y % ec.p)) ec.p).neg).trans (by
        rw [neg_neg, neg_neg]
        exact Int.mod_modEq _ _)
    rw [this]

/-- C44: `P + negate(P)` is infinity. -/
theorem C44_plus_negate (h : ec.Good) (P N : ECPoint) (o : ec.isOnCurve P = .ok true)
    (hN : ec.negate P = .ok N) : ∃ R, ec.plus P N = .ok R ∧ R.isInfinity = true := by
  obtain ⟨N', e1, e2, -, e4⟩ := C44_negate h P o
  rw [hN] at e1; cases e1
  obtain ⟨Q, r⟩ := (isOnCurve_iff_rep h P).1 o
  by_cases z : N.z = 0
  · obtain ⟨R, f1, f2⟩ := plus_zero h r z
    exact ⟨R, f1, by simp [ECPoint.isInfinity, f2]⟩
  · obtain ⟨R, f1, f2, -⟩ := plus_rep h r (e4 Q r) (.inr z)
    rw [add_neg_cancel] at f2
    exact ⟨R, f1, by simp [ECPoint.isInfinity, (rep_zero_iff f2).2 rfl]⟩

end EllipticCurve

/-! ### C45 -/

open EllipticCurve in
theorem new_eq {a b p : ℤ} (hp : Nat.Prime p.toNat) (hb : p < 2 ^ 64) :
    EllipticCurve.new a b p = .ok { newRaw a b p with
      points := (irange 0 p).flatMap (newRaw a b p).ptsAt ++ [ECPoint.infinity] } := by
  have h2 : 2 ≤ p := by have := hp.two_le; omega
  unfold EllipticCurve.new
  have h1 : decide (p ≥ 2) = true := by simpa using h2
  have h3 : ¬ p ≥ 18446744073709551616 := by norm_num at hb; omega
  have h4 : isPrime p.toNat = true := by simpa [isPrime] using hp
  simp only [h1, h3, h4, rassert_true, Res.ok_bind, if_false]
  rw [createPoints_eq (show 0 < (newRaw a b p).p by show 0 < p; omega)]
  simp [newRaw]

/-- C45: `EllipticCurve::new(a,b,p)` returns for every prime `p < 2^64`; its point list contains every
solution `0 ≤ x,y < p` of the curve equation exactly once, and infinity as the last entry. -/
theorem C45_new (a b p : ℤ) (hp : Nat.Prime p.toNat) (hb : p < 2 ^ 64) :
    ∃ ec, EllipticCurve.new a b p = .ok ec ∧ ec.a = a ∧ ec.b = b ∧ ec.p = p ∧ ec.WF ∧
      ec.points.Nodup ∧ ec.points.getLast? = some ⟨0, 1, 0⟩ ∧
      ∀ P : ECPoint, P ∈ ec.points ↔ P = ⟨0, 1, 0⟩ ∨
        (0 ≤ P.x ∧ P.x < p) ∧ (0 ≤ P.y ∧ P.y < p) ∧ P.z = 1 ∧
          (P.y ^ 2 - (P.x ^ 3 + a * P.x + b)) % p = 0 := by
  refine ⟨_, new_eq hp hb, rfl, rfl, rfl, rfl, ?_, ?_, ?_⟩
  · exact EllipticCurve.nodup_points (ec := EllipticCurve.newRaw a b p) hp
  · simp [ECPoint.infinity]
  · intro P
    have := EllipticCurve.mem_points (ec := EllipticCurve.newRaw a b p) hp P
    refine this.trans (or_congr Iff.rfl (and_congr Iff.rfl (and_congr Iff.rfl (and_congr Iff.rfl ?_))))
    rw [Int.modEq_comm, Int.modEq_iff_dvd, Int.dvd_iff_emod_eq_zero]
    rfl

/-- C45: it returns for no other modulus. -/
theorem C45_new_panics (a b p : ℤ) (hp : ¬ (Nat.Prime p.toNat ∧ p < 2 ^ 64)) :
    ∃ w, EllipticCurve.new a b p = .panic w := by
  unfold EllipticCurve.new
  by_cases h1 : p ≥ 2
  · by_cases h2 : p ≥ 18446744073709551616
    · exact ⟨.unwrapNone, by simp only [h1, h2, decide_true, rassert_true, Res.ok_bind, if_true]⟩
    · have : ¬ Nat.Prime p.toNat := fun h => hp ⟨h, by norm_num; omega⟩
      have h4 : isPrime p.toNat = false := by simpa [isPrime] using this
      exact ⟨_, by simp only [h1, h2, h4, decide_true, rassert_true, Res.ok_bind, if_false]; rfl⟩
  · exact ⟨.assertion, by simp only [h1, decide_false]; rfl⟩

theorem good_of_new {a b p : ℤ} {ec : EllipticCurve} (hne : p ≠ 2)
    (hd : ¬ p ∣ 4 * a ^ 3 + 27 * b ^ 2) (h : EllipticCurve.new a b p = .ok ec) :
    ec.Good ∧ ec.p = p ∧ p < 2 ^ 64 ∧
      ec.points = (irange 0 ec.p).flatMap ec.ptsAt ++ [ECPoint.infinity] := by
  by_cases hc : Nat.Prime p.toNat ∧ p < 2 ^ 64
  · rw [new_eq hc.1 hc.2] at h
    cases h
    exact ⟨⟨rfl, hc.1, hne, hd⟩, rfl, hc.2, rfl⟩
  · obtain ⟨w, hw⟩ := C45_new_panics a b p hc
    rw [hw] at h; cases h

/-- C45: for a nonsingular curve over an odd prime field `cardinality()` is the order of the group
`E(GF(p))`. -/
theorem C45_cardinality (a b p : ℤ) (ec : EllipticCurve) (h : EllipticCurve.new a b p = .ok ec)
    (hne : p ≠ 2) (hd : ¬ p ∣ 4 * a ^ 3 + 27 * b ^ 2) :
    ec.cardinality = Nat.card
      (shortW (a : ZMod p.toNat) (b : ZMod p.toNat)).toAffine.Point := by
  obtain ⟨hg, hp, hb, hpts⟩ := good_of_new hne hd h
  have hpr : Nat.Prime p.toNat := hp ▸ hg.prime
  have h' := h
  rw [new_eq hpr hb] at h'
  have ha' : ec.a = a := by cases h'; rfl
  have hb' : ec.b = b := by cases h'; rfl
  rw [EllipticCurve.cardinality, hpts, EllipticCurve.length_points hg, ← ha', ← hb', ← hp]

/-- C45: every listed point denotes a group element, and every group element is denoted by exactly one
listed point. -/
theorem C45_bijection (a b p : ℤ) (ec : EllipticCurve) (h : EllipticCurve.new a b p = .ok ec)
    (hne : p ≠ 2) (hd : ¬ p ∣ 4 * a ^ 3 + 27 * b ^ 2) :
    (∀ P ∈ ec.points, ∃! Q, ec.Rep P Q) ∧ (∀ Q, ∃! P, P ∈ ec.points ∧ ec.Rep P Q) := by
  obtain ⟨hg, -, -, hpts⟩ := good_of_new hne hd h
  rw [hpts]
  constructor
  · intro P hP
    obtain ⟨-, Q, hQ⟩ := (EllipticCurve.points_rep hg).1 hP
    exact ⟨Q, hQ, fun Q' hQ' => hQ'.unique hQ⟩
  · intro Q
    obtain ⟨P, hc, hr⟩ := EllipticCurve.exists_canonical hg Q
    refine ⟨P, ⟨(EllipticCurve.points_rep hg).2 ⟨hc, Q, hr⟩, hr⟩, ?_⟩
    rintro P' ⟨hm, hr'⟩
    exact EllipticCurve.canonical_unique hg.p_pos hr' hr ((EllipticCurve.points_rep hg).1 hm).1 hc

namespace EllipticCurve
variable {ec : EllipticCurve} [Fact (Nat.Prime ec.p.toNat)]

/-! ### C46, C47 -/

/-- Some `2^j • Q = 0` with `2^j ≤ n` iff the order of `Q` is a power of two that is at most `n`. -/
theorem pow_order_iff {G : Type*} [AddCommGroup G] (Q : G) (n : ℕ) :
    (∃ j, 2 ^ j ≤ n ∧ 2 ^ j • Q = 0) ↔ ∃ j, addOrderOf Q = 2 ^ j ∧ addOrderOf Q ≤ n := by
  constructor
  · rintro ⟨j, h1, h2⟩
    obtain ⟨i, hi, he⟩ := (Nat.dvd_prime_pow Nat.prime_two).1 (addOrderOf_dvd_of_nsmul_eq_zero h2)
    exact ⟨i, he, he ▸ le_trans (Nat.pow_le_pow_right (by norm_num) hi) h1⟩
  · rintro ⟨j, h1, h2⟩
    exact ⟨j, h1 ▸ h2, h1 ▸ addOrderOf_nsmul_eq_zero Q⟩

/-- C46: for a point on the curve and `n ≥ 0`, `multiply_scalar` returns; the result denotes `n • P`
unless the order of the point is a power of two that is at most `n`, and in that case it is a point at
infinity. -/
theorem C46_multiply_scalar (h : ec.Fair) (P : ECPoint) (Q : ec.W.Point) (r : ec.Rep P Q) (n : ℕ) :
    ∃ S, ec.multiplyScalar P n = .ok S ∧
      ((¬ ∃ j, addOrderOf Q = 2 ^ j ∧ addOrderOf Q ≤ n) → ec.Rep S (n • Q)) ∧
      ((∃ j, addOrderOf Q = 2 ^ j ∧ addOrderOf Q ≤ n) → S.isInfinity = true) := by
  rw [← pow_order_iff]
  unfold multiplyScalar
  by_cases hn : n = 0
  · subst hn
    refine ⟨ECPoint.infinity, by simp, fun _ => ?_, fun _ => rfl⟩
    rw [zero_nsmul]; rfl
  · have hn' : ¬ (n : ℤ) = 0 := by omega
    have hn'' : ¬ (n : ℤ) < 0 := by omega
    rw [if_neg hn', if_neg hn'']
    by_cases hc : ∃ j, 2 ^ j ≤ n ∧ 2 ^ j • Q = 0
    · obtain ⟨j, h1, h2⟩ := hc
      obtain ⟨S, e1, e2⟩ := mulPos_pow h h1 r h2
      exact ⟨S, e1, fun hc => absurd ⟨j, h1, h2⟩ hc, fun _ => by simp [ECPoint.isInfinity, e2]⟩
    · obtain ⟨S, e1, e2, -⟩ := mulPos_rep h (by omega) r (fun j hj h0 => hc ⟨j, hj, h0⟩)
      exact ⟨S, e1, fun _ => e2, fun h => absurd h hc⟩

/-- C46: exactly when the result is right. -/
theorem C46_multiply_scalar_iff (h : ec.Fair) (P : ECPoint) (Q : ec.W.Point) (r : ec.Rep P Q) (n : ℕ) :
    (∃ S, ec.multiplyScalar P n = .ok S ∧ ec.Rep S (n • Q)) ↔
      ¬ ∃ j, addOrderOf Q = 2 ^ j ∧ addOrderOf Q ≤ n ∧ ¬ addOrderOf Q ∣ n := by
  obtain ⟨S, e1, e2, e3⟩ := C46_multiply_scalar h P Q r n
  constructor
  · rintro ⟨S', f1, f2⟩ ⟨j, h1, h2, h3⟩
    rw [e1] at f1; cases f1
    have hz : S.z = 0 := by simpa [ECPoint.isInfinity] using e3 ⟨j, h1, h2⟩
    exact h3 (addOrderOf_dvd_of_nsmul_eq_zero ((rep_zero_iff f2).1 hz))
  · intro hc
    by_cases hb : ∃ j, addOrderOf Q = 2 ^ j ∧ addOrderOf Q ≤ n
    · refine ⟨S, e1, ?_⟩
      obtain ⟨j, h1, h2⟩ := hb
      have hd : addOrderOf Q ∣ n := by
        by_contra hd; exact hc ⟨j, h1, h2, hd⟩
      rw [addOrderOf_dvd_iff_nsmul_eq_zero.1 hd]
      have hz : S.z = 0 := by simpa [ECPoint.isInfinity] using e3 ⟨j, h1, h2⟩
      exact hz
    · exact ⟨S, e1, e2 hb⟩

/-- C46: in a group of odd order `multiply_scalar` is right for every point and every `n ≥ 0`. -/
theorem C46_odd_order (h : ec.Fair) (P : ECPoint) (Q : ec.W.Point) (r : ec.Rep P Q) (n : ℕ)
    (hodd : Odd (addOrderOf Q)) : ∃ S, ec.multiplyScalar P n = .ok S ∧ ec.Rep S (n • Q) := by
  rw [C46_multiply_scalar_iff h P Q r n]
  rintro ⟨j, h1, -, h3⟩
  rw [h1] at hodd h3
  cases j with
  | zero => simp at h3
  | succ j => rw [pow_succ, Nat.odd_iff] at hodd; omega

omit [Fact (Nat.Prime ec.p.toNat)] in
/-- C46: the exception is real: on `y^2 = x^3 - 2x + 1` over GF(7) the point `(1,0)` has order 2, but
`multiply_scalar` of it by 3 returns a point at infinity instead of `(1,0)`. -/
theorem C46_power_of_two_order : (newRaw (-2) 1 7).multiplyScalar ⟨1, 0, 1⟩ 3 = .ok ⟨1, 1, 0⟩ ∧
    pointOrder 5 (newRaw (-2) 1 7) ⟨1, 0, 1⟩ = .ok 2 := by decide +kernel

/-- C47: for negative scalars `multiply_scalar(P,-n)` computes the same as `multiply_scalar(P,n)`. -/
theorem C47_negative_scalar_partial (h : ec.Good) (P : ECPoint) (o : ec.isOnCurve P = .ok true) (n : ℤ) :
    ec.multiplyScalar P (-n) = ec.multiplyScalar P n := by
  obtain ⟨Q, r⟩ := (isOnCurve_iff_rep h P).1 o
  have key : ∀ m : ℕ, 1 ≤ m → ec.multiplyScalar P (-m) = ec.multiplyScalar P m := by
    intro m hm
    have hA : ∃ S, ec.mulPos P m = .ok S ∧ ∃ Q', ec.Rep S Q' := by
      by_cases hc : ∃ j, 2 ^ j ≤ m ∧ 2 ^ j • Q = 0
      · obtain ⟨j, h1, h2⟩ := hc
        obtain ⟨S, e1, e2⟩ := mulPos_pow h h1 r h2
        exact ⟨S, e1, .zero, e2⟩
      · obtain ⟨S, e1, e2, -⟩ := mulPos_rep h hm r (fun j hj h0 => hc ⟨j, hj, h0⟩)
        exact ⟨S, e1, _, e2⟩
    obtain ⟨S, e1, Q', e2⟩ := hA
    unfold multiplyScalar
    have h1 : ¬ -(m : ℤ) = 0 := by omega
    have h2 : -(m : ℤ) < 0 := by omega
    have h3 : ¬ (m : ℤ) = 0 := by omega
    have h4 : ¬ (m : ℤ) < 0 := by omega
    simp only [h1, h2, h3, h4, if_false, if_true, neg_neg, e1, Res.ok_bind]
    exact plus_inf_left h rfl e2
  rcases lt_trichotomy n 0 with hn | hn | hn
  · have := key (-n).toNat (by omega)
    rw [Int.toNat_of_nonneg (by omega)] at this
    rw [← this, neg_neg]
  · subst hn; rfl
  · have := key n.toNat (by omega)
    rwa [Int.toNat_of_nonneg (by omega)] at this

/-- C47 fails: for every point whose order is neither 1 nor 2, `multiply_scalar(P,-1)` is not `-P`. -/
theorem C47_negative_scalar_refuted (h : ec.Good) (P : ECPoint) (Q : ec.W.Point) (r : ec.Rep P Q)
    (hQ : Q + Q ≠ 0) : ∃ S, ec.multiplyScalar P (-1) = .ok S ∧ ¬ ec.Rep S (-Q) := by
  rw [C47_negative_scalar_partial h P ((isOnCurve_iff_rep h P).2 ⟨Q, r⟩) 1]
  refine ⟨P, rfl, fun r' => hQ ?_⟩
  have := r.unique r'
  nth_rewrite 1 [this]
  exact neg_add_cancel Q

/-! ### C48 -/

/-- C48: `point_order` returns the order of the point in the group (in particular it terminates). -/
theorem C48_point_order (h : ec.Fair) (P : ECPoint) (Q : ec.W.Point) (r : ec.Rep P Q) :
    Returns (fun fuel => pointOrder fuel ec P) (addOrderOf Q) := by
  by_cases z : P.z = 0
  · refine ⟨0, fun fuel _ => ?_⟩
    have i : P.isInfinity = true := by simp [ECPoint.isInfinity, z]
    rw [(rep_zero_iff r).1 z, addOrderOf_zero]
    simp only [pointOrder, i, if_true, Nat.cast_one]
  · have : Finite ec.W.Point := finite_point h.p_pos
    have hpos := addOrderOf_pos Q
    have hne1 : addOrderOf Q ≠ 1 := fun h1 => z ((rep_zero_iff r).2 (AddMonoid.addOrderOf_eq_one_iff.1 h1))
    refine ⟨addOrderOf Q, fun fuel hf => ?_⟩
    have i : P.isInfinity = false := by simp [ECPoint.isInfinity, z]
    simp only [pointOrder, i, Bool.false_eq_true, if_false]
    have := orderLoop_spec h r z (addOrderOf Q - 2) 1 P fuel (by rwa [one_smul]) le_rfl (by omega) (by omega)
    exact_mod_cast this

/-! ### C49 -/

theorem foldlM_filter {α : Type} (f : α → Res Bool) (g : α → Bool) (l : List α)
    (hf : ∀ x ∈ l, f x = .ok (g x)) (acc : List α) :
    l.foldlM (fun acc x => do .ok (if (← f x) then acc ++ [x] else acc)) acc =
      Res.ok (acc ++ l.filter g) := by
  induction l generalizing acc with
  | nil => simp
  | cons x t ih =>
    rw [List.foldlM_cons, hf x (by simp)]
    simp only [Res.ok_bind]
    rw [ih (fun y hy => hf y (by simp [hy]))]
    cases hg : g x <;> simp [hg]

/-- The test `division_points` applies to a canonical point. -/
theorem mul_eq_infinity (h : ec.Good) {P : ECPoint} {Q : ec.W.Point} (r : ec.Rep P Q)
    (c : P.Canonical ec.p) (n : ℤ) :
    ∃ S, ec.multiplyScalar P n = .ok S ∧ (n • Q = 0 → S = ECPoint.infinity) ∧
      ((¬ ∃ j, addOrderOf Q = 2 ^ j ∧ addOrderOf Q ≤ n.natAbs ∧ ¬ addOrderOf Q ∣ n.natAbs) →
        S = ECPoint.infinity → n • Q = 0) := by
  have hab : n • Q = 0 ↔ n.natAbs • Q = 0 := by
    rcases Int.natAbs_eq n with hn | hn
    · conv_lhs => rw [hn]
      rw [natCast_zsmul]
    · conv_lhs => rw [hn]
      rw [neg_smul, natCast_zsmul, neg_eq_zero]
  have hm : ec.multiplyScalar P n = ec.multiplyScalar P n.natAbs := by
    rcases Int.natAbs_eq n with hn | hn
    · conv_lhs => rw [hn]
    · conv_lhs => rw [hn]
      exact C47_negative_scalar_partial h P ((isOnCurve_iff_rep h P).2 ⟨Q, r⟩) _
  rw [hm, hab]
  generalize n.natAbs = m
  by_cases h0 : m = 0
  · subst h0
    exact ⟨ECPoint.infinity, rfl, fun _ => rfl, fun _ _ => zero_nsmul Q⟩
  · have e0 : ec.multiplyScalar P m = ec.mulPos P m := by
      unfold multiplyScalar
      rw [if_neg (by omega), if_neg (by omega)]
    rw [e0]
    by_cases hc : ∃ j, 2 ^ j ≤ m ∧ 2 ^ j • Q = 0
    · obtain ⟨j, h1, h2⟩ := (pow_order_iff Q m).1 hc
      obtain ⟨i, h3, h4⟩ := hc
      by_cases hd : addOrderOf Q ∣ m
      · refine ⟨_, mulPos_dvd h (j := j) (by omega) (h1 ▸ hd) r c (h1 ▸ addOrderOf_nsmul_eq_zero Q),
          fun _ => rfl, fun _ _ => addOrderOf_dvd_iff_nsmul_eq_zero.1 hd⟩
      · obtain ⟨S, e1, -⟩ := mulPos_pow h h3 r h4
        exact ⟨S, e1, fun hz => absurd (addOrderOf_dvd_iff_nsmul_eq_zero.2 hz) hd,
          fun hn => absurd ⟨j, h1, h2, hd⟩ hn⟩
    · obtain ⟨S, e1, e2, e3⟩ := mulPos_rep h (by omega) r (fun j hj h0 => hc ⟨j, hj, h0⟩)
      refine ⟨S, e1, fun hz => ?_, fun _ hS => ?_⟩
      · rw [hz] at e2
        exact canonical_unique h.p_pos e2 (rep_infinity ec) (e3 (.inr c)) (canonical_infinity _)
      · rw [hS] at e2
        exact (rep_zero_iff e2).1 rfl

omit [Fact (Nat.Prime ec.p.toNat)] in
/-- C49: `division_points(n)` returns a sublist (in order) of the listed points that contains every
listed point `P` with `n • P = O`.  Conversely a listed point in the result is `n`-torsion, unless its
order is a power of two that is at most `|n|` and does not divide `n`. -/
theorem C49_division_points_partial (a b p : ℤ) (h : EllipticCurve.new a b p = .ok ec)
    (hne : p ≠ 2) (hd : ¬ p ∣ 4 * a ^ 3 + 27 * b ^ 2) [Fact (Nat.Prime ec.p.toNat)] (n : ℤ) :
    ∃ l, ec.divisionPoints n = .ok l ∧ l.Sublist ec.points ∧
      (∀ P ∈ ec.points, ∀ Q, ec.Rep P Q → n • Q = 0 → P ∈ l) ∧
      (∀ P ∈ l, ∀ Q, ec.Rep P Q →
        (¬ ∃ j, addOrderOf Q = 2 ^ j ∧ addOrderOf Q ≤ n.natAbs ∧ ¬ addOrderOf Q ∣ n.natAbs) → n • Q = 0) := by
  obtain ⟨hg, -, -, hpts⟩ := good_of_new hne hd h
  have hm : ∀ P ∈ ec.points, P.Canonical ec.p ∧ ∃ Q, ec.Rep P Q := fun P hP => by
    rw [hpts] at hP; exact (points_rep hg).1 hP
  classical
  let g : ECPoint → Bool := fun P => decide (ec.multiplyScalar P n = .ok ECPoint.infinity)
  refine ⟨ec.points.filter g, ?_, List.filter_sublist, ?_, ?_⟩
  · unfold divisionPoints
    have := foldlM_filter (fun P => (do let R ← ec.multiplyScalar P n; Res.ok (decide (R = ECPoint.infinity)))) g
      ec.points (by
        intro P hP
        obtain ⟨c, Q, r⟩ := hm P hP
        obtain ⟨S, e1, -⟩ := mul_eq_infinity hg r c n
        simp only [e1, Res.ok_bind, g, Res.ok.injEq]) []
    rw [List.nil_append] at this
    rw [← this]
    congr 1
    funext vec P
    cases ec.multiplyScalar P n with
    | ok R => by_cases hR : R = ECPoint.infinity <;> simp [hR]
    | panic w => rfl
    | timeout => rfl
  · intro P hP Q r hz
    obtain ⟨c, -⟩ := hm P hP
    obtain ⟨S, e1, e2, -⟩ := mul_eq_infinity hg r c n
    rw [List.mem_filter]
    exact ⟨hP, by simp only [g, e1, e2 hz, decide_true]⟩
  · intro P hP Q r hb
    rw [List.mem_filter] at hP
    obtain ⟨c, -⟩ := hm P hP.1
    obtain ⟨S, e1, -, e3⟩ := mul_eq_infinity hg r c n
    have := hP.2
    simp only [g, e1, decide_eq_true_eq, Res.ok.injEq] at this
    exact e3 hb this

omit [Fact (Nat.Prime ec.p.toNat)] in
/-- C49: exactly the `n`-torsion, when the number of points of the curve is odd or `|n|` is a power of
two. -/
theorem C49_exact (a b p : ℤ) (h : EllipticCurve.new a b p = .ok ec)
    (hne : p ≠ 2) (hd : ¬ p ∣ 4 * a ^ 3 + 27 * b ^ 2) [Fact (Nat.Prime ec.p.toNat)] (n : ℤ)
    (hn : Odd ec.cardinality ∨ ∃ k, n.natAbs = 2 ^ k) :
    ∃ l, ec.divisionPoints n = .ok l ∧ l.Sublist ec.points ∧
      ∀ P ∈ ec.points, ∀ Q, ec.Rep P Q → (P ∈ l ↔ n • Q = 0) := by
  obtain ⟨hg, -, -, hpts⟩ := good_of_new hne hd h
  obtain ⟨l, e1, e2, e3, e4⟩ := C49_division_points_partial a b p h hne hd n
  refine ⟨l, e1, e2, fun P hP Q r => ⟨fun hl => e4 P hl Q r ?_, e3 P hP Q r⟩⟩
  rintro ⟨j, h1, h2, h3⟩
  rcases hn with hn | ⟨k, hk⟩
  · rw [cardinality, hpts, length_points hg] at hn
    have hdv : addOrderOf Q ∣ Nat.card ec.W.Point := addOrderOf_dvd_natCard Q
    have ho : Odd (addOrderOf Q) := Odd.of_dvd_nat hn hdv
    rw [h1] at ho h3
    cases j with
    | zero => simp at h3
    | succ j => rw [pow_succ, Nat.odd_iff] at ho; omega
  · rw [h1, hk] at h2 h3
    exact h3 (pow_dvd_pow 2 ((Nat.pow_le_pow_iff_right (by norm_num)).1 h2))

/-- C49 fails in general: on `y^2 = x^3 - 2x + 1` over GF(7), `division_points(5)` lists the point
`(0,1)`, whose fivefold multiple is itself. -/
theorem C49_division_points_refuted :
    ∃ ec l, EllipticCurve.new (-2) 1 7 = .ok ec ∧ ec.divisionPoints 5 = .ok l ∧ ⟨0, 1, 1⟩ ∈ l ∧
      ∀ S2 S3 S4, ec.plus ⟨0, 1, 1⟩ ⟨0, 1, 1⟩ = .ok S2 → ec.plus ⟨0, 1, 1⟩ S2 = .ok S3 →
        ec.plus ⟨0, 1, 1⟩ S3 = .ok S4 → ec.plus S4 ⟨0, 1, 1⟩ = .ok ⟨0, 1, 1⟩ := by
  refine ⟨_, [⟨0, 1, 1⟩, ⟨0, 6, 1⟩, ⟨0, 1, 0⟩], new_eq (show Nat.Prime 7 by norm_num) (by norm_num), ?_, by simp, ?_⟩
  · decide +kernel
  · intro S2 S3 S4 h2 h3 h4
    have e2 : S2 = ⟨1, 0, 1⟩ := by
      have : (⟨1, 0, 1⟩ : ECPoint) = S2 := Res.ok.inj (Eq.trans (by decide +kernel) h2)
      exact this.symm
    subst e2
    have e3 : (⟨0, 6, 1⟩ : ECPoint) = S3 := Res.ok.inj (Eq.trans (by decide +kernel) h3)
    subst e3
    have e4 : (⟨0, 1, 0⟩ : ECPoint) = S4 := Res.ok.inj (Eq.trans (by decide +kernel) h4)
    subst e4
    decide +kernel

/-! ### C50 -/

omit [Fact (Nat.Prime ec.p.toNat)] in
/-- C50: `j_invariant()` is the canonical residue of `1728 * 4a^3 / (4a^3 + 27b^2)`. -/
theorem C50_j_invariant (h : ec.Good) : ∃ j, ec.jInvariant = .ok j ∧ 0 ≤ j ∧ j < ec.p ∧
    (j * (4 * ec.a ^ 3 + 27 * ec.b ^ 2) - 1728 * (4 * ec.a ^ 3)) % ec.p = 0 := by
  have hp := h.p_pos
  have : Fact (Nat.Prime ec.p.toNat) := ⟨h.prime⟩
  have p3 : power ec.a 3 = ec.a ^ 3 := power_eq_pow _ 3 (by norm_num)
  have p2 : power ec.b 2 = ec.b ^ 2 := power_eq_pow _ 2 (by norm_num)
  obtain ⟨r, hr, -, -, -, hr'⟩ := inverse_spec (4 * ec.a ^ 3 + 27 * ec.b ^ 2) ec.p h.prime
  have hr' := hr' (.inr h.odd)
  refine ⟨(1728 * (4 * ec.a ^ 3) * r) % ec.p, by unfold jInvariant; simp only [p3, p2, hr, Res.ok_bind, modFloor_of hp.ne', fmod_pos_eq hp],
    Int.emod_nonneg _ hp.ne', Int.emod_lt_of_pos _ hp, ?_⟩
  rw [← Int.dvd_iff_emod_eq_zero, ← zmod_eq_zero_iff hp.le]
  have hd : ((4 * ec.a ^ 3 + 27 * ec.b ^ 2 : ℤ) : ZMod ec.p.toNat) ≠ 0 := by
    rw [ne_eq, zmod_eq_zero_iff hp.le]; exact h.disc
  push_cast at hd hr'
  push_cast [zmod_emod hp.le]
  rw [hr', mul_assoc, inv_mul_cancel₀ hd]
  ring

/-- C50: it is Mathlib's `j` of the curve. -/
theorem C50_j_mathlib (h : ec.Good) [(ec.W).IsElliptic] (j : ℤ) (hj : ec.jInvariant = .ok j) :
    (j : ZMod ec.p.toNat) = (ec.W).j := by
  have hp := h.p_pos
  obtain ⟨j', e1, -, -, e2⟩ := C50_j_invariant h
  rw [hj] at e1; cases e1
  rw [← Int.dvd_iff_emod_eq_zero, ← zmod_eq_zero_iff hp.le] at e2
  push_cast at e2
  have hD := h.delta_ne
  have hΔ : (ec.W).Δ = -2 ^ 4 * (4 * (ec.a : ZMod ec.p.toNat) ^ 3 + 27 * (ec.b : ZMod ec.p.toNat) ^ 2) := by
    simp only [WeierstrassCurve.Δ, WeierstrassCurve.b₂, WeierstrassCurve.b₄, WeierstrassCurve.b₆,
      WeierstrassCurve.b₈]
    ring
  have hc4 : (ec.W).c₄ = -48 * (ec.a : ZMod ec.p.toNat) := by
    simp only [WeierstrassCurve.c₄, WeierstrassCurve.b₂, WeierstrassCurve.b₄]; ring
  rw [WeierstrassCurve.j, Units.val_inv_eq_inv_val, WeierstrassCurve.coe_Δ', hc4, eq_comm,
    inv_mul_eq_iff_eq_mul₀ hD, hΔ]
  linear_combination (16 : ZMod ec.p.toNat) * e2

/-! ### C51 -/

omit [Fact (Nat.Prime ec.p.toNat)] in
/-- C51 (the part that holds): `isogeny(n)` returns a curve over the same field. -/
theorem C51_isogeny_returns_partial (a b p : ℤ) (h : EllipticCurve.new a b p = .ok ec)
    (hne : p ≠ 2) (hd : ¬ p ∣ 4 * a ^ 3 + 27 * b ^ 2) (n : ℤ) :
    ∃ ec', ec.isogeny n = .ok ec' ∧ ec'.p = p := by
  obtain ⟨hg, hp, hb, hpts⟩ := good_of_new hne hd h
  have : Fact (Nat.Prime ec.p.toNat) := ⟨hg.prime⟩
  have hp0 := hg.p_pos
  obtain ⟨l, e1, -⟩ := C49_division_points_partial a b p h hne hd n
  unfold isogeny
  rw [e1]
  simp only [Res.ok_bind]
  obtain ⟨vw, e2, -⟩ := foldlM_total (ec.isogenyStep (decide (n % 2 = 1))) (fun _ _ => True) l (0, 0) trivial (by
    intro pre P vw _ _
    unfold isogenyStep
    cases P.isInfinity
    · simp only [Bool.false_eq_true, if_false, divFloor_of hp0.ne', Res.ok_bind]
      exact ⟨_, rfl, trivial⟩
    · exact ⟨_, rfl, trivial⟩)
  rw [e2]
  simp only [Res.ok_bind, divFloor_of hp0.ne']
  rw [new_eq hg.prime (by rw [hp]; exact hb)]
  exact ⟨_, rfl, hp⟩

/-- C51 fails: the curve `y^2 = x^3 + 6x + 2` over GF(7) has 9 points and 3 points of order dividing 3,
but `isogeny(3)` returns a (nonsingular) curve with 12 points. -/
theorem C51_isogeny_refuted :
    ∃ ec ec' l, EllipticCurve.new 6 2 7 = .ok ec ∧ ec.divisionPoints 3 = .ok l ∧ l.length = 3 ∧
      ec.isogeny 3 = .ok ec' ∧ ec'.a = -2 ∧ ec'.b = -27 ∧ ec.cardinality = 9 ∧ ec'.cardinality = 12 := by
  have key : (match EllipticCurve.new 6 2 7 with
      | .ok ec => (match ec.divisionPoints 3, ec.isogeny 3 with
        | .ok l, .ok ec' => decide (l.length = 3 ∧ ec'.a = -2 ∧ ec'.b = -27 ∧ ec.cardinality = 9 ∧
            ec'.cardinality = 12)
        | _, _ => false)
      | _ => false) = true := by decide +kernel
  cases h1 : EllipticCurve.new 6 2 7 with
  | panic w => rw [h1] at key; simp at key
  | timeout => rw [h1] at key; simp at key
  | ok ec =>
    rw [h1] at key
    simp only at key
    cases h2 : ec.divisionPoints 3 with
    | panic w => rw [h2] at key; simp at key
    | timeout => rw [h2] at key; simp at key
    | ok l =>
      cases h3 : ec.isogeny 3 with
      | panic w => rw [h2, h3] at key; simp at key
      | timeout => rw [h2, h3] at key; simp at key
      | ok ec' =>
        rw [h2, h3] at key
        simp only [decide_eq_true_eq] at key
        obtain ⟨k1, k2, k3, k4, k5⟩ := key
        exact ⟨ec, ec', l, rfl, h2, k1, h3, k2, k3, k4, k5⟩

/-! Concrete cases: the hypotheses are met. -/

/-- The curve `y^2 = x^3 + 6x + 2` over GF(7) used in the examples. -/
def sampleCurve : EllipticCurve := newRaw 6 2 7

theorem sampleCurve_good : sampleCurve.Good := by
  refine ⟨rfl, (show Nat.Prime 7 by norm_num), (show (7 : ℤ) ≠ 2 by norm_num), ?_⟩
  show ¬ (7 : ℤ) ∣ 4 * 6 ^ 3 + 27 * 2 ^ 2
  norm_num

instance : Fact (Nat.Prime sampleCurve.p.toNat) := ⟨sampleCurve_good.prime⟩

example : sampleCurve.isOnCurve ⟨0, 3, 1⟩ = .ok true ∧ sampleCurve.isOnCurve ⟨9, -1, 1⟩ = .ok true ∧
    sampleCurve.isOnCurve ⟨1, 1, 1⟩ = .ok false := by decide +kernel
example : sampleCurve.plus ⟨0, 3, 1⟩ ⟨9, -1, 1⟩ = .ok ⟨2, 1, 1⟩ := by decide +kernel
example := C42_plus sampleCurve_good ⟨0, 3, 1⟩ ⟨9, -1, 1⟩ (by decide) (by decide) (by decide +kernel)
  (by decide +kernel)
example := C45_new 6 2 7 (show Nat.Prime 7 by norm_num) (by norm_num)
example : pointOrder 20 sampleCurve ⟨0, 3, 1⟩ = .ok 9 := by decide +kernel
example : sampleCurve.multiplyScalar ⟨0, 3, 1⟩ 5 = .ok ⟨2, 1, 1⟩ := by decide +kernel
example : sampleCurve.jInvariant = .ok 3 := by decide +kernel

end EllipticCurve
end EC
