import Verif.Props.TwoPower
import Verif.Props.CurveTwist

/-! C86, C87: curves with a singular point.  `EllipticCurve::new` and `new_raw` accept them: what the point operations do
there, and how many points such a curve has. -/

namespace EC
open WeierstrassCurve

namespace EllipticCurve
variable {ec : EllipticCurve}

/-- `P` is (a representative of) the singular point: an affine point of the curve at which `2y` and `3x^2 + a`
vanish modulo `p`. -/
def IsSingular (ec : EllipticCurve) (P : ECPoint) : Prop :=
  P.z ≠ 0 ∧ ec.isOnCurve P = .ok true ∧ ec.p ∣ 2 * P.y ∧ ec.p ∣ 3 * P.x ^ 2 + ec.a

theorem onCurve_cast (h : ec.Fair) {P : ECPoint} (o : ec.isOnCurve P = .ok true) (z : P.z ≠ 0) :
    (P.y : ZMod ec.p.toNat) ^ 2 = (P.x : ZMod ec.p.toNat) ^ 3 + ec.a * P.x + ec.b := by
  rw [isOnCurve_eq h.wf h.p_pos, Res.ok.injEq, decide_eq_true_iff, modEq_iff_zmod h.p_pos.le] at o
  exact o.resolve_left z

theorem onCurve_of_cast (h : ec.Fair) {P : ECPoint}
    (o : (P.y : ZMod ec.p.toNat) ^ 2 = (P.x : ZMod ec.p.toNat) ^ 3 + ec.a * P.x + ec.b) :
    ec.isOnCurve P = .ok true := by
  rw [isOnCurve_eq h.wf h.p_pos, Res.ok.injEq, decide_eq_true_iff, modEq_iff_zmod h.p_pos.le]
  exact .inr o

section
variable [Fact (Nat.Prime ec.p.toNat)]

/-- The singular point in the field: `y = 0`, `a = -3 x^2`, `b = 2 x^3`. -/
theorem IsSingular.cast (h : ec.Fair) {P : ECPoint} (s : ec.IsSingular P) :
    (P.y : ZMod ec.p.toNat) = 0 ∧ (ec.a : ZMod ec.p.toNat) = -3 * (P.x : ZMod ec.p.toNat) ^ 2 ∧
      (ec.b : ZMod ec.p.toNat) = 2 * (P.x : ZMod ec.p.toNat) ^ 3 := by
  obtain ⟨s1, s2, s3, s4⟩ := s
  rw [← zmod_eq_zero_iff h.p_pos.le] at s3 s4
  push_cast at s3 s4
  have e := onCurve_cast h s2 s1
  have hy : (P.y : ZMod ec.p.toNat) = 0 := (mul_eq_zero.1 s3).resolve_left h.two_ne
  have ha : (ec.a : ZMod ec.p.toNat) = -3 * (P.x : ZMod ec.p.toNat) ^ 2 := by linear_combination s4
  refine ⟨hy, ha, ?_⟩
  rw [hy, ha] at e
  linear_combination -e

/-- C86: a point of the curve denotes an element of the group of nonsingular points unless it is the singular point. -/
theorem C86_singular_iff (h : ec.Fair) (P : ECPoint) (o : ec.isOnCurve P = .ok true) :
    (∃ Q, ec.Rep P Q) ↔ ¬ ec.IsSingular P := by
  have hp := h.p_pos
  constructor
  · rintro ⟨Q, r⟩ s
    obtain ⟨hy, ha, hb⟩ := s.cast h
    cases Q with
    | zero => exact s.1 r
    | some x y hxy =>
      obtain ⟨-, rfl, rfl⟩ := r
      have := (Affine.nonsingular_iff _ _).1 hxy
      simp only [hy, ha] at this
      simp at this
  · intro hs
    by_cases z : P.z = 0
    · exact ⟨.zero, z⟩
    · refine ⟨.some (P.x : ZMod ec.p.toNat) (P.y : ZMod ec.p.toNat) ?_, z, rfl, rfl⟩
      have e := onCurve_cast h o z
      rw [Affine.nonsingular_iff, equation_iff]
      refine ⟨e, ?_⟩
      by_contra hc
      push Not at hc
      obtain ⟨c1, c2⟩ := hc
      simp only [mul_zero, zero_mul, add_zero, sub_zero, zero_add] at c1 c2
      apply hs
      refine ⟨z, o, ?_, ?_⟩
      · rw [← zmod_eq_zero_iff hp.le]
        push_cast
        have c3 : (P.y : ZMod ec.p.toNat) = -P.y := by simpa using c2
        linear_combination c3
      · rw [← zmod_eq_zero_iff hp.le]
        push_cast
        have c3 : (0 : ZMod ec.p.toNat) = 3 * (P.x : ZMod ec.p.toNat) ^ 2 + ec.a := by simpa using c1
        exact c3.symm

/-- C86: there is at most one singular point. -/
theorem C86_singular_unique (h : ec.Fair) (P P' : ECPoint) (s : ec.IsSingular P) (s' : ec.IsSingular P') :
    P.x ≡ P'.x [ZMOD ec.p] ∧ P.y ≡ P'.y [ZMOD ec.p] := by
  have hp := h.p_pos
  obtain ⟨hy, ha, hb⟩ := s.cast h
  obtain ⟨hy', ha', hb'⟩ := s'.cast h
  rw [← zmod_eq_iff hp.le, ← zmod_eq_iff hp.le, hy, hy']
  refine ⟨?_, rfl⟩
  set u := (P.x : ZMod ec.p.toNat)
  set v := (P'.x : ZMod ec.p.toNat)
  have e1 : 3 * (u ^ 2 - v ^ 2) = 0 := by linear_combination ha - ha'
  have e2 : u ^ 3 = v ^ 3 := by
    have : (2 : ZMod ec.p.toNat) * (u ^ 3 - v ^ 3) = 0 := by linear_combination hb' - hb
    exact sub_eq_zero.1 ((mul_eq_zero.1 this).resolve_left h.two_ne)
  have e3 : (u - v) ^ 3 = 0 := by
    by_cases h3 : (3 : ZMod ec.p.toNat) = 0
    · linear_combination e2 - (u ^ 2 * v - u * v ^ 2) * h3
    · have e4 : u ^ 2 = v ^ 2 := sub_eq_zero.1 ((mul_eq_zero.1 e1).resolve_left h3)
      linear_combination 4 * e2 - (3 * v + 3 * u) * e4
  exact sub_eq_zero.1 (pow_eq_zero_iff (by norm_num) |>.1 e3)

/-- `inverse` of a difference modulo an odd prime, in the field. -/
theorem inverse_cast (h : ec.Fair) (n : ℤ) : ∃ r, inverse n ec.p = .ok r ∧
    (r : ZMod ec.p.toNat) = (n : ZMod ec.p.toNat)⁻¹ := by
  obtain ⟨r, hr, -, -, -, hr'⟩ := inverse_spec n ec.p h.prime
  exact ⟨r, hr, hr' (.inr h.odd)⟩

/-- `plus` of two affine points with different x-coordinates. -/
theorem plus_of_ne (h : ec.Fair) {P1 P2 : ECPoint} (o1 : ec.isOnCurve P1 = .ok true) (o2 : ec.isOnCurve P2 = .ok true)
    (z1 : P1.z ≠ 0) (z2 : P2.z ≠ 0) (hx : (P1.x : ZMod ec.p.toNat) ≠ P2.x) {u v m : ZMod ec.p.toNat}
    (hm : m * ((P2.x : ZMod ec.p.toNat) - P1.x) = P2.y - P1.y)
    (hu : u = m ^ 2 - P1.x - P2.x) (hv : v = m * (P1.x - u) - P1.y) :
    ∃ x y : ℤ, ec.plus P1 P2 = .ok ⟨x % ec.p, y % ec.p, 1⟩ ∧ (x : ZMod ec.p.toNat) = u ∧
      (y : ZMod ec.p.toNat) = v := by
  have hp := h.p_pos
  have i1 : P1.isInfinity = false := by simp [ECPoint.isInfinity, z1]
  have i2 : P2.isInfinity = false := by simp [ECPoint.isInfinity, z2]
  have hx' : ¬ P1.x % ec.p = P2.x % ec.p := fun e => hx ((emod_eq_iff_zmod hp.le _ _).1 e)
  obtain ⟨r, hr, hr'⟩ := inverse_cast h (P2.x % ec.p - P1.x % ec.p)
  push_cast at hr'
  rw [zmod_emod hp.le, zmod_emod hp.le] at hr'
  have hm' : m = (P2.y - P1.y) * r := by
    have : (P2.x : ZMod ec.p.toNat) - P1.x ≠ 0 := sub_ne_zero.2 (Ne.symm hx)
    rw [hr', ← hm, mul_assoc, mul_inv_cancel₀ this, mul_one]
  unfold plus
  simp only [o1, o2, Res.ok_bind, rassert_true, i1, i2, canonicalize_eq hp, Bool.false_eq_true, if_false,
    modFloor_of hp.ne', fmod_pos_eq hp, ne_eq, hx', not_false_eq_true, if_true, hr]
  refine ⟨_, _, rfl, ?_, ?_⟩
  · rw [hu, hm']
    push_cast [power_eq_pow, zmod_emod hp.le]
    norm_num
  · rw [hv, hu, hm']
    push_cast [power_eq_pow, zmod_emod hp.le]
    norm_num

theorem canonical_sing (hp : 0 < ec.p) {S : ECPoint} {x y : ℤ} (hx : (x : ZMod ec.p.toNat) = S.x)
    (hy : (y : ZMod ec.p.toNat) = 0) :
    (ECPoint.mk (x % ec.p) (y % ec.p) 1) = ⟨S.x % ec.p, 0, 1⟩ := by
  have e1 := (emod_eq_iff_zmod hp.le x S.x).2 hx
  have e2 := (emod_eq_iff_zmod hp.le y 0).2 (by simpa using hy)
  rw [e1, e2, Int.zero_emod]

/-- C86: the singular point absorbs every other affine point, on either side. -/
theorem C86_absorbs (h : ec.Fair) (P S : ECPoint) (s : ec.IsSingular S) (o : ec.isOnCurve P = .ok true)
    (z : P.z ≠ 0) (hne : ¬ P.x ≡ S.x [ZMOD ec.p]) :
    ec.plus P S = .ok ⟨S.x % ec.p, 0, 1⟩ ∧ ec.plus S P = .ok ⟨S.x % ec.p, 0, 1⟩ := by
  have hp := h.p_pos
  obtain ⟨hy, ha, hb⟩ := s.cast h
  have e := onCurve_cast h o z
  rw [← zmod_eq_iff hp.le] at hne
  rw [ha, hb] at e
  have hd : (S.x : ZMod ec.p.toNat) - P.x ≠ 0 := sub_ne_zero.2 (Ne.symm hne)
  have hd' : (P.x : ZMod ec.p.toNat) - S.x ≠ 0 := sub_ne_zero.2 hne
  -- the slope
  set m : ZMod ec.p.toNat := P.y * (P.x - S.x : ZMod ec.p.toNat)⁻¹ with hm
  have hm1 : m * ((P.x : ZMod ec.p.toNat) - S.x) = P.y := by rw [hm, mul_assoc, inv_mul_cancel₀ hd', mul_one]
  have hm2 : m ^ 2 = P.x + 2 * S.x := by
    have : (m ^ 2 - (P.x + 2 * S.x)) * ((P.x : ZMod ec.p.toNat) - S.x) ^ 2 = 0 := by
      linear_combination (m * ((P.x : ZMod ec.p.toNat) - S.x) + P.y) * hm1 + e
    exact sub_eq_zero.1 ((mul_eq_zero.1 this).resolve_right (pow_ne_zero _ hd'))
  constructor
  · obtain ⟨x, y, e1, e2, e3⟩ := plus_of_ne (u := S.x) (v := 0) (m := m) h o s.2.1 z s.1 hne
      (by rw [hy]; linear_combination -hm1) (by rw [hm2]; ring) (by linear_combination -hm1)
    rw [e1, canonical_sing hp e2 e3]
  · obtain ⟨x, y, e1, e2, e3⟩ := plus_of_ne (u := S.x) (v := 0) (m := m) h s.2.1 o s.1 z (Ne.symm hne)
      (by rw [hy]; linear_combination hm1) (by rw [hm2]; ring) (by rw [hy]; ring)
    rw [e1, canonical_sing hp e2 e3]

omit [Fact (Nat.Prime ec.p.toNat)] in
/-- An affine point of the curve with the same x-coordinate as the singular point is the singular point. -/
theorem sing_of_x (h : ec.Fair) {P S : ECPoint} (s : ec.IsSingular S) (o : ec.isOnCurve P = .ok true)
    (z : P.z ≠ 0) (hx : P.x ≡ S.x [ZMOD ec.p]) : ec.IsSingular P := by
  have : Fact (Nat.Prime ec.p.toNat) := ⟨h.prime⟩
  have hp := h.p_pos
  obtain ⟨hy, ha, hb⟩ := s.cast h
  have e := onCurve_cast h o z
  rw [← zmod_eq_iff hp.le] at hx
  rw [hx, ha, hb] at e
  have hy' : (P.y : ZMod ec.p.toNat) = 0 := by
    have : (P.y : ZMod ec.p.toNat) ^ 2 = 0 := by linear_combination e
    exact (pow_eq_zero_iff (by norm_num)).1 this
  refine ⟨z, o, ?_, ?_⟩
  · rw [← zmod_eq_zero_iff hp.le]; push_cast; rw [hy', mul_zero]
  · rw [← zmod_eq_zero_iff hp.le]; push_cast; rw [hx, ha]; ring

/-- C86: the double of the singular point is `(0,1,0)`. -/
theorem C86_double (h : ec.Fair) (S S' : ECPoint) (s : ec.IsSingular S) (s' : ec.IsSingular S') :
    ec.plus S S' = .ok ⟨0, 1, 0⟩ := by
  have hp := h.p_pos
  have i1 : S.isInfinity = false := by simp [ECPoint.isInfinity, s.1]
  have i2 : S'.isInfinity = false := by simp [ECPoint.isInfinity, s'.1]
  obtain ⟨u1, u2⟩ := C86_singular_unique h S S' s s'
  obtain ⟨hy, -, -⟩ := s.cast h
  have hy0 : S.y % ec.p = 0 := by
    rw [zmod_eq_zero_iff hp.le] at hy
    exact Int.emod_eq_zero_of_dvd hy
  have hx : S.x % ec.p = S'.x % ec.p := u1
  unfold plus
  simp only [s.2.1, s'.2.1, Res.ok_bind, rassert_true, i1, i2, canonicalize_eq hp, Bool.false_eq_true, if_false,
    hx, ne_eq, not_true, hy0, or_true, if_true]
  rfl

/-- C86, closure: on every curve over a field of odd prime order, singular or not, `plus` of two points of the curve
returns a point of the curve. -/
theorem C86_closure (h : ec.Fair) (P1 P2 : ECPoint) (o1 : ec.isOnCurve P1 = .ok true)
    (o2 : ec.isOnCurve P2 = .ok true) : ∃ R, ec.plus P1 P2 = .ok R ∧ ec.isOnCurve R = .ok true := by
  have hp := h.p_pos
  by_cases z1 : P1.z = 0
  · refine ⟨P2, ?_, o2⟩
    have i1 : P1.isInfinity = true := by simp [ECPoint.isInfinity, z1]
    unfold plus
    simp only [o1, o2, Res.ok_bind, rassert_true, i1, if_true]
  by_cases z2 : P2.z = 0
  · refine ⟨⟨P1.x, P2.y, P2.z⟩, ?_, onCurve_of_rep (Q := .zero) h z2⟩
    have i1 : P1.isInfinity = false := by simp [ECPoint.isInfinity, z1]
    have i2 : P2.isInfinity = true := by simp [ECPoint.isInfinity, z2]
    unfold plus
    simp only [o1, o2, Res.ok_bind, rassert_true, i1, i2, if_true, Bool.false_eq_true, if_false]
  have sing : ∀ S : ECPoint, ec.IsSingular S → ec.isOnCurve ⟨S.x % ec.p, 0, 1⟩ = .ok true := by
    intro S s
    obtain ⟨hy, ha, hb⟩ := s.cast h
    apply onCurve_of_cast h
    simp only [zmod_emod hp.le, ha, hb]
    push_cast
    ring
  by_cases s1 : ec.IsSingular P1
  · by_cases hx : P2.x ≡ P1.x [ZMOD ec.p]
    · exact ⟨_, C86_double h _ _ s1 (sing_of_x h s1 o2 z2 hx), onCurve_of_rep (Q := .zero) h rfl⟩
    · exact ⟨_, (C86_absorbs h P2 P1 s1 o2 z2 hx).2, sing _ s1⟩
  by_cases s2 : ec.IsSingular P2
  · by_cases hx : P1.x ≡ P2.x [ZMOD ec.p]
    · exact ⟨_, C86_double h _ _ (sing_of_x h s2 o1 z1 hx) s2, onCurve_of_rep (Q := .zero) h rfl⟩
    · exact ⟨_, (C86_absorbs h P1 P2 s2 o1 z1 hx).1, sing _ s2⟩
  obtain ⟨Q1, r1⟩ := (C86_singular_iff h P1 o1).2 s1
  obtain ⟨Q2, r2⟩ := (C86_singular_iff h P2 o2).2 s2
  obtain ⟨R, e1, -, e3⟩ := plus_affine h r1 r2 z1 z2
  exact ⟨R, e1, onCurve_of_rep h e3⟩

/-- C86: on the other points `plus` is the addition of the group of nonsingular points, and the sum is again
nonsingular. -/
theorem C86_plus (h : ec.Fair) (P1 P2 : ECPoint) (Q1 Q2 : ec.W.Point) (r1 : ec.Rep P1 Q1) (r2 : ec.Rep P2 Q2)
    (z1 : P1.z ≠ 0) (z2 : P2.z ≠ 0) :
    ∃ R, ec.plus P1 P2 = .ok R ∧ R.Canonical ec.p ∧ ec.Rep R (Q1 + Q2) ∧ ¬ ec.IsSingular R := by
  obtain ⟨R, e1, e2, e3⟩ := plus_affine h r1 r2 z1 z2
  exact ⟨R, e1, e2, e3, (C86_singular_iff h R (onCurve_of_rep h e3)).1 ⟨_, e3⟩⟩

theorem mulLoop_onCurve (h : ec.Fair) : ∀ (n : ℕ) (b r : ECPoint), 1 ≤ n → ec.isOnCurve b = .ok true →
    ec.isOnCurve r = .ok true → ∃ S, ec.mulLoop n b r = .ok S ∧ ec.isOnCurve S = .ok true := by
  intro n
  induction n using Nat.strong_induction_on with
  | _ n ih =>
    intro b r hn hb hr
    obtain ⟨r', g1, g2⟩ := C86_closure h r b hr hb
    by_cases h1 : n = 1
    · subst h1
      rw [Nat.cast_one, mulLoop_one ec le_rfl]
      exact ⟨r', g1, g2⟩
    · rw [mulLoop_gt ec (by omega)]
      have hdiv : ((n : ℤ) / 2) = ((n / 2 : ℕ) : ℤ) := by push_cast; rfl
      obtain ⟨b', f1, f2⟩ := C86_closure h b b hb hb
      by_cases hodd : (n : ℤ) % 2 = 1
      · obtain ⟨S, e1, e2⟩ := ih (n / 2) (by omega) b' r' (by omega) f2 g2
        exact ⟨S, by simp only [hodd, if_true, g1, f1, Res.ok_bind, hdiv, e1], e2⟩
      · obtain ⟨S, e1, e2⟩ := ih (n / 2) (by omega) b' r (by omega) f2 hr
        exact ⟨S, by simp only [hodd, if_false, f1, Res.ok_bind, hdiv, e1], e2⟩

/-- C86: `multiply_scalar` never panics on a point of the curve, for any integer, and returns a point of the curve,
singular or not. -/
theorem C86_multiply_scalar (h : ec.Fair) (P : ECPoint) (o : ec.isOnCurve P = .ok true) (n : ℤ) :
    ∃ R, ec.multiplyScalar P n = .ok R ∧ ec.isOnCurve R = .ok true := by
  have hi : ec.isOnCurve ECPoint.infinity = .ok true := onCurve_of_rep (Q := .zero) h rfl
  have key : ∀ m : ℤ, 1 ≤ m → ∃ R, ec.mulPos P m = .ok R ∧ ec.isOnCurve R = .ok true := by
    intro m hm
    unfold mulPos
    by_cases h1 : m = 1
    · exact ⟨P, by rw [if_pos h1], o⟩
    · obtain ⟨S, e1, e2⟩ := mulLoop_onCurve h m.toNat P ECPoint.infinity (by omega) o hi
      rw [Int.toNat_of_nonneg (by omega)] at e1
      exact ⟨S, by rw [if_neg h1, e1], e2⟩
  unfold multiplyScalar
  rcases lt_trichotomy n 0 with hn | hn | hn
  · obtain ⟨R, e1, e2⟩ := key (-n) (by omega)
    rw [if_neg (by omega), if_pos hn]
    simp only [e1, Res.ok_bind]
    exact C86_closure h _ _ hi e2
  · exact ⟨_, by rw [if_pos hn], hi⟩
  · rw [if_neg (by omega), if_neg (by omega)]
    exact key n (by omega)

/-- C86: `point_order` of the singular point is 2. -/
theorem C86_point_order (h : ec.Fair) (S : ECPoint) (s : ec.IsSingular S) :
    Returns (fun fuel => pointOrder fuel ec S) 2 := by
  refine ⟨1, fun fuel hf => ?_⟩
  obtain ⟨f, rfl⟩ : ∃ f, fuel = f + 1 := ⟨fuel - 1, by omega⟩
  have i : S.isInfinity = false := by simp [ECPoint.isInfinity, s.1]
  simp only [pointOrder, i, Bool.false_eq_true, if_false, orderLoop, C86_double h S S s s, Res.ok_bind]
  rfl

theorem plus_inf_z (h : ec.Fair) {r b : ECPoint} (o : ec.isOnCurve r = .ok true) (z : b.z = 0) :
    ∃ R, ec.plus r b = .ok R ∧ R.z = 0 := by
  by_cases s : ec.IsSingular r
  · have i1 : r.isInfinity = false := by simp [ECPoint.isInfinity, s.1]
    have i2 : b.isInfinity = true := by simp [ECPoint.isInfinity, z]
    have o2 : ec.isOnCurve b = .ok true := onCurve_of_rep (Q := .zero) h z
    refine ⟨⟨r.x, b.y, b.z⟩, ?_, z⟩
    unfold plus
    simp only [o, o2, Res.ok_bind, rassert_true, i1, i2, if_true, Bool.false_eq_true, if_false]
  · obtain ⟨R, r1⟩ := (C86_singular_iff h r o).2 s
    exact plus_zero h r1 z

theorem mulLoop_inf_z (h : ec.Fair) : ∀ (n : ℕ) (b r : ECPoint), 1 ≤ n → b.z = 0 → ec.isOnCurve r = .ok true →
    ∃ S, ec.mulLoop n b r = .ok S ∧ S.z = 0 := by
  intro n
  induction n using Nat.strong_induction_on with
  | _ n ih =>
    intro b r hn hb hr
    obtain ⟨r', g1, g2⟩ := plus_inf_z h hr hb
    by_cases h1 : n = 1
    · subst h1
      rw [Nat.cast_one, mulLoop_one ec le_rfl]
      exact ⟨r', g1, g2⟩
    · rw [mulLoop_gt ec (by omega)]
      have hdiv : ((n : ℤ) / 2) = ((n / 2 : ℕ) : ℤ) := by push_cast; rfl
      have f1 : ec.plus b b = .ok b := plus_inf_left (Q2 := .zero) h hb hb
      by_cases hodd : (n : ℤ) % 2 = 1
      · obtain ⟨S, e1, e2⟩ := ih (n / 2) (by omega) b r' (by omega) hb (onCurve_of_rep (Q := .zero) h g2)
        exact ⟨S, by simp only [hodd, if_true, g1, f1, Res.ok_bind, hdiv, e1], e2⟩
      · obtain ⟨S, e1, e2⟩ := ih (n / 2) (by omega) b r (by omega) hb hr
        exact ⟨S, by simp only [hodd, if_false, f1, Res.ok_bind, hdiv, e1], e2⟩

/-- C86: `multiply_scalar` of the singular point is that point itself for the scalar 1 and a point at infinity for
every `n ≥ 2`. -/
theorem C86_multiply_singular (h : ec.Fair) (S : ECPoint) (s : ec.IsSingular S) (n : ℤ) (hn : 1 ≤ n) :
    ∃ R, ec.multiplyScalar S n = .ok R ∧ (n = 1 → R = S) ∧ (2 ≤ n → R.z = 0) := by
  unfold multiplyScalar mulPos
  rw [if_neg (by omega), if_neg (by omega)]
  by_cases h1 : n = 1
  · exact ⟨S, by rw [if_pos h1], fun _ => rfl, fun h2 => by omega⟩
  · rw [if_neg h1, mulLoop_gt ec (by omega), C86_double h S S s s]
    have hi : ec.isOnCurve ECPoint.infinity = .ok true := onCurve_of_rep (Q := .zero) h rfl
    have hdiv : n / 2 = ((n / 2).toNat : ℤ) := by omega
    have hpl : ec.plus ECPoint.infinity S = .ok S := by
      unfold plus
      have i : ECPoint.infinity.isInfinity = true := rfl
      simp only [hi, s.2.1, Res.ok_bind, rassert_true, i, if_true]
    by_cases hodd : n % 2 = 1
    · obtain ⟨R, e1, e2⟩ := mulLoop_inf_z h (n / 2).toNat ⟨0, 1, 0⟩ S (by omega) rfl s.2.1
      rw [← hdiv] at e1
      exact ⟨R, by simp only [hodd, if_true, hpl, Res.ok_bind, e1], fun h2 => by omega, fun _ => e2⟩
    · obtain ⟨R, e1, e2⟩ := mulLoop_inf_z h (n / 2).toNat ⟨0, 1, 0⟩ ECPoint.infinity (by omega) rfl hi
      rw [← hdiv] at e1
      exact ⟨R, by simp only [hodd, if_false, Res.ok_bind, e1], fun h2 => by omega, fun _ => e2⟩

end

/-- C86: `j_invariant` of a singular curve is 0 (the code inverts a multiple of `p` to 0). -/
theorem C86_j_invariant (h : ec.Fair) (hd : ec.p ∣ 4 * ec.a ^ 3 + 27 * ec.b ^ 2) : ec.jInvariant = .ok 0 := by
  have : Fact (Nat.Prime ec.p.toNat) := ⟨h.prime⟩
  have hp := h.p_pos
  unfold jInvariant
  obtain ⟨r, hr, hr'⟩ := inverse_cast h (4 * power ec.a 3 + 27 * power ec.b 2)
  have h0 : ((4 * power ec.a 3 + 27 * power ec.b 2 : ℤ) : ZMod ec.p.toNat) = 0 := by
    rw [zmod_eq_zero_iff hp.le, power_eq_pow _ _ (by norm_num), power_eq_pow _ _ (by norm_num)]
    exact hd
  rw [h0, inv_zero, zmod_eq_zero_iff hp.le] at hr'
  simp only [hr, Res.ok_bind, modFloor_of hp.ne', fmod_pos_eq hp, Res.ok.injEq]
  exact Int.emod_eq_zero_of_dvd (hr'.mul_left _)

end EllipticCurve

/-! ### The number of points -/

section
variable {F : Type} [Field F] [DecidableEq F] [Fintype F]

/-- The number of solutions of `y^2 = f x`. -/
theorem card_solutions (h2 : ringChar F ≠ 2) (f : F → F) :
    (Fintype.card (Σ x : F, {y : F // y ^ 2 = f x}) : ℤ) = Fintype.card F + ∑ x : F, quadraticChar F (f x) := by
  rw [Fintype.card_sigma]
  push_cast
  refine (Finset.sum_congr (g := fun x => quadraticChar F (f x) + 1) rfl fun x _ => ?_).trans ?_
  · rw [← quadraticChar_card_sqrts h2, Nat.cast_inj]
    exact Fintype.card_of_subtype _ fun y => by simp
  rw [Finset.sum_add_distrib, Finset.sum_const, Finset.card_univ, nsmul_eq_mul, mul_one]
  ring

theorem sum_singular (h2 : ringChar F ≠ 2) (u : F) :
    ∑ x : F, quadraticChar F (x ^ 3 + (-3 * u ^ 2) * x + 2 * u ^ 3) = - quadraticChar F (3 * u) := by
  have e : ∀ x : F, quadraticChar F (x ^ 3 + (-3 * u ^ 2) * x + 2 * u ^ 3) =
      quadraticChar F (x + 2 * u) - if x = u then quadraticChar F (3 * u) else 0 := by
    intro x
    have hf : x ^ 3 + (-3 * u ^ 2) * x + 2 * u ^ 3 = (x - u) ^ 2 * (x + 2 * u) := by ring
    by_cases hx : x = u
    · subst hx
      rw [hf, if_pos rfl, show x + 2 * x = 3 * x by ring]
      simp
    · rw [hf, if_neg hx, map_mul, quadraticChar_sq_one' (sub_ne_zero.2 hx), one_mul, sub_zero]
  rw [Finset.sum_congr rfl fun x _ => e x, Finset.sum_sub_distrib, Finset.sum_ite_eq' Finset.univ u,
    if_pos (Finset.mem_univ _)]
  have : ∑ x : F, quadraticChar F (x + 2 * u) = 0 := by
    exact (Equiv.sum_comp (Equiv.addRight (2 * u)) fun x => quadraticChar F x).trans (quadraticChar_sum_zero h2)
  rw [this, zero_sub]

omit [DecidableEq F] [Fintype F] in
/-- A singular curve has its singular point over the field itself. -/
theorem exists_singular (h2 : (2 : F) ≠ 0) {a b : F} (hcube : (3 : F) = 0 → ∃ c, c ^ 3 = -b)
    (hd : 4 * a ^ 3 + 27 * b ^ 2 = 0) : ∃ u : F, a = -3 * u ^ 2 ∧ b = 2 * u ^ 3 := by
  by_cases h3 : (3 : F) = 0
  · obtain ⟨c, hc⟩ := hcube h3
    have ha : a = 0 := by
      have : a ^ 3 = 0 := by linear_combination hd - (a ^ 3 + 9 * b ^ 2) * h3
      exact (pow_eq_zero_iff (by norm_num)).1 this
    refine ⟨c, ?_, ?_⟩
    · rw [ha]; linear_combination c ^ 2 * h3
    · linear_combination -hc - c ^ 3 * h3 + 2 * hc
  · by_cases ha : a = 0
    · subst ha
      have : (3 : F) ^ 3 * b ^ 2 = 0 := by linear_combination hd
      have hb : b = 0 := by
        rcases mul_eq_zero.1 this with h | h
        · exact absurd h (pow_ne_zero _ h3)
        · exact (pow_eq_zero_iff (by norm_num)).1 h
      exact ⟨0, by simp, by simp [hb]⟩
    · have h2a : (2 * a) ≠ 0 := mul_ne_zero h2 ha
      refine ⟨-3 * b / (2 * a), ?_, ?_⟩
      · field_simp
        linear_combination hd
      · field_simp
        linear_combination b * hd
end

theorem fair_of_new {a b p : ℤ} {ec : EllipticCurve} (hne : p ≠ 2) (h : EllipticCurve.new a b p = .ok ec) :
    ec.Fair ∧ ec.a = a ∧ ec.b = b ∧ ec.p = p ∧ Nat.Prime p.toNat ∧ p < 2 ^ 64 := by
  by_cases hc : Nat.Prime p.toNat ∧ p < 2 ^ 64
  · rw [new_eq hc.1 hc.2] at h
    cases h
    exact ⟨⟨rfl, hc.1, hne⟩, rfl, rfl, rfl, hc⟩
  · obtain ⟨w, hw⟩ := C45_new_panics a b p hc
    rw [hw] at h; cases h

theorem sum_legendre (q : ℕ) [Fact q.Prime] (a b : ℤ) :
    ∑ x ∈ Finset.range q, legendreSym q (x ^ 3 + a * x + b) =
      ∑ x : ZMod q, quadraticChar (ZMod q) (x ^ 3 + (a : ZMod q) * x + b) := by
  refine Finset.sum_bij' (fun x _ => (x : ZMod q)) (fun x _ => x.val) (by simp) (fun x _ => by simpa using ZMod.val_lt x)
    (fun x hx => ZMod.val_cast_of_lt (by simpa using hx)) (fun x _ => by simp) ?_
  intro x _
  rw [legendreSym]
  push_cast
  rfl

/-- C87: the number of points of any curve over a field of odd prime order, singular or not, by the Legendre symbol. -/
theorem C87_cardinality_sum (a b p : ℤ) (ec : EllipticCurve) (h : EllipticCurve.new a b p = .ok ec) (hne : p ≠ 2)
    [Fact (Nat.Prime p.toNat)] :
    (ec.cardinality : ℤ) = p + 1 + ∑ x ∈ Finset.range p.toNat, legendreSym p.toNat (x ^ 3 + a * x + b) := by
  obtain ⟨hf, ea, eb, ep, hpr, hlt⟩ := fair_of_new hne h
  have hp2 := hpr.two_le
  obtain ⟨ec', e0, -, -, -, -, hnd, -, hmem⟩ := C45_new a b p hpr hlt
  rw [h] at e0; cases e0
  set q := p.toNat with hq
  have hqp : (q : ℤ) = p := by omega
  let f : ZMod q → ZMod q := fun x => x ^ 3 + a * x + b
  have hcv : ∀ x y : ℤ, (y ^ 2 - (x ^ 3 + a * x + b)) % p = 0 ↔ (y : ZMod q) ^ 2 = f x := by
    intro x y
    rw [← Int.dvd_iff_emod_eq_zero, ← hqp, ← ZMod.intCast_zmod_eq_zero_iff_dvd]
    push_cast
    exact sub_eq_zero
  let e : {P // P ∈ ec.points} ≃ Option (Σ x : ZMod q, {y : ZMod q // y ^ 2 = f x}) := by
    refine Equiv.ofBijective (fun P => if hP : P.1 = ⟨0, 1, 0⟩ then none else
      some ⟨(P.1.x : ZMod q), (P.1.y : ZMod q), (hcv _ _).1 (((hmem P.1).1 P.2).resolve_left hP).2.2.2⟩) ⟨?_, ?_⟩
    · rintro ⟨P, hP⟩ ⟨P', hP'⟩ hE
      by_cases c : P = ⟨0, 1, 0⟩ <;> by_cases c' : P' = ⟨0, 1, 0⟩
      · exact Subtype.ext (c.trans c'.symm)
      · simp [c, c'] at hE
      · simp [c, c'] at hE
      · simp only [c, c', dif_neg, not_false_eq_true, Option.some.injEq, Sigma.mk.injEq] at hE
        obtain ⟨⟨a1, a2⟩, ⟨a3, a4⟩, a5, -⟩ := ((hmem P).1 hP).resolve_left c
        obtain ⟨⟨b1, b2⟩, ⟨b3, b4⟩, b5, -⟩ := ((hmem P').1 hP').resolve_left c'
        have hx := hE.1
        have hy : (P.y : ZMod q) = P'.y := by
          have := hE.2
          rw [Subtype.heq_iff_coe_eq (by intro y; rw [hx])] at this
          exact this
        rw [ZMod.intCast_eq_intCast_iff, hqp] at hx hy
        have hx' := hx.eq
        have hy' := hy.eq
        rw [Int.emod_eq_of_lt a1 a2, Int.emod_eq_of_lt b1 b2] at hx'
        rw [Int.emod_eq_of_lt a3 a4, Int.emod_eq_of_lt b3 b4] at hy'
        apply Subtype.ext
        cases P; cases P'
        simp_all
    · rintro (_ | ⟨x, y, hxy⟩)
      · exact ⟨⟨⟨0, 1, 0⟩, (hmem _).2 (.inl rfl)⟩, by simp⟩
      · have hx : ((x.val : ℤ) : ZMod q) = x := by rw [Int.cast_natCast, ZMod.natCast_zmod_val]
        have hy : ((y.val : ℤ) : ZMod q) = y := by rw [Int.cast_natCast, ZMod.natCast_zmod_val]
        have l1 := ZMod.val_lt x
        have l2 := ZMod.val_lt y
        refine ⟨⟨⟨x.val, y.val, 1⟩, (hmem _).2 (.inr ⟨⟨by positivity, ?_⟩, ⟨by positivity, ?_⟩, rfl, ?_⟩)⟩, ?_⟩
        · show (x.val : ℤ) < p; omega
        · show (y.val : ℤ) < p; omega
        · rw [hcv]; simp only [hx, hy]; exact hxy
        · simp only [ECPoint.mk.injEq, one_ne_zero, and_false, dif_neg, not_false_eq_true, Option.some.injEq]
          have : ∀ (x' y' : ZMod q) (h' : y' ^ 2 = f x'), x' = x → y' = y →
              (⟨x', y', h'⟩ : Σ x : ZMod q, {y : ZMod q // y ^ 2 = f x}) = ⟨x, y, hxy⟩ := by
            rintro _ _ _ rfl rfl; rfl
          exact this _ _ _ hx hy
  have hc : ec.cardinality = Fintype.card {P // P ∈ ec.points} := by
    rw [EllipticCurve.cardinality, Fintype.card_of_subtype ec.points.toFinset (by simp),
      List.toFinset_card_of_nodup hnd]
  have h2 : ringChar (ZMod q) ≠ 2 := by rw [ZMod.ringChar_zmod_n]; omega
  rw [hc, Fintype.card_congr e, Fintype.card_option]
  push_cast
  rw [card_solutions h2 f, ZMod.card, hqp]
  rw [sum_legendre]
  ring

/-- C87: a curve whose discriminant is divisible by the odd prime `p` has exactly one singular point `(u,0)`, and
`p + 1 - (3u/p)` points altogether: `p`, `p + 1` or `p + 2`. -/
theorem C87_cardinality (a b p : ℤ) (ec : EllipticCurve) (h : EllipticCurve.new a b p = .ok ec) (hne : p ≠ 2)
    (hd : p ∣ 4 * a ^ 3 + 27 * b ^ 2) [Fact (Nat.Prime p.toNat)] :
    ∃ u : ℤ, 0 ≤ u ∧ u < p ∧ ec.IsSingular ⟨u, 0, 1⟩ ∧
      (ec.cardinality : ℤ) = p + 1 - legendreSym p.toNat (3 * u) := by
  obtain ⟨hf, ea, eb, ep, hpr, hlt⟩ := fair_of_new hne h
  subst ea eb ep
  have hp2 := hpr.two_le
  have hp0 := hf.p_pos
  have hsum := C87_cardinality_sum ec.a ec.b ec.p ec h hne
  have h2 : ringChar (ZMod ec.p.toNat) ≠ 2 := by rw [ZMod.ringChar_zmod_n]; omega
  have hd' : 4 * (ec.a : ZMod ec.p.toNat) ^ 3 + 27 * (ec.b : ZMod ec.p.toNat) ^ 2 = 0 := by
    have := (zmod_eq_zero_iff hp0.le _).2 hd
    push_cast at this
    exact this
  obtain ⟨u, hu1, hu2⟩ := exists_singular (Ring.two_ne_zero h2) (by
    intro h3
    have : ec.p.toNat = 3 := by
      have h3' : ((3 : ℕ) : ZMod ec.p.toNat) = 0 := by exact_mod_cast h3
      rw [ZMod.natCast_eq_zero_iff] at h3'
      exact (Nat.prime_dvd_prime_iff_eq hpr Nat.prime_three).1 h3'
    refine ⟨-(ec.b : ZMod ec.p.toNat), ?_⟩
    have := ZMod.pow_card (-(ec.b : ZMod ec.p.toNat))
    have e3 : (-(ec.b : ZMod ec.p.toNat)) ^ ec.p.toNat = (-(ec.b : ZMod ec.p.toNat)) ^ 3 := congrArg _ ‹ec.p.toNat = 3›
    rwa [e3] at this) hd'
  have hval : ((u.val : ℤ) : ZMod ec.p.toNat) = u := by rw [Int.cast_natCast, ZMod.natCast_zmod_val]
  have hl := ZMod.val_lt u
  refine ⟨u.val, by positivity, by omega, ⟨one_ne_zero, ?_, ?_, ?_⟩, ?_⟩
  · apply EllipticCurve.onCurve_of_cast hf
    simp only [hval, hu1, hu2]
    push_cast
    ring
  · simp
  · apply (zmod_eq_zero_iff hp0.le _).1
    push_cast at hval ⊢
    rw [hval, hu1]
    ring
  · rw [hsum, sum_legendre, hu1, hu2, sum_singular h2, legendreSym]
    push_cast at hval ⊢
    rw [hval]
    ring

/-- C87: the group of the remaining points, the nonsingular ones, has one element less than the curve has points. -/
theorem C87_group_order (a b p : ℤ) (ec : EllipticCurve) (h : EllipticCurve.new a b p = .ok ec) (hne : p ≠ 2)
    (hd : p ∣ 4 * a ^ 3 + 27 * b ^ 2) : ec.cardinality = Nat.card ec.W.Point + 1 := by
  obtain ⟨hf, ea, eb, ep, hpr, hlt⟩ := fair_of_new hne h
  subst ea eb ep
  have : Fact (Nat.Prime ec.p.toNat) := ⟨hpr⟩
  have hp0 := hf.p_pos
  obtain ⟨u, hu0, hu1, hus, -⟩ := C87_cardinality _ _ _ ec h hne hd
  obtain ⟨ec', e0, -, -, -, -, hnd, -, hmem⟩ := C45_new ec.a ec.b ec.p hpr hlt
  rw [h] at e0; cases e0
  have hmem' : ∀ P, P ∈ ec.points ↔ P.Canonical ec.p ∧ ec.isOnCurve P = .ok true := by
    intro P
    rw [hmem, EllipticCurve.isOnCurve_eq hf.wf hp0, Res.ok.injEq, decide_eq_true_iff, Int.modEq_comm,
      Int.modEq_iff_dvd, Int.dvd_iff_emod_eq_zero]
    unfold ECPoint.Canonical
    constructor
    · rintro (rfl | ⟨h1, h2, h3, h4⟩)
      · exact ⟨.inl rfl, .inl rfl⟩
      · exact ⟨.inr ⟨h1, h2, h3⟩, .inr h4⟩
    · rintro ⟨rfl | ⟨h1, h2, h3⟩, h4⟩
      · exact .inl rfl
      · exact .inr ⟨h1, h2, h3, h4.resolve_left (by omega)⟩
  classical
  have hex : ∀ P : {P // P ∈ ec.points}, ¬ ec.IsSingular P.1 → ∃ Q, ec.Rep P.1 Q := fun P hs =>
    (EllipticCurve.C86_singular_iff hf P.1 ((hmem' _).1 P.2).2).2 hs
  let f : {P // P ∈ ec.points} → Option ec.W.Point := fun P =>
    if hs : ec.IsSingular P.1 then none else some (hex P hs).choose
  have hfs : ∀ P (hs : ¬ ec.IsSingular P.1), ∃ Q, f P = some Q ∧ ec.Rep P.1 Q := fun P hs =>
    ⟨_, dif_neg hs, (hex P hs).choose_spec⟩
  have hfn : ∀ P, ec.IsSingular P.1 → f P = none := fun P hs => dif_pos hs
  have hb : Function.Bijective f := by
    constructor
    · intro P P' hE
      apply Subtype.ext
      by_cases c : ec.IsSingular P.1 <;> by_cases c' : ec.IsSingular P'.1
      · obtain ⟨h1, h2⟩ := EllipticCurve.C86_singular_unique hf _ _ c c'
        rcases ((hmem' _).1 P.2).1 with k | ⟨⟨a1, a2⟩, ⟨a3, a4⟩, a5⟩
        · exact absurd (by rw [k]) c.1
        rcases ((hmem' _).1 P'.2).1 with k | ⟨⟨b1, b2⟩, ⟨b3, b4⟩, b5⟩
        · exact absurd (by rw [k]) c'.1
        unfold Int.ModEq at h1 h2
        rw [Int.emod_eq_of_lt a1 a2, Int.emod_eq_of_lt b1 b2] at h1
        rw [Int.emod_eq_of_lt a3 a4, Int.emod_eq_of_lt b3 b4] at h2
        obtain ⟨⟨x, y, z⟩, hP⟩ := P
        obtain ⟨⟨x', y', z'⟩, hP'⟩ := P'
        simp_all
      · obtain ⟨Q, e1, -⟩ := hfs P' c'
        rw [← hE, hfn P c] at e1; cases e1
      · obtain ⟨Q, e1, -⟩ := hfs P c
        rw [hE, hfn P' c'] at e1; cases e1
      · obtain ⟨Q, e1, e2⟩ := hfs P c
        obtain ⟨Q', e1', e2'⟩ := hfs P' c'
        rw [hE, e1'] at e1; cases e1
        exact EllipticCurve.canonical_unique hp0 e2 e2' ((hmem' _).1 P.2).1 ((hmem' _).1 P'.2).1
    · rintro (_ | Q)
      · exact ⟨⟨⟨u, 0, 1⟩, (hmem' _).2 ⟨.inr ⟨⟨hu0, hu1⟩, ⟨le_rfl, hp0⟩, rfl⟩, hus.2.1⟩⟩, hfn _ hus⟩
      · obtain ⟨P, hc, hr⟩ := EllipticCurve.exists_canonical hf Q
        have ho := EllipticCurve.onCurve_of_rep hf hr
        obtain ⟨Q', e1, e2⟩ := hfs ⟨P, (hmem' _).2 ⟨hc, ho⟩⟩
          ((EllipticCurve.C86_singular_iff hf P ho).1 ⟨Q, hr⟩)
        exact ⟨_, e1.trans (congrArg some (e2.unique hr))⟩
  have : Finite ec.W.Point := EllipticCurve.finite_point hp0
  have hc : ec.cardinality = Nat.card {P // P ∈ ec.points} := by
    rw [EllipticCurve.cardinality, Nat.card_eq_fintype_card,
      Fintype.card_of_subtype ec.points.toFinset (by simp), List.toFinset_card_of_nodup hnd]
  rw [hc, Nat.card_congr (Equiv.ofBijective f hb), Finite.card_option]

/-- C86: for `p = 2` the closure fails: on `y^2 = x^3 + x + 1` over GF(2), which `new` accepts, `plus` of the point
`(0,1)` with itself is `(1,0)`, which is not on the curve, and `multiply_scalar` of it by 3 panics. -/
theorem C86_two_not_closed : ∃ ec, EllipticCurve.new 1 1 2 = .ok ec ∧ ec.isOnCurve ⟨0, 1, 1⟩ = .ok true ∧
    ec.plus ⟨0, 1, 1⟩ ⟨0, 1, 1⟩ = .ok ⟨1, 0, 1⟩ ∧ ec.isOnCurve ⟨1, 0, 1⟩ = .ok false ∧
    ∃ w, ec.multiplyScalar ⟨0, 1, 1⟩ 3 = .panic w :=
  ⟨_, new_eq (show Nat.Prime 2 by norm_num) (by norm_num), by decide +kernel, by decide +kernel, by decide +kernel,
    .assertion, by decide +kernel⟩

/-! Concrete cases: the hypotheses are met by `y^2 = x^3 - 3x + 2 = (x-1)^2 (x+2)` over GF(7) and GF(11). -/

example : EllipticCurve.Fair (EllipticCurve.newRaw (-3) 2 7) :=
  ⟨rfl, (show Nat.Prime 7 by norm_num), (show (7 : ℤ) ≠ 2 by norm_num)⟩
example : EllipticCurve.IsSingular (EllipticCurve.newRaw (-3) 2 7) ⟨1, 0, 1⟩ :=
  ⟨by decide, by decide +kernel, by decide, by decide +kernel⟩
example : (EllipticCurve.newRaw (-3) 2 7).plus ⟨0, 3, 1⟩ ⟨1, 0, 1⟩ = .ok ⟨1, 0, 1⟩ ∧
    (EllipticCurve.newRaw (-3) 2 7).plus ⟨0, 3, 1⟩ ⟨0, 3, 1⟩ = .ok ⟨2, 5, 1⟩ := by decide +kernel
example : (EllipticCurve.new (-3) 2 7).bind (fun ec => .ok ec.cardinality) = .ok 9 := by decide +kernel
example : (EllipticCurve.new (-3) 2 11).bind (fun ec => .ok ec.cardinality) = .ok 11 := by decide +kernel
example : (EllipticCurve.new 0 1 3).bind (fun ec => .ok ec.cardinality) = .ok 4 := by decide +kernel

end EC
