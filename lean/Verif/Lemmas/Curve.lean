import Verif.Spec.CurvePoints
import Verif.Lemmas.BigInt
import Verif.Lemmas.Reduction
import Mathlib.Tactic.FieldSimp
import Mathlib.Tactic.LinearCombination

/-! Lemmas about `/repo/src/elliptic_curve.rs`: the operations denote the group operations. -/

namespace EC
open Poly WeierstrassCurve

namespace EllipticCurve

variable {ec : EllipticCurve}

theorem Fair.two_le (h : ec.Fair) : 2 ≤ ec.p := by have := h.prime.two_le; omega
theorem Fair.p_pos (h : ec.Fair) : 0 < ec.p := by have := h.two_le; omega
theorem Good.two_le (h : ec.Good) : 2 ≤ ec.p := by have := h.prime.two_le; omega
theorem Good.p_pos (h : ec.Good) : 0 < ec.p := by have := h.two_le; omega

theorem wf_newRaw (a b p : ℤ) : (newRaw a b p).WF := rfl

theorem evalXY_curvePol (a b x y : ℤ) : (curvePol a b).evalXY x y = x ^ 3 + a * x + b := by
  rw [evalXY_eq_lin, curvePol_lin]
  simp [Key.xn, power_eq_pow]

theorem isOnCurve_eq (hw : ec.WF) (hp : 0 < ec.p) (P : ECPoint) :
    ec.isOnCurve P = .ok (decide (P.z = 0 ∨ P.y ^ 2 ≡ P.x ^ 3 + ec.a * P.x + ec.b [ZMOD ec.p])) := by
  unfold isOnCurve
  by_cases hz : P.z = 0
  · simp [ECPoint.isInfinity, hz]
  · have hz' : P.isInfinity = false := by simp [ECPoint.isInfinity, hz]
    rw [hw, evalXY_curvePol]
    simp only [hz', modFloor_of hp.ne', Res.ok_bind, fmod_pos_eq hp, hz, false_or]
    rw [power_eq_pow _ _ (by norm_num)]
    simp only [Bool.false_eq_true, if_false, Res.ok.injEq]
    rw [Bool.eq_iff_iff, beq_iff_eq, decide_eq_true_iff]
    norm_num
    rw [Int.modEq_comm]
    rw [Int.modEq_comm, Int.modEq_iff_dvd, Int.dvd_iff_emod_eq_zero, ← Int.emod_sub_emod, ← Int.sub_emod_emod]
    simp

/-- `0 < disc` in `ZMod p`. -/
theorem Good.delta_ne (h : ec.Good) : (ec.W).Δ ≠ 0 := by
  have hp0 := h.p_pos
  have : Fact (Nat.Prime ec.p.toNat) := ⟨h.prime⟩
  have h2 : (2 : ZMod ec.p.toNat) ≠ 0 := by
    intro h0
    have : ((2 : ℤ) : ZMod ec.p.toNat) = 0 := by exact_mod_cast h0
    rw [zmod_eq_zero_iff hp0.le] at this
    have := Int.le_of_dvd (by norm_num) this
    have := h.two_le
    have := h.odd
    omega
  have hd : ((4 * ec.a ^ 3 + 27 * ec.b ^ 2 : ℤ) : ZMod ec.p.toNat) ≠ 0 := by
    rw [ne_eq, zmod_eq_zero_iff hp0.le]; exact h.disc
  push_cast at hd
  have : (ec.W).Δ = -2 ^ 4 * (4 * (ec.a : ZMod ec.p.toNat) ^ 3 + 27 * (ec.b : ZMod ec.p.toNat) ^ 2) := by
    simp only [WeierstrassCurve.Δ, WeierstrassCurve.b₂, WeierstrassCurve.b₄, WeierstrassCurve.b₆,
      WeierstrassCurve.b₈]
    ring
  rw [this]
  exact mul_ne_zero (neg_ne_zero.2 (pow_ne_zero _ h2)) hd

theorem Fair.two_ne (h : ec.Fair) : (2 : ZMod ec.p.toNat) ≠ 0 := by
  intro h0
  have : ((2 : ℤ) : ZMod ec.p.toNat) = 0 := by exact_mod_cast h0
  rw [zmod_eq_zero_iff h.p_pos.le] at this
  have := Int.le_of_dvd (by norm_num) this
  have := h.two_le
  have := h.odd
  omega

theorem Good.two_ne (h : ec.Good) : (2 : ZMod ec.p.toNat) ≠ 0 := h.fair.two_ne

theorem equation_iff (x y : ZMod ec.p.toNat) :
    (ec.W).Equation x y ↔ y ^ 2 = x ^ 3 + ec.a * x + ec.b := by
  rw [Affine.equation_iff]
  simp

theorem Good.nonsingular (h : ec.Good) {x y : ZMod ec.p.toNat} (he : y ^ 2 = x ^ 3 + ec.a * x + ec.b) :
    (ec.W).Nonsingular x y := by
  have : Fact (Nat.Prime ec.p.toNat) := ⟨h.prime⟩
  exact (Affine.equation_iff_nonsingular_of_Δ_ne_zero h.delta_ne).1 ((equation_iff x y).2 he)

theorem modEq_iff_zmod (hp : 0 ≤ ec.p) (x y : ℤ) :
    y ^ 2 ≡ x ^ 3 + ec.a * x + ec.b [ZMOD ec.p] ↔
      (y : ZMod ec.p.toNat) ^ 2 = (x : ZMod ec.p.toNat) ^ 3 + ec.a * x + ec.b := by
  rw [← zmod_eq_iff hp]; push_cast; rfl

/-- On-curve points are exactly those that denote a group element. -/
theorem isOnCurve_iff_rep (h : ec.Good) (P : ECPoint) :
    ec.isOnCurve P = .ok true ↔ ∃ Q, ec.Rep P Q := by
  have hp0 := h.p_pos
  rw [isOnCurve_eq h.wf hp0, Res.ok.injEq, decide_eq_true_iff, modEq_iff_zmod hp0.le]
  constructor
  · intro h1
    by_cases hz : P.z = 0
    · exact ⟨.zero, hz⟩
    · exact ⟨.some _ _ (h.nonsingular (h1.resolve_left hz)), hz, rfl, rfl⟩
  · rintro ⟨Q, hQ⟩
    cases Q with
    | zero => exact .inl hQ
    | some x y hxy =>
      obtain ⟨_, rfl, rfl⟩ := hQ
      exact .inr ((equation_iff _ _).1 hxy.1)

theorem onCurve_of_rep (h : ec.Fair) {P : ECPoint} {Q : ec.W.Point} (hQ : ec.Rep P Q) :
    ec.isOnCurve P = .ok true := by
  have hp0 := h.p_pos
  rw [isOnCurve_eq h.wf hp0, Res.ok.injEq, decide_eq_true_iff, modEq_iff_zmod hp0.le]
  cases Q with
  | zero => exact .inl hQ
  | some x y hxy =>
    obtain ⟨_, rfl, rfl⟩ := hQ
    exact .inr ((equation_iff _ _).1 hxy.1)

theorem Rep.unique {P : ECPoint} {Q Q' : ec.W.Point} (h : ec.Rep P Q) (h' : ec.Rep P Q') : Q = Q' := by
  cases Q with
  | zero =>
    cases Q' with
    | zero => rfl
    | some x y hxy => exact absurd h h'.1
  | some x y hxy =>
    cases Q' with
    | zero => exact absurd h' h.1
    | some x' y' hxy' =>
      obtain ⟨_, rfl, rfl⟩ := h
      obtain ⟨_, rfl, rfl⟩ := h'
      rfl

theorem rep_zero_iff {P : ECPoint} {Q : ec.W.Point} (h : ec.Rep P Q) : P.z = 0 ↔ Q = 0 := by
  cases Q with
  | zero => exact ⟨fun _ => rfl, fun _ => h⟩
  | some x y hxy => exact ⟨fun hz => absurd hz h.1, fun hz => absurd hz (by simp [Affine.Point.some_ne_zero])⟩

/-- Equal group elements in canonical form are equal as structures. -/
theorem canonical_unique (hp : 0 < ec.p) {P P' : ECPoint} {Q : ec.W.Point} (h : ec.Rep P Q) (h' : ec.Rep P' Q)
    (hc : P.Canonical ec.p) (hc' : P'.Canonical ec.p) : P = P' := by
  rcases hc with rfl | ⟨⟨a1, a2⟩, ⟨a3, a4⟩, a5⟩
  · rcases hc' with rfl | ⟨⟨b1, b2⟩, ⟨b3, b4⟩, b5⟩
    · rfl
    · have hQ := (rep_zero_iff h).1 rfl
      have := (rep_zero_iff h').2 hQ
      omega
  · rcases hc' with rfl | ⟨⟨b1, b2⟩, ⟨b3, b4⟩, b5⟩
    · have hQ := (rep_zero_iff h').1 rfl
      have := (rep_zero_iff h).2 hQ
      omega
    · cases Q with
      | zero => simp only [Rep] at h; omega
      | some x y hxy =>
        obtain ⟨_, h1, h2⟩ := h
        obtain ⟨_, h3, h4⟩ := h'
        rw [← h3, zmod_eq_iff hp.le] at h1
        rw [← h4, zmod_eq_iff hp.le] at h2
        have e1 := h1.eq
        have e2 := h2.eq
        rw [Int.emod_eq_of_lt a1 a2, Int.emod_eq_of_lt b1 b2] at e1
        rw [Int.emod_eq_of_lt a3 a4, Int.emod_eq_of_lt b3 b4] at e2
        cases P; cases P'
        simp_all

theorem canonicalize_eq (hp : 0 < ec.p) (P : ECPoint) :
    ec.canonicalize P = .ok ⟨P.x % ec.p, P.y % ec.p, P.z % ec.p⟩ := by
  unfold canonicalize
  simp only [modFloor_of hp.ne', Res.ok_bind, fmod_pos_eq hp]

theorem emod_eq_iff_zmod (hp : 0 ≤ ec.p) (x y : ℤ) : x % ec.p = y % ec.p ↔ (x : ZMod ec.p.toNat) = y := by
  rw [zmod_eq_iff hp]; rfl

theorem rep_affine {x y : ℤ} {u v : ZMod ec.p.toNat} (hp : 0 < ec.p) (hxy : (ec.W).Nonsingular u v)
    (h1 : (x : ZMod ec.p.toNat) = u) (h2 : (y : ZMod ec.p.toNat) = v) :
    (ECPoint.mk (x % ec.p) (y % ec.p) 1).Canonical ec.p ∧
      ec.Rep ⟨x % ec.p, y % ec.p, 1⟩ (.some u v hxy) := by
  refine ⟨.inr ⟨⟨Int.emod_nonneg _ hp.ne', Int.emod_lt_of_pos _ hp⟩,
    ⟨Int.emod_nonneg _ hp.ne', Int.emod_lt_of_pos _ hp⟩, rfl⟩, one_ne_zero, ?_, ?_⟩
  · simp only [zmod_emod hp.le, h1]
  · simp only [zmod_emod hp.le, h2]

/-- The sum of two affine points. -/
theorem plus_affine [Fact (Nat.Prime ec.p.toNat)] (h : ec.Fair) {P1 P2 : ECPoint} {Q1 Q2 : ec.W.Point}
    (r1 : ec.Rep P1 Q1) (r2 : ec.Rep P2 Q2) (z1 : P1.z ≠ 0) (z2 : P2.z ≠ 0) :
    ∃ R, ec.plus P1 P2 = .ok R ∧ R.Canonical ec.p ∧ ec.Rep R (Q1 + Q2) := by
  have hp := h.p_pos
  have o1 := onCurve_of_rep h r1
  have o2 := onCurve_of_rep h r2
  have i1 : P1.isInfinity = false := by simp [ECPoint.isInfinity, z1]
  have i2 : P2.isInfinity = false := by simp [ECPoint.isInfinity, z2]
  cases Q1 with
  | zero => exact absurd r1 z1
  | some x1 y1 h1 =>
  cases Q2 with
  | zero => exact absurd r2 z2
  | some x2 y2 h2 =>
  obtain ⟨-, hx1, hy1⟩ := r1
  obtain ⟨-, hx2, hy2⟩ := r2
  have E1 := (equation_iff _ _).1 h1.1
  have E2 := (equation_iff _ _).1 h2.1
  unfold plus
  simp only [o1, o2, Res.ok_bind, rassert_true, i1, i2, canonicalize_eq hp, Bool.false_eq_true, if_false,
    modFloor_of hp.ne', fmod_pos_eq hp]
  have negY : ∀ x y : ZMod ec.p.toNat, (ec.W).negY x y = -y := by
    intro x y; simp [Affine.negY]
  by_cases hx : P1.x % ec.p = P2.x % ec.p
  · have hx' : x1 = x2 := by rw [← hx1, ← hx2]; exact (emod_eq_iff_zmod hp.le _ _).1 hx
    subst hx'
    simp only [ne_eq, hx, not_true, if_false]
    by_cases hy : y1 = -y2
    · rw [if_pos]
      · refine ⟨_, rfl, .inl rfl, ?_⟩
        rw [Affine.Point.add_of_Y_eq rfl (by rw [negY]; exact hy)]
        rfl
      · by_contra hc
        push Not at hc
        have e1 := (emod_eq_iff_zmod hp.le _ _).1 hc.1
        rw [hy1, hy2] at e1
        have e2 : (2 : ZMod ec.p.toNat) * y1 = 0 := by rw [hy]; rw [hy] at e1; linear_combination e1
        rcases mul_eq_zero.1 e2 with e2 | e2
        · exact h.two_ne e2
        · apply hc.2
          rw [← hy1, zmod_eq_zero_iff hp.le] at e2
          exact Int.emod_eq_zero_of_dvd e2
    · have hyy : y1 = y2 := by
        have : (y1 - y2) * (y1 + y2) = 0 := by linear_combination E1 - E2
        rcases mul_eq_zero.1 this with e | e
        · exact sub_eq_zero.1 e
        · exact absurd (eq_neg_of_add_eq_zero_left e) hy
      subst hyy
      have hy0 : y1 ≠ 0 := by rintro rfl; simp at hy
      have hm : P1.y % ec.p = P2.y % ec.p := (emod_eq_iff_zmod hp.le _ _).2 (by rw [hy1, hy2])
      rw [if_neg]
      · obtain ⟨r, hr, -, -, -, hr'⟩ := inverse_spec (2 * (P1.y % ec.p)) ec.p h.prime
        have hr' := hr' (.inr h.odd)
        push_cast at hr'
        rw [zmod_emod hp.le, hy1] at hr'
        rw [hr]
        simp only [Res.ok_bind]
        refine ⟨_, rfl, ?_⟩
        rw [Affine.Point.add_self_of_Y_ne (by rw [negY]; exact hy)]
        have hs : (ec.W).slope x1 x1 y1 y1 = (3 * x1 ^ 2 + ec.a) * r := by
          rw [Affine.slope_of_Y_ne rfl (by rw [negY]; exact hy), negY, hr']
          simp only
          rw [div_eq_mul_inv, show y1 - -y1 = 2 * y1 by ring]
          ring
        have hX : (ec.W).addX x1 x1 ((ec.W).slope x1 x1 y1 y1) = ((3 * x1 ^ 2 + ec.a) * r) ^ 2 - 2 * x1 := by
          rw [hs, Affine.addX]; simp only; ring
        apply rep_affine hp
        · rw [hX]
          push_cast [power_eq_pow, zmod_emod hp.le, ← hx, hx1]
          norm_num
        · rw [Affine.addY, negY, Affine.negAddY, hX, hs]
          push_cast [power_eq_pow, zmod_emod hp.le, ← hx, hx1, hy1]
          norm_num
          ring
      · push Not
        refine ⟨hm, ?_⟩
        intro hd
        apply hy0
        rw [← hy1, zmod_eq_zero_iff hp.le]
        exact Int.dvd_of_emod_eq_zero hd
  · have hx' : x1 ≠ x2 := by
      rw [← hx1, ← hx2]; exact fun e => hx ((emod_eq_iff_zmod hp.le _ _).2 e)
    simp only [ne_eq, hx, not_false_eq_true, if_true]
    obtain ⟨r, hr, -, -, -, hr'⟩ := inverse_spec (P2.x % ec.p - P1.x % ec.p) ec.p h.prime
    have hr' := hr' (.inr h.odd)
    push_cast at hr'
    rw [zmod_emod hp.le, zmod_emod hp.le, hx1, hx2] at hr'
    rw [hr]
    simp only [Res.ok_bind]
    refine ⟨_, rfl, ?_⟩
    rw [Affine.Point.add_of_X_ne hx']
    have hs : (ec.W).slope x1 x2 y1 y2 = (y2 - y1) * r := by
      rw [Affine.slope_of_X_ne hx', hr']
      have : x2 - x1 ≠ 0 := sub_ne_zero.2 hx'.symm
      have : x1 - x2 ≠ 0 := sub_ne_zero.2 hx'
      field_simp
      ring
    have hX : (ec.W).addX x1 x2 ((ec.W).slope x1 x2 y1 y2) = ((y2 - y1) * r) ^ 2 - x1 - x2 := by
      rw [hs, Affine.addX]; simp only; ring
    apply rep_affine hp
    · rw [hX]
      push_cast [power_eq_pow, zmod_emod hp.le, hx1, hx2, hy1, hy2]
      norm_num
    · rw [Affine.addY, negY, Affine.negAddY, hX, hs]
      push_cast [power_eq_pow, zmod_emod hp.le, hx1, hy1, hx2, hy2]
      norm_num
      ring

end EllipticCurve
end EC
