import Verif.Spec.Velu
import Mathlib.Tactic.FieldSimp
import Mathlib.Tactic.LinearCombination
import Mathlib.FieldTheory.IsAlgClosed.Basic

/-! Vélu's formulas for degree 2 and the polynomial `Φ_2`. -/

namespace EC

variable {K : Type*} [Field K]

theorem velu2_map {a b e x y : K} (he : e ^ 3 + a * e + b = 0) (hx : x ≠ e) (h : y ^ 2 = x ^ 3 + a * x + b) :
    velu2Y a e x y ^ 2 = velu2X a e x ^ 3 + velu2A a e * velu2X a e x + velu2B a b e := by
  have hx' : x - e ≠ 0 := sub_ne_zero.2 hx
  have hb : b = -(e ^ 3 + a * e) := by linear_combination he
  subst hb
  unfold velu2X velu2Y velu2A velu2B
  rw [mul_pow, h]
  field_simp
  ring

theorem velu2_disc {a b e : K} (he : e ^ 3 + a * e + b = 0) :
    4 * velu2A a e ^ 3 + 27 * velu2B a b e ^ 2 = -16 * (3 * e ^ 2 + a) * (3 * e ^ 2 + 4 * a) ^ 2 := by
  have hb : b = -(e ^ 3 + a * e) := by linear_combination he
  subst hb
  unfold velu2A velu2B
  ring

theorem disc_factor {a b e : K} (he : e ^ 3 + a * e + b = 0) :
    4 * a ^ 3 + 27 * b ^ 2 = (3 * e ^ 2 + a) ^ 2 * (3 * e ^ 2 + 4 * a) := by
  have hb : b = -(e ^ 3 + a * e) := by linear_combination he
  subst hb
  ring

theorem velu2_nonsingular {a b e : K} (h2 : (2 : K) ≠ 0) (he : e ^ 3 + a * e + b = 0) (h : 4 * a ^ 3 + 27 * b ^ 2 ≠ 0) :
    4 * velu2A a e ^ 3 + 27 * velu2B a b e ^ 2 ≠ 0 := by
  rw [disc_factor he] at h
  rw [velu2_disc he]
  have h1 : 3 * e ^ 2 + a ≠ 0 := fun h0 => h (by rw [h0]; ring)
  have h3 : 3 * e ^ 2 + 4 * a ≠ 0 := fun h0 => h (by rw [h0]; ring)
  have h16 : (-16 : K) ≠ 0 := by
    have : (-16 : K) = -(2 ^ 4) := by norm_num
    rw [this]
    exact neg_ne_zero.2 (pow_ne_zero _ h2)
  exact mul_ne_zero (mul_ne_zero h16 h1) (pow_ne_zero _ h3)

/-- The classical `Φ_2`. -/
def Phi2 {R : Type*} [CommRing R] (X Y : R) : R :=
  X ^ 3 + Y ^ 3 - X ^ 2 * Y ^ 2 + 1488 * (X ^ 2 * Y + X * Y ^ 2) - 162000 * (X ^ 2 + Y ^ 2) + 40773375 * X * Y +
    8748000000 * (X + Y) - 157464000000000

theorem phi2_prod (u v X : K) (hu : u ≠ 0) (hv : v ≠ 0) (hw : u + v ≠ 0) :
    Phi2 X (256 * (u ^ 2 + u * v + v ^ 2) ^ 3 / (u ^ 2 * v ^ 2 * (u + v) ^ 2)) =
    (X - 16 * (16 * u * (u + v) + v ^ 2) ^ 3 / (u * (u + v) * v ^ 4)) *
    (X - 16 * (16 * u * v - (u + v) ^ 2) ^ 3 / (u * v * (u + v) ^ 4)) *
    (X - 16 * (16 * v * (u + v) + u ^ 2) ^ 3 / (v * (u + v) * u ^ 4)) := by
  set J := 256 * (u ^ 2 + u * v + v ^ 2) ^ 3 / (u ^ 2 * v ^ 2 * (u + v) ^ 2) with hJ
  set j1 := 16 * (16 * u * (u + v) + v ^ 2) ^ 3 / (u * (u + v) * v ^ 4) with h1
  set j2 := 16 * (16 * u * v - (u + v) ^ 2) ^ 3 / (u * v * (u + v) ^ 4) with h2
  set j3 := 16 * (16 * v * (u + v) + u ^ 2) ^ 3 / (v * (u + v) * u ^ 4) with h3
  have s1 : j1 + j2 + j3 = J ^ 2 - 1488 * J + 162000 := by
    rw [hJ, h1, h2, h3]; field_simp; ring
  have s2 : j1 * j2 + j1 * j3 + j2 * j3 = 1488 * J ^ 2 + 40773375 * J + 8748000000 := by
    rw [hJ, h1, h2, h3]; field_simp; ring
  have s3 : j1 * j2 * j3 = -(J ^ 3 - 162000 * J ^ 2 + 8748000000 * J - 157464000000000) := by
    rw [hJ, h1, h2, h3]; field_simp; ring
  unfold Phi2
  linear_combination X ^ 2 * s1 - X * s2 + s3

/-- The j-invariant of the quotient. -/
theorem jOf_velu2 {a b e1 e2 e3 : K} (h2 : (2 : K) ≠ 0) (hs : e1 + e2 + e3 = 0) (ha : a = e1 * e2 + e1 * e3 + e2 * e3)
    (hb : b = -(e1 * e2 * e3)) (h12 : e1 ≠ e2) (h13 : e1 ≠ e3) (h23 : e2 ≠ e3) :
    jOf (velu2A a e1) (velu2B a b e1) =
      16 * (16 * (e1 - e2) * (e1 - e3) + (e2 - e3) ^ 2) ^ 3 / ((e1 - e2) * (e1 - e3) * (e2 - e3) ^ 4) := by
  have he : e1 ^ 3 + a * e1 + b = 0 := by rw [ha, hb]; linear_combination e1 ^ 2 * hs
  unfold jOf
  rw [velu2_disc he]
  have h3 : e1 = -(e2 + e3) := by linear_combination hs
  have k1 : 3 * e1 ^ 2 + a = (e1 - e2) * (e1 - e3) := by rw [ha, h3]; ring
  have k2 : 3 * e1 ^ 2 + 4 * a = -(e2 - e3) ^ 2 := by rw [ha, h3]; ring
  have k3 : 3 * velu2A a e1 = -(16 * (e1 - e2) * (e1 - e3) + (e2 - e3) ^ 2) := by
    unfold velu2A; rw [ha, h3]; ring
  rw [k1, k2]
  have g12 := sub_ne_zero.2 h12
  have g13 := sub_ne_zero.2 h13
  have g23 := sub_ne_zero.2 h23
  have h16 : (-16 : K) ≠ 0 := by
    have : (-16 : K) = -(2 ^ 4) := by norm_num
    rw [this]
    exact neg_ne_zero.2 (pow_ne_zero _ h2)
  rw [div_eq_div_iff (mul_ne_zero (mul_ne_zero h16 (mul_ne_zero g12 g13)) (pow_ne_zero _ (neg_ne_zero.2 (pow_ne_zero _ g23))))
    (mul_ne_zero (mul_ne_zero g12 g13) (pow_ne_zero _ g23))]
  have k4 : 1728 * (4 * velu2A a e1 ^ 3) = -256 * (16 * (e1 - e2) * (e1 - e3) + (e2 - e3) ^ 2) ^ 3 := by
    have : (3 * velu2A a e1) ^ 3 = (-(16 * (e1 - e2) * (e1 - e3) + (e2 - e3) ^ 2)) ^ 3 := by rw [k3]
    linear_combination 256 * this
  rw [k4]
  ring

theorem jOf_roots {a b e1 e2 e3 : K} (hs : e1 + e2 + e3 = 0) (ha : a = e1 * e2 + e1 * e3 + e2 * e3)
    (hb : b = -(e1 * e2 * e3)) :
    jOf a b = 256 * ((e1 - e2) ^ 2 + (e1 - e2) * (e2 - e3) + (e2 - e3) ^ 2) ^ 3 /
      ((e1 - e2) ^ 2 * (e2 - e3) ^ 2 * ((e1 - e2) + (e2 - e3)) ^ 2) := by
  have h3 : e3 = -(e1 + e2) := by linear_combination hs
  have k1 : 4 * a ^ 3 + 27 * b ^ 2 = -((e1 - e2) ^ 2 * (e2 - e3) ^ 2 * ((e1 - e2) + (e2 - e3)) ^ 2) := by
    rw [ha, hb, h3]; ring
  have k2 : 1728 * (4 * a ^ 3) = -(256 * ((e1 - e2) ^ 2 + (e1 - e2) * (e2 - e3) + (e2 - e3) ^ 2) ^ 3) := by
    rw [ha, h3]; ring
  unfold jOf
  rw [k1, k2, neg_div_neg_eq]

/-- `Φ_2(X, j(E)) = ∏ (X - j(E/(e, 0)))`. -/
theorem phi2_velu {a b e1 e2 e3 : K} (h2 : (2 : K) ≠ 0) (hs : e1 + e2 + e3 = 0) (ha : a = e1 * e2 + e1 * e3 + e2 * e3)
    (hb : b = -(e1 * e2 * e3)) (h12 : e1 ≠ e2) (h13 : e1 ≠ e3) (h23 : e2 ≠ e3) (X : K) :
    Phi2 X (jOf a b) = (X - jOf (velu2A a e1) (velu2B a b e1)) * (X - jOf (velu2A a e2) (velu2B a b e2)) *
      (X - jOf (velu2A a e3) (velu2B a b e3)) := by
  have g12 := sub_ne_zero.2 h12
  have g13 := sub_ne_zero.2 h13
  have g23 := sub_ne_zero.2 h23
  rw [jOf_roots hs ha hb, phi2_prod _ _ X g12 g23 (by rwa [sub_add_sub_cancel]),
    jOf_velu2 h2 hs ha hb h12 h13 h23,
    jOf_velu2 (e1 := e2) (e2 := e1) (e3 := e3) h2 (by linear_combination hs) (by rw [ha]; ring) (by rw [hb]; ring)
      h12.symm h23 h13,
    jOf_velu2 (e1 := e3) (e2 := e1) (e3 := e2) h2 (by linear_combination hs) (by rw [ha]; ring) (by rw [hb]; ring)
      h13.symm h23.symm h12]
  have hw : (e1 - e2) + (e2 - e3) = e1 - e3 := sub_add_sub_cancel _ _ _
  rw [hw]
  have q1 : 16 * (16 * (e1 - e2) * (e2 - e3) - (e1 - e3) ^ 2) ^ 3 / ((e1 - e2) * (e2 - e3) * (e1 - e3) ^ 4) =
      16 * (16 * (e2 - e1) * (e2 - e3) + (e1 - e3) ^ 2) ^ 3 / ((e2 - e1) * (e2 - e3) * (e1 - e3) ^ 4) := by
    have : e2 - e1 = -(e1 - e2) := by ring
    rw [this]
    field_simp
    ring
  have q2 : 16 * (16 * (e2 - e3) * (e1 - e3) + (e1 - e2) ^ 2) ^ 3 / ((e2 - e3) * (e1 - e3) * (e1 - e2) ^ 4) =
      16 * (16 * (e3 - e1) * (e3 - e2) + (e1 - e2) ^ 2) ^ 3 / ((e3 - e1) * (e3 - e2) * (e1 - e2) ^ 4) := by
    have t : (e2 - e3) * (e1 - e3) = (e3 - e1) * (e3 - e2) := by ring
    rw [show 16 * (e2 - e3) * (e1 - e3) = 16 * ((e2 - e3) * (e1 - e3)) by ring, t,
      show 16 * (e3 - e1) * (e3 - e2) = 16 * ((e3 - e1) * (e3 - e2)) by ring]
  rw [q1, q2]

theorem exists_roots [IsAlgClosed K] (a b : K) :
    ∃ e1 e2 e3 : K, e1 + e2 + e3 = 0 ∧ a = e1 * e2 + e1 * e3 + e2 * e3 ∧ b = -(e1 * e2 * e3) := by
  obtain ⟨e1, h1⟩ := IsAlgClosed.exists_root (Polynomial.X ^ 3 + Polynomial.C a * Polynomial.X + Polynomial.C b : Polynomial K)
    (by rw [show (Polynomial.X ^ 3 + Polynomial.C a * Polynomial.X + Polynomial.C b : Polynomial K).degree = 3 by compute_degree!]
        norm_num)
  obtain ⟨e2, h2⟩ := IsAlgClosed.exists_root
    (Polynomial.X ^ 2 + Polynomial.C e1 * Polynomial.X + Polynomial.C (e1 ^ 2 + a) : Polynomial K)
    (by rw [show (Polynomial.X ^ 2 + Polynomial.C e1 * Polynomial.X + Polynomial.C (e1 ^ 2 + a) : Polynomial K).degree = 2 by
          compute_degree!]
        norm_num)
  simp only [Polynomial.IsRoot.def, Polynomial.eval_add, Polynomial.eval_pow, Polynomial.eval_X, Polynomial.eval_mul,
    Polynomial.eval_C] at h1 h2
  refine ⟨e1, e2, -(e1 + e2), by ring, by linear_combination h2, by linear_combination h1 - e1 * h2⟩

/-- The roots of `Φ_2(X, j(E))` are the j-invariants of the quotients of `E` by a point of order 2. -/
theorem phi2_root_iff [IsAlgClosed K] {a b : K} (h2 : (2 : K) ≠ 0) (hD : 4 * a ^ 3 + 27 * b ^ 2 ≠ 0) (X : K) :
    Phi2 X (jOf a b) = 0 ↔ ∃ e, e ^ 3 + a * e + b = 0 ∧ X = jOf (velu2A a e) (velu2B a b e) := by
  obtain ⟨e1, e2, e3, hs, ha, hb⟩ := exists_roots a b
  have k1 : 4 * a ^ 3 + 27 * b ^ 2 = -((e1 - e2) * (e2 - e3) * (e1 - e3)) ^ 2 := by
    have h3 : e3 = -(e1 + e2) := by linear_combination hs
    rw [ha, hb, h3]; ring
  have h12 : e1 ≠ e2 := fun h => hD (by rw [k1, h]; ring)
  have h13 : e1 ≠ e3 := fun h => hD (by rw [k1, h]; ring)
  have h23 : e2 ≠ e3 := fun h => hD (by rw [k1, h]; ring)
  have hroot : ∀ e, e ^ 3 + a * e + b = (e - e1) * (e - e2) * (e - e3) := by
    intro e; rw [ha, hb]; linear_combination (e ^ 2) * hs
  rw [phi2_velu h2 hs ha hb h12 h13 h23, mul_eq_zero, mul_eq_zero, sub_eq_zero, sub_eq_zero, sub_eq_zero]
  constructor
  · rintro ((h | h) | h)
    · exact ⟨e1, by rw [hroot]; ring, h⟩
    · exact ⟨e2, by rw [hroot]; ring, h⟩
    · exact ⟨e3, by rw [hroot]; ring, h⟩
  · rintro ⟨e, he, h⟩
    rw [hroot, mul_eq_zero, mul_eq_zero, sub_eq_zero, sub_eq_zero, sub_eq_zero] at he
    rcases he with (rfl | rfl) | rfl
    · exact .inl (.inl h)
    · exact .inl (.inr h)
    · exact .inr h

end EC
