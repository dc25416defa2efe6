import Verif.Spec.Curve
import Mathlib.AlgebraicGeometry.EllipticCurve.Affine.Point
import Mathlib.NumberTheory.EllipticDivisibilitySequence

/-! Pure mathematics: the division polynomials of `y^2 = x^3 + a x + b` at a point of infinite order
describe the multiples of the point. -/

set_option linter.unusedSectionVars false

namespace EC.EDS
open WeierstrassCurve

variable {K : Type*} [Field K] [DecidableEq K] {a b : K}

/-- The curve `y^2 = x^3 + a x + b`. -/
abbrev cv (a b : K) : WeierstrassCurve.Affine K := shortW a b

/-- The points of `y^2 = x^3 + a x + b`. -/
abbrev Pt (a b : K) := (cv a b).Point

/-- `x`-coordinate (`0` for the point at infinity). -/
def xc : Pt a b → K
  | .zero => 0
  | .some x _ _ => x

/-- `y`-coordinate (`0` for the point at infinity). -/
def yc : Pt a b → K
  | .zero => 0
  | .some _ y _ => y

theorem negY_eq (x y : K) : (cv a b).negY x y = -y := by
  simp [Affine.negY]

theorem eqn {A : Pt a b} (hA : A ≠ 0) : yc A ^ 2 = xc A ^ 3 + a * xc A + b := by
  cases A with
  | zero => exact absurd rfl hA
  | some x y h =>
    have := (Affine.equation_iff _ _).1 h.1
    simp only [xc, yc]
    simpa using this

theorem xc_neg (A : Pt a b) : xc (-A) = xc A := by
  cases A <;> rfl

theorem yc_neg (A : Pt a b) : yc (-A) = -yc A := by
  cases A with
  | zero => simp [yc, ← Affine.Point.zero_def]
  | some x y h =>
    rw [Affine.Point.neg_some]
    simp [yc, negY_eq]

theorem xc_eq_iff {A B : Pt a b} (hA : A ≠ 0) (hB : B ≠ 0) : xc A = xc B ↔ A = B ∨ A = -B := by
  cases A with
  | zero => exact absurd rfl hA
  | some x y h =>
  cases B with
  | zero => exact absurd rfl hB
  | some x' y' h' => exact Affine.Point.X_eq_iff

theorem ext {A B : Pt a b} (hA : A ≠ 0) (hB : B ≠ 0) (hx : xc A = xc B) (hy : yc A = yc B) : A = B := by
  cases A with
  | zero => exact absurd rfl hA
  | some x y h =>
  cases B with
  | zero => exact absurd rfl hB
  | some x' y' h' =>
    simp only [xc, yc] at hx hy
    subst hx hy
    rfl

theorem xc_add {A B : Pt a b} (hA : A ≠ 0) (hB : B ≠ 0) (h : xc A ≠ xc B) :
    xc (A + B) * (xc A - xc B) ^ 2 = (yc A - yc B) ^ 2 - (xc A + xc B) * (xc A - xc B) ^ 2 := by
  cases A with
  | zero => exact absurd rfl hA
  | some x y h1 =>
  cases B with
  | zero => exact absurd rfl hB
  | some x' y' h2 =>
    simp only [xc, yc] at h ⊢
    rw [Affine.Point.add_of_X_ne h]
    have hs : x - x' ≠ 0 := sub_ne_zero.2 h
    simp only [Affine.addX, Affine.slope_of_X_ne h]
    field_simp
    ring

theorem yc_add {A B : Pt a b} (hA : A ≠ 0) (hB : B ≠ 0) (h : xc A ≠ xc B) :
    yc (A + B) * (xc A - xc B) = (yc A - yc B) * (xc A - xc (A + B)) - yc A * (xc A - xc B) := by
  cases A with
  | zero => exact absurd rfl hA
  | some x y h1 =>
  cases B with
  | zero => exact absurd rfl hB
  | some x' y' h2 =>
    simp only [xc, yc] at h ⊢
    rw [Affine.Point.add_of_X_ne h]
    have hs : x - x' ≠ 0 := sub_ne_zero.2 h
    simp only [Affine.addY, negY_eq, Affine.negAddY, Affine.addX, Affine.slope_of_X_ne h]
    field_simp
    ring

theorem add_ne_zero_of_xc {A B : Pt a b} (hA : A ≠ 0) (hB : B ≠ 0) (h : xc A ≠ xc B) : A + B ≠ 0 := by
  intro h0
  exact h ((xc_eq_iff hA hB).2 (.inr (eq_neg_of_add_eq_zero_left h0)))

theorem two_nsmul_eq_zero_iff (h2 : (2 : K) ≠ 0) {A : Pt a b} (hA : A ≠ 0) : A + A = 0 ↔ yc A = 0 := by
  cases A with
  | zero => exact absurd rfl hA
  | some x y h1 =>
    rw [← eq_neg_iff_add_eq_zero, Affine.Point.neg_some]
    simp only [Affine.Point.some.injEq, true_and, negY_eq, yc]
    constructor
    · intro h
      have : 2 * y = 0 := by linear_combination h
      exact (mul_eq_zero.1 this).resolve_left h2
    · rintro rfl; simp

theorem xc_double (h2 : (2 : K) ≠ 0) {A : Pt a b} (hA : A ≠ 0) (hy : yc A ≠ 0) :
    xc (A + A) * (2 * yc A) ^ 2 = (3 * xc A ^ 2 + a) ^ 2 - 2 * xc A * (2 * yc A) ^ 2 := by
  cases A with
  | zero => exact absurd rfl hA
  | some x y h1 =>
    simp only [xc, yc] at hy ⊢
    have hyn : y ≠ (cv a b).negY x y := by
      rw [negY_eq]
      intro h
      have : 2 * y = 0 := by linear_combination h
      exact hy ((mul_eq_zero.1 this).resolve_left h2)
    rw [Affine.Point.add_self_of_Y_ne hyn]
    simp only [Affine.addX, Affine.slope_of_Y_ne rfl hyn, negY_eq]
    rw [sub_neg_eq_add, ← two_mul]
    generalize hz : 2 * y = z
    have hz0 : z ≠ 0 := by rw [← hz]; exact mul_ne_zero h2 hy
    field_simp
    try rw [← hz]
    ring

theorem yc_double (h2 : (2 : K) ≠ 0) {A : Pt a b} (hA : A ≠ 0) (hy : yc A ≠ 0) :
    yc (A + A) * (2 * yc A) = (3 * xc A ^ 2 + a) * (xc A - xc (A + A)) - 2 * yc A ^ 2 := by
  cases A with
  | zero => exact absurd rfl hA
  | some x y h1 =>
    simp only [xc, yc] at hy ⊢
    have hyn : y ≠ (cv a b).negY x y := by
      rw [negY_eq]
      intro h
      have : 2 * y = 0 := by linear_combination h
      exact hy ((mul_eq_zero.1 this).resolve_left h2)
    rw [Affine.Point.add_self_of_Y_ne hyn]
    simp only [Affine.addY, Affine.negAddY, Affine.addX, Affine.slope_of_Y_ne rfl hyn, negY_eq]
    rw [sub_neg_eq_add, ← two_mul]
    generalize hz : 2 * y = z
    have hz0 : z ≠ 0 := by rw [← hz]; exact mul_ne_zero h2 hy
    field_simp
    try rw [← hz]
    ring

/-- The symmetric biquadratic form relating `x(A)`, `x(B)`, `x(A+B)` and `x(A-B)`. -/
def bq (a b u v t : K) : K := (u * v + u * t + v * t - a) ^ 2 - 4 * (u + v + t) * (u * v * t + b)

theorem bq_add {A B : Pt a b} (hA : A ≠ 0) (hB : B ≠ 0) (h : xc A ≠ xc B) (t : K) :
    (xc (A + B) - t) * (xc (A - B) - t) * (xc A - xc B) ^ 2 = bq a b (xc A) (xc B) t := by
  have hs : xc A - xc B ≠ 0 := sub_ne_zero.2 h
  have e1 := xc_add hA hB h
  have e2 : xc (A - B) * (xc A - xc B) ^ 2 = (yc A + yc B) ^ 2 - (xc A + xc B) * (xc A - xc B) ^ 2 := by
    have := xc_add (A := A) (B := -B) hA (by simpa using hB) (by rwa [xc_neg])
    rw [xc_neg, yc_neg, ← sub_eq_add_neg] at this
    rw [this]; ring
  have hA' := eqn hA
  have hB' := eqn hB
  apply mul_right_cancel₀ (pow_ne_zero 2 hs)
  set p := xc (A + B)
  set m := xc (A - B)
  set u := xc A
  set v := xc B
  set y := yc A
  set w := yc B
  have : (p - t) * (m - t) * (u - v) ^ 2 * (u - v) ^ 2
      = (p * (u - v) ^ 2 - t * (u - v) ^ 2) * (m * (u - v) ^ 2 - t * (u - v) ^ 2) := by ring
  rw [this, e1, e2, bq]
  have h4 : y ^ 4 = (u ^ 3 + a * u + b) ^ 2 := by rw [← hA']; ring
  have h4' : w ^ 4 = (v ^ 3 + a * v + b) ^ 2 := by rw [← hB']; ring
  linear_combination (exp := 1) h4 + h4' - 2 * w ^ 2 * hA' - 2 * (u ^ 3 + a * u + b) * hB'
    - 2 * ((u + v) * (u - v) ^ 2 + t * (u - v) ^ 2) * hA' - 2 * ((u + v) * (u - v) ^ 2 + t * (u - v) ^ 2) * hB'

theorem bq_self (h2 : (2 : K) ≠ 0) {A : Pt a b} (hA : A ≠ 0) (hy : yc A ≠ 0) (t : K) :
    (xc (A + A) - t) * (2 * yc A) ^ 2 = bq a b (xc A) (xc A) t := by
  have e := xc_double h2 hA hy
  have h := eqn hA
  rw [sub_mul, e, bq]
  linear_combination (exp := 1) -8 * xc A * h - 4 * t * h

theorem bq_comm (u v t : K) : bq a b u v t = bq a b u t v := by unfold bq; ring

theorem bq_swap (u v t : K) : bq a b u v t = bq a b v u t := by unfold bq; ring

/-- `x(A+B) - x(A-B)`. -/
theorem xc_add_sub {A B : Pt a b} (hA : A ≠ 0) (hB : B ≠ 0) (h : xc A ≠ xc B) :
    (xc (A + B) - xc (A - B)) * (xc A - xc B) ^ 2 = -4 * yc A * yc B := by
  have e1 := xc_add hA hB h
  have e2 : xc (A - B) * (xc A - xc B) ^ 2 = (yc A + yc B) ^ 2 - (xc A + xc B) * (xc A - xc B) ^ 2 := by
    have := xc_add (A := A) (B := -B) hA (by simpa using hB) (by rwa [xc_neg])
    rw [xc_neg, yc_neg, ← sub_eq_add_neg] at this
    rw [this]; ring
  linear_combination e1 - e2

end EC.EDS
