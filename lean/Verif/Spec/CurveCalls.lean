import Verif.Spec.CurvePoints
import Mathlib.GroupTheory.OrderOfElement
import Mathlib.AlgebraicGeometry.EllipticCurve.Affine.Point
import Mathlib.Algebra.Field.ZMod

/-! Histories of calls on one curve: nested calls of `plus`, `negate` and `multiply_scalar`. -/

namespace EC

/-- A nest of calls: points given by the user, and calls whose arguments are results of earlier calls. -/
inductive Call where
  | point (P : ECPoint)
  | plus (e f : Call)
  | negate (e : Call)
  | multiplyScalar (e : Call) (n : Int)

namespace Call
open EllipticCurve

/-- Run the calls, arguments first. -/
def run (ec : EllipticCurve) : Call → Res ECPoint
  | point P => .ok P
  | plus e f => do ec.plus (← run ec e) (← run ec f)
  | negate e => do ec.negate (← run ec e)
  | multiplyScalar e n => do ec.multiplyScalar (← run ec e) n

/-- The points given by the user are all on the curve. -/
def OnCurve (ec : EllipticCurve) : Call → Prop
  | point P => ec.isOnCurve P = .ok true
  | plus e f => OnCurve ec e ∧ OnCurve ec f
  | negate e => OnCurve ec e
  | multiplyScalar e _ => OnCurve ec e

variable (ec : EllipticCurve) [Fact (Nat.Prime ec.p.toNat)]

/-- `Den ec e Q`: in the group `E(GF(p))` the nest of calls means the element `Q`. -/
def Den : Call → ec.W.Point → Prop
  | point P, Q => ec.Rep P Q
  | plus e f, Q => ∃ Q1 Q2, Den e Q1 ∧ Den f Q2 ∧ Q = Q1 + Q2
  | negate e, Q => ∃ Q1, Den e Q1 ∧ Q = -Q1
  | multiplyScalar e n, Q => ∃ Q1, Den e Q1 ∧ Q = n • Q1

/-- No call hits one of the known defects: a right operand at infinity of an affine left operand (C43), a negative
scalar (C47), or a point whose order is a power of two that is at most `n` and does not divide `n` (C46). -/
def Safe : Call → Prop
  | point _ => True
  | plus e f => Safe e ∧ Safe f ∧ (Den ec f 0 → Den ec e 0)
  | negate e => Safe e
  | multiplyScalar e n => Safe e ∧ 0 ≤ n ∧ ∀ Q, Den ec e Q →
      ¬ ∃ j : ℕ, addOrderOf Q = 2 ^ j ∧ (addOrderOf Q : ℤ) ≤ n ∧ ¬ (addOrderOf Q : ℤ) ∣ n

end Call

/-- `k` further calls of `create_points`. -/
def EllipticCurve.createPointsTimes : Nat → EllipticCurve → Res EllipticCurve
  | 0, ec => .ok ec
  | k + 1, ec => do createPointsTimes k (← ec.createPoints)

end EC
