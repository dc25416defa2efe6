import Verif.Spec.Curve
import Verif.Model.EllipticCurve
import Mathlib.AlgebraicGeometry.EllipticCurve.Affine.Point

/-! Specification vocabulary: which point of Mathlib's group of rational points an `ECPoint` denotes. -/

namespace EC

namespace EllipticCurve

/-- What the constructors establish: the stored polynomial is `x^3 + a x + b`. -/
def WF (ec : EllipticCurve) : Prop := ec.pol = Poly.curvePol ec.a ec.b

/-- A nonsingular curve over a prime field of odd characteristic. -/
structure Good (ec : EllipticCurve) : Prop where
  wf : ec.WF
  prime : Nat.Prime ec.p.toNat
  odd : ec.p ≠ 2
  disc : ¬ ec.p ∣ 4 * ec.a ^ 3 + 27 * ec.b ^ 2

/-- The same without the condition on the discriminant: the curve may be singular. -/
structure Fair (ec : EllipticCurve) : Prop where
  wf : ec.WF
  prime : Nat.Prime ec.p.toNat
  odd : ec.p ≠ 2

theorem Good.fair {ec : EllipticCurve} (h : ec.Good) : ec.Fair := ⟨h.wf, h.prime, h.odd⟩

instance {ec : EllipticCurve} : Coe ec.Good ec.Fair := ⟨Good.fair⟩

/-- The curve `y^2 = x^3 + a x + b` over `ZMod p`, as a Mathlib affine Weierstrass curve. -/
abbrev W (ec : EllipticCurve) : WeierstrassCurve.Affine (ZMod ec.p.toNat) :=
  shortW (ec.a : ZMod ec.p.toNat) (ec.b : ZMod ec.p.toNat)

/-- `P` denotes the point `Q` of the group: `z = 0` is the point at infinity, otherwise `P` is the
affine point with coordinates `(x mod p, y mod p)`. -/
def Rep (ec : EllipticCurve) (P : ECPoint) : ec.W.Point → Prop
  | .zero => P.z = 0
  | .some x y _ => P.z ≠ 0 ∧ (P.x : ZMod ec.p.toNat) = x ∧ (P.y : ZMod ec.p.toNat) = y

end EllipticCurve

/-- Canonical representation modulo `p`: `(0,1,0)`, or `(x,y,1)` with `0 ≤ x,y < p`. -/
def ECPoint.Canonical (p : ℤ) (P : ECPoint) : Prop :=
  P = ⟨0, 1, 0⟩ ∨ (0 ≤ P.x ∧ P.x < p) ∧ (0 ≤ P.y ∧ P.y < p) ∧ P.z = 1

end EC
