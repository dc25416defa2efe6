import Mathlib.AlgebraicGeometry.EllipticCurve.Weierstrass

/-! Specification vocabulary: the curve `y^2 = x^3 + a x + b`. -/

namespace EC

/-- The short Weierstrass curve `y^2 = x^3 + a x + b` over a commutative ring, in Mathlib's terms. -/
abbrev shortW {R : Type*} [CommRing R] (a b : R) : WeierstrassCurve R :=
  { a₁ := 0, a₂ := 0, a₃ := 0, a₄ := a, a₆ := b }

end EC
