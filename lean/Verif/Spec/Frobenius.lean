import Verif.Spec.Curve
import Mathlib.AlgebraicGeometry.EllipticCurve.Affine.Point
import Mathlib.Algebra.CharP.Frobenius

/-! Specification vocabulary: the Frobenius map `(x, y) ↦ (x^q, y^q)` on the points of `y^2 = x^3 + a x + b` over a
field of characteristic `q`. -/

namespace EC
open WeierstrassCurve

theorem frob_nonsingular {K : Type*} [Field K] (q : ℕ) [Fact q.Prime] [CharP K q] (a b : ℤ) {x y : K}
    (h : (shortW (a : K) (b : K)).toAffine.Nonsingular x y) :
    (shortW (a : K) (b : K)).toAffine.Nonsingular (x ^ q) (y ^ q) := by
  have := (Affine.map_nonsingular (W := (shortW (a : K) (b : K)).toAffine) (frobenius K q).injective x y).2 h
  have e : (shortW (a : K) (b : K)).toAffine.map (frobenius K q) = (shortW (a : K) (b : K)).toAffine := by
    ext <;> simp [WeierstrassCurve.map]
  rw [e] at this
  exact this

/-- The Frobenius map `(x, y) ↦ (x^q, y^q)`. -/
def frobPoint {K : Type*} [Field K] (q : ℕ) [Fact q.Prime] [CharP K q] (a b : ℤ) :
    (shortW (a : K) (b : K)).toAffine.Point → (shortW (a : K) (b : K)).toAffine.Point
  | .zero => .zero
  | .some x y h => .some (x ^ q) (y ^ q) (frob_nonsingular q a b h)

end EC
