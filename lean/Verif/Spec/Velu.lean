import Mathlib.Algebra.Field.Basic
import Mathlib.Tactic.Ring

/-! Specification vocabulary: j-invariant of `y^2 = x^3 + a x + b` and Vélu's formulas for isogenies of degree 2
and 3. -/

namespace EC

variable {K : Type*} [Field K]

/-- The j-invariant of `y^2 = x^3 + a x + b`. -/
def jOf (a b : K) : K := 1728 * (4 * a ^ 3) / (4 * a ^ 3 + 27 * b ^ 2)

/-- The coefficient `a` of the quotient of `y^2 = x^3 + a x + b` by the point `(e, 0)` of order 2. -/
def velu2A (a e : K) : K := a - 5 * (3 * e ^ 2 + a)

/-- The coefficient `b` of the quotient. -/
def velu2B (a b e : K) : K := b - 7 * (e * (3 * e ^ 2 + a))

/-- The `x`-coordinate of the image of `(x, y)`. -/
def velu2X (a e x : K) : K := x + (3 * e ^ 2 + a) / (x - e)

/-- The `y`-coordinate of the image of `(x, y)`. -/
def velu2Y (a e x y : K) : K := y * (1 - (3 * e ^ 2 + a) / (x - e) ^ 2)

/-- The 3-division polynomial: the `x`-coordinates of the points of order 3 are its roots. -/
def psi3At (a b e : K) : K := 3 * e ^ 4 + 6 * a * e ^ 2 + 12 * b * e - a ^ 2

/-- The coefficient `a` of the quotient of `y^2 = x^3 + a x + b` by the two points of order 3 with `x`-coordinate `e`
(and `O`). -/
def velu3A (a e : K) : K := a - 5 * (2 * (3 * e ^ 2 + a))

/-- The coefficient `b` of the quotient. -/
def velu3B (a b e : K) : K := b - 7 * (4 * (e ^ 3 + a * e + b) + e * (2 * (3 * e ^ 2 + a)))

/-- The `x`-coordinate of the image of `(x, y)`. -/
def velu3X (a b e x : K) : K := x + 2 * (3 * e ^ 2 + a) / (x - e) + 4 * (e ^ 3 + a * e + b) / (x - e) ^ 2

/-- The `y`-coordinate of the image of `(x, y)`. -/
def velu3Y (a b e x y : K) : K :=
  y * (1 - 2 * (3 * e ^ 2 + a) / (x - e) ^ 2 - 8 * (e ^ 3 + a * e + b) / (x - e) ^ 3)

end EC
