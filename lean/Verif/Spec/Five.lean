import Mathlib.Algebra.Polynomial.Basic
import Mathlib.Algebra.Polynomial.Eval.Defs

/-! The fifth division polynomial, written out. -/

namespace EC
open Polynomial

/-- The fifth division polynomial of `y^2 = x^3 + A x + B`. -/
noncomputable def psi5 {R : Type*} [CommRing R] (A B : R) : R[X] :=
  C 5 * X ^ 12 + C (62 * A) * X ^ 10 + C (380 * B) * X ^ 9 - C (105 * A ^ 2) * X ^ 8 + C (240 * A * B) * X ^ 7 -
    C (300 * A ^ 3 + 240 * B ^ 2) * X ^ 6 - C (696 * A ^ 2 * B) * X ^ 5 - C (125 * A ^ 4 + 1920 * A * B ^ 2) * X ^ 4 -
    C (80 * A ^ 3 * B + 1600 * B ^ 3) * X ^ 3 - C (50 * A ^ 5 + 240 * A ^ 2 * B ^ 2) * X ^ 2 -
    C (100 * A ^ 4 * B + 640 * A * B ^ 3) * X + C (A ^ 6 - 32 * A ^ 3 * B ^ 2 - 256 * B ^ 4)

end EC
