import Mathlib.AlgebraicGeometry.EllipticCurve.DivisionPolynomial.Basic
import Mathlib.Algebra.Field.ZMod
import Verif.Spec.Curve

/-! The arguments for which `schoof` returns. -/

namespace EC
open Polynomial

/-- The division polynomial `psi_l` of `y^2 = x^3 + a x + b` over GF(q), for odd `l`. -/
noncomputable abbrev dpoly (q a b : ℤ) (l : ℕ) : (ZMod q.toNat)[X] :=
  (shortW (a : ZMod q.toNat) (b : ZMod q.toNat)).preΨ' l

/-- The exponent `a` of line 214 of `schoof.rs` is odd, at least 3, such that no exponent overflows, and
`(x^3 + a x + b)^((a - 1) / 2) - 1` and the division polynomial have a common factor over GF(q). -/
def TailOk (a b q : ℤ) (l : ℕ) : Prop :=
  a % 2 = 1 ∧ 3 ≤ a ∧ a ≤ 1431655765 ∧
    ¬ IsCoprime ((X ^ 3 + C (a : ZMod q.toNat) * X + C (b : ZMod q.toNat)) ^ ((a - 1) / 2).toNat - 1) (dpoly q a b l)

/-- The step for the prime `l` returns, for a curve of trace `t`. -/
def StepReturns (a b q t : ℤ) (l : ℕ) : Prop :=
  (¬ (l : ℤ) ∣ t → q ≤ 21841) ∧
  ((l : ℤ) ∣ t → q % l = 1 → dpoly q 0 b l ∣ X ^ q.toNat - X → TailOk a b q l)

end EC
