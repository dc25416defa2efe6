import Verif.Spec.Maps
import Verif.Spec.QSeries
import Mathlib.RingTheory.LaurentSeries

/-! Specification vocabulary: the shape of the classical modular polynomial `Φ_p(x, y)` and the
Laurent series `j(q)`. -/

namespace EC

open Finset

/-- The subscripted variable `c_i_j` as a ring element. -/
noncomputable def cVar (v : ℤ × ℤ) : LRing := AddMonoidAlgebra.single (0, 0, 0, Finsupp.single v 1) 1

/-- `x^(p+1) + y^(p+1) + ∑_{i ≤ p} c_i_i x^i y^i + ∑_{i < j ≤ p} c_i_j (x^i y^j + x^j y^i)` with the
subscripted variables as coefficients. -/
noncomputable def genericModular (p : ℕ) : LRing :=
  mono (p + 1) 0 0 + mono 0 (p + 1) 0 + ∑ i ∈ range (p + 1), cVar (i, i) * mono i i 0 +
    ∑ i ∈ range (p + 1), ∑ j ∈ Ico (i + 1) (p + 1), cVar (i, j) * (mono i j 0 + mono j i 0)

/-- The same with integers `c i j` as coefficients. -/
noncomputable def modularShape (p : ℕ) (c : ℕ → ℕ → ℤ) : LRing :=
  mono (p + 1) 0 0 + mono 0 (p + 1) 0 + ∑ i ∈ range (p + 1), c i i • mono i i 0 +
    ∑ i ∈ range (p + 1), ∑ j ∈ Ico (i + 1) (p + 1), c i j • (mono i j 0 + mono j i 0)

/-- The value of that polynomial at `x = X`, `y = Y` in a commutative ring. -/
def modularAt {R : Type*} [CommRing R] (p : ℕ) (c : ℕ → ℕ → ℤ) (X Y : R) : R :=
  X ^ (p + 1) + Y ^ (p + 1) + ∑ i ∈ range (p + 1), c i i • (X ^ i * Y ^ i) +
    ∑ i ∈ range (p + 1), ∑ j ∈ Ico (i + 1) (p + 1), c i j • (X ^ i * Y ^ j + X ^ j * Y ^ i)

/-- `j(q) = q^-1 * E_4^3 / ∏_{k ≥ 1} (1 - q^k)^24` as a Laurent series. -/
noncomputable def jLaurent : LaurentSeries ℤ :=
  HahnSeries.single (-1) 1 * HahnSeries.ofPowerSeries ℤ ℤ seriesJ1

/-- The substitution `q ↦ q^p` of Laurent series: the coefficient of `q^(p n)` of the result is the
coefficient of `q^n`. -/
noncomputable def qPow (p : ℕ) (hp : 0 < p) : LaurentSeries ℤ →+* LaurentSeries ℤ :=
  HahnSeries.embDomainRingHom
    (AddMonoidHom.mulLeft (p : ℤ))
    (fun a b h => by simpa [hp.ne'] using h)
    (fun a b => by simp [hp])

end EC
