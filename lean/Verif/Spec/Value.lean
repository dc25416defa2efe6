import Verif.Model.Polynomial
import Mathlib.Algebra.MonoidAlgebra.Basic
import Mathlib.Algebra.Polynomial.Basic
import Mathlib.Algebra.Polynomial.Bivariate
import Mathlib.RingTheory.PowerSeries.Basic

/-! Specification vocabulary: the mathematical object a stored polynomial denotes.

Only the *data* of a polynomial (its list of terms) is used here, none of the functions of the
model. -/

namespace EC

/-- Exponent vector of a Laurent monomial: exponents of `x`, `y`, `q` (any sign) and of every
subscripted variable `c_i_j`. -/
abbrev Expo := ℤ × ℤ × ℤ × ((ℤ × ℤ) →₀ ℕ)

/-- The ring `ℤ[x^±1, y^±1, q^±1][c_i_j : i, j]`. -/
abbrev LRing := AddMonoidAlgebra ℤ Expo

/-- Exponent vector of a monomial key. -/
noncomputable def Key.expo (k : Key) : Expo :=
  (k.x, k.y, k.q, match k.v with
    | none => 0
    | some v => Finsupp.single v 1)

/-- The monomial as a ring element. -/
noncomputable def Key.val (k : Key) : LRing := AddMonoidAlgebra.single k.expo 1

/-- A term as a ring element: `coef * monomial`. -/
noncomputable def Term.val (t : Term) : LRing := t.coef • t.monomial.key.val

/-- A polynomial as a ring element: the sum of its stored terms. -/
noncomputable def Poly.val (P : Poly) : LRing :=
  (P.entries.map fun e => e.2 • e.1.key.val).sum

/-- Value of a monomial with non-negative exponents when `x`, `y`, `q`, `c_i_j` are replaced by
elements of a ring. -/
def Key.evalAt {R : Type*} [CommRing R] (x y q : R) (c : ℤ × ℤ → R) (k : Key) : R :=
  x ^ k.x.toNat * y ^ k.y.toNat * q ^ k.q.toNat * (match k.v with
    | none => 1
    | some v => c v)

/-- Value of a polynomial with non-negative exponents when `x`, `y`, `q`, `c_i_j` are replaced by
elements of a ring. -/
def Poly.evalAt {R : Type*} [CommRing R] (x y q : R) (c : ℤ × ℤ → R) (P : Poly) : R :=
  (P.entries.map fun e => e.2 • e.1.key.evalAt x y q c).sum

/-- No exponent is negative. -/
def Key.Nonneg (k : Key) : Prop := 0 ≤ k.x ∧ 0 ≤ k.y ∧ 0 ≤ k.q

/-- `x^i` with `i ≥ 0`. -/
def Key.IsX (k : Key) : Prop := 0 ≤ k.x ∧ k.y = 0 ∧ k.q = 0 ∧ k.v = none

/-- `x^i y^j` with `i, j ≥ 0`. -/
def Key.IsXY (k : Key) : Prop := 0 ≤ k.x ∧ 0 ≤ k.y ∧ k.q = 0 ∧ k.v = none

/-- `q^i` with `i ≥ 0`. -/
def Key.IsQ (k : Key) : Prop := k.x = 0 ∧ k.y = 0 ∧ 0 ≤ k.q ∧ k.v = none

namespace Poly

/-- Every stored monomial satisfies `S`. -/
def All (S : Key → Prop) (P : Poly) : Prop := ∀ e ∈ P.entries, S e.1.key

/-- No zero coefficient is stored. -/
def Canon (P : Poly) : Prop := ∀ e ∈ P.entries, e.2 ≠ 0

/-- All stored coefficients are in `[0, p)`. -/
def Reduced (p : ℤ) (P : Poly) : Prop := ∀ e ∈ P.entries, 0 ≤ e.2 ∧ e.2 < p

/-- The stored coefficient of a monomial, 0 if there is none. -/
def coef (P : Poly) (k : Key) : ℤ := (P.entries.map fun e => if e.1.key = k then e.2 else 0).sum

/-- A polynomial in `x` alone as an element of `R[X]`. -/
noncomputable def polyX (R : Type*) [CommRing R] (P : Poly) : Polynomial R :=
  P.evalAt (Polynomial.X : Polynomial R) 0 0 0

/-- A polynomial in `x` and `y` as an element of `R[X][Y]`. -/
noncomputable def polyXY (R : Type*) [CommRing R] (P : Poly) : Polynomial (Polynomial R) :=
  P.evalAt (Polynomial.C Polynomial.X) Polynomial.X 0 0

/-- A polynomial in `q` as a power series. -/
noncomputable def series (P : Poly) : PowerSeries ℤ :=
  P.evalAt 0 0 (PowerSeries.X : PowerSeries ℤ) 0

end Poly

end EC
