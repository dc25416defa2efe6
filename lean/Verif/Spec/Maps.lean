import Verif.Spec.Value
import Mathlib.Algebra.MonoidAlgebra.MapDomain
import Mathlib.Algebra.MonoidAlgebra.Module
import Mathlib.LinearAlgebra.Finsupp.LinearCombination

/-! Specification vocabulary: maps of the ring `LRing` (substitution of powers, substitution of a
ring element, partial derivatives). -/

namespace EC

/-- The exponent map of `x ↦ x^a, y ↦ y^b, q ↦ q^c`. -/
def expoScale (a b c : ℤ) : Expo →+ Expo where
  toFun e := (a * e.1, b * e.2.1, c * e.2.2.1, e.2.2.2)
  map_zero' := by simp
  map_add' e f := by simp [mul_add]

/-- The ring endomorphism `x ↦ x^a, y ↦ y^b, q ↦ q^c`, identity on the subscripted variables. -/
noncomputable def substPow (a b c : ℤ) : LRing →+* LRing :=
  AddMonoidAlgebra.mapDomainRingHom ℤ (expoScale a b c)

/-- The monomial `x^i y^j q^k` of the ring. -/
noncomputable def mono (i j k : ℤ) : LRing := AddMonoidAlgebra.single (i, j, k, 0) 1

/-- The partial derivative `∂/∂x` of the ring. -/
noncomputable def ddx : LRing →ₗ[ℤ] LRing :=
  Finsupp.linearCombination ℤ (fun e : Expo => AddMonoidAlgebra.single (e.1 - 1, e.2) e.1) ∘ₗ
    (AddMonoidAlgebra.coeffLinearEquiv ℤ).toLinearMap

/-- The partial derivative `∂/∂y` of the ring. -/
noncomputable def ddy : LRing →ₗ[ℤ] LRing :=
  Finsupp.linearCombination ℤ
    (fun e : Expo => AddMonoidAlgebra.single (e.1, e.2.1 - 1, e.2.2) e.2.1) ∘ₗ
    (AddMonoidAlgebra.coeffLinearEquiv ℤ).toLinearMap

theorem ddx_single (e : Expo) (c : ℤ) :
    ddx (AddMonoidAlgebra.single e c) = AddMonoidAlgebra.single (e.1 - 1, e.2) (c * e.1) := by
  simp [ddx]

theorem ddy_single (e : Expo) (c : ℤ) :
    ddy (AddMonoidAlgebra.single e c) = AddMonoidAlgebra.single (e.1, e.2.1 - 1, e.2.2) (c * e.2.1) := by
  simp [ddy]

/-- `ddx` is the derivation with `x ↦ 1`, `y ↦ 0`, `q ↦ 0`. -/
theorem ddx_mul (f g : LRing) : ddx (f * g) = ddx f * g + f * ddx g := by
  induction f using AddMonoidAlgebra.induction_linear with
  | zero => simp
  | add f f' h h' => simp only [add_mul, map_add, h, h']; abel
  | single e c =>
    induction g using AddMonoidAlgebra.induction_linear with
    | zero => simp
    | add g g' h h' => simp only [mul_add, map_add, h, h']; abel
    | single e' c' =>
      simp only [AddMonoidAlgebra.single_mul_single, ddx_single]
      have h1 : ((e.1 - 1, e.2) + e' : Expo) = ((e + e').1 - 1, (e + e').2) := by
        ext <;> (simp; try ring)
      have h2 : (e + (e'.1 - 1, e'.2) : Expo) = ((e + e').1 - 1, (e + e').2) := by
        ext <;> (simp; try ring)
      rw [h1, h2, ← AddMonoidAlgebra.single_add]
      congr 1
      simp; ring

theorem ddx_gen : ddx (mono 1 0 0) = 1 ∧ ddx (mono 0 1 0) = 0 ∧ ddx (mono 0 0 1) = 0 := by
  refine ⟨?_, ?_, ?_⟩ <;> (simp [mono, ddx_single]; try rfl)

/-- `ddy` is the derivation with `x ↦ 0`, `y ↦ 1`, `q ↦ 0`. -/
theorem ddy_mul (f g : LRing) : ddy (f * g) = ddy f * g + f * ddy g := by
  induction f using AddMonoidAlgebra.induction_linear with
  | zero => simp
  | add f f' h h' => simp only [add_mul, map_add, h, h']; abel
  | single e c =>
    induction g using AddMonoidAlgebra.induction_linear with
    | zero => simp
    | add g g' h h' => simp only [mul_add, map_add, h, h']; abel
    | single e' c' =>
      simp only [AddMonoidAlgebra.single_mul_single, ddy_single]
      have h1 : ((e.1, e.2.1 - 1, e.2.2) + e' : Expo) = ((e + e').1, (e + e').2.1 - 1, (e + e').2.2) := by
        ext <;> (simp; try ring)
      have h2 : (e + (e'.1, e'.2.1 - 1, e'.2.2) : Expo) = ((e + e').1, (e + e').2.1 - 1, (e + e').2.2) := by
        ext <;> (simp; try ring)
      rw [h1, h2, ← AddMonoidAlgebra.single_add]
      congr 1
      simp; ring

theorem ddy_gen : ddy (mono 1 0 0) = 0 ∧ ddy (mono 0 1 0) = 1 ∧ ddy (mono 0 0 1) = 0 := by
  refine ⟨?_, ?_, ?_⟩ <;> (simp [mono, ddy_single]; try rfl)

/-- The result of replacing `x` by the ring element `F` in a polynomial with non-negative
`x`-exponents. -/
noncomputable def Poly.substX (F : LRing) (P : Poly) : LRing :=
  (P.entries.map fun e => e.2 • (F ^ e.1.xpow.toNat *
    Key.val { x := 0, y := e.1.ypow, q := e.1.qpow, v := e.1.key.v })).sum

/-- The result of replacing `y` by the ring element `F` in a polynomial with non-negative
`y`-exponents. -/
noncomputable def Poly.substY (F : LRing) (P : Poly) : LRing :=
  (P.entries.map fun e => e.2 • (F ^ e.1.ypow.toNat *
    Key.val { x := e.1.xpow, y := 0, q := e.1.qpow, v := e.1.key.v })).sum

end EC
