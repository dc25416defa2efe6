import Verif.Spec.Value
import Mathlib.NumberTheory.ArithmeticFunction.Misc
import Mathlib.RingTheory.PowerSeries.Inverse

/-! Specification vocabulary: the power series of the theory of modular functions. -/

namespace EC

open PowerSeries in
/-- `E_4 = 1 + 240 ∑_{n ≥ 1} σ_3(n) q^n`. -/
noncomputable def seriesE4 : PowerSeries ℤ :=
  PowerSeries.mk fun n => if n = 0 then 1 else 240 * (ArithmeticFunction.sigma 3 n : ℤ)

/-- The partial product `∏_{1 ≤ k ≤ M} (1 - q^k)^24`. -/
noncomputable def prodDelta (M : ℕ) : PowerSeries ℤ :=
  ∏ k ∈ Finset.Icc 1 M, (1 - (PowerSeries.X : PowerSeries ℤ) ^ k) ^ 24

/-- The infinite product `∏_{k ≥ 1} (1 - q^k)^24`: its coefficient of `q^n` is the one of the `n`-th
partial product, and of every longer partial product (`coeff_prodDelta`). -/
noncomputable def seriesDelta : PowerSeries ℤ := PowerSeries.mk fun n => PowerSeries.coeff n (prodDelta n)

/-- `q * j(q) = E_4^3 / ∏_{k ≥ 1} (1 - q^k)^24`. -/
noncomputable def seriesJ1 : PowerSeries ℤ := seriesE4 ^ 3 * PowerSeries.invOfUnit seriesDelta 1

theorem X_dvd_factor (k : ℕ) : (PowerSeries.X : PowerSeries ℤ) ^ k ∣
    (1 - (PowerSeries.X : PowerSeries ℤ) ^ k) ^ 24 - 1 := by
  have h : (1 - (PowerSeries.X : PowerSeries ℤ) ^ k) - 1 ∣ (1 - (PowerSeries.X : PowerSeries ℤ) ^ k) ^ 24 - 1 ^ 24 :=
    sub_dvd_pow_sub_pow _ _ 24
  have e : (1 - (PowerSeries.X : PowerSeries ℤ) ^ k) - 1 = -(PowerSeries.X : PowerSeries ℤ) ^ k := by ring
  rw [e, one_pow, neg_dvd] at h
  exact h

theorem prodDelta_succ (M : ℕ) :
    prodDelta (M + 1) = prodDelta M * (1 - (PowerSeries.X : PowerSeries ℤ) ^ (M + 1)) ^ 24 := by
  unfold prodDelta
  rw [Finset.prod_Icc_succ_top (by omega)]

/-- Longer partial products have the same lower coefficients: `seriesDelta` is the limit. -/
theorem coeff_prodDelta {n M : ℕ} (h : n ≤ M) :
    PowerSeries.coeff n (prodDelta M) = PowerSeries.coeff n seriesDelta := by
  unfold seriesDelta
  rw [PowerSeries.coeff_mk]
  induction M, h using Nat.le_induction with
  | base => rfl
  | succ M hM ih =>
    rw [← ih]
    obtain ⟨r, hr⟩ := X_dvd_factor (M + 1)
    have e : prodDelta (M + 1) = prodDelta M + (PowerSeries.X : PowerSeries ℤ) ^ (M + 1) * (r * prodDelta M) := by
      rw [prodDelta_succ, eq_add_of_sub_eq hr]; ring
    rw [e, map_add, PowerSeries.coeff_X_pow_mul', if_neg (by omega), add_zero]

theorem constantCoeff_seriesDelta : PowerSeries.constantCoeff seriesDelta = 1 := by
  rw [← PowerSeries.coeff_zero_eq_constantCoeff_apply]
  simp [seriesDelta, prodDelta]

/-- `seriesJ1` is the quotient. -/
theorem seriesJ1_mul : seriesJ1 * seriesDelta = seriesE4 ^ 3 := by
  unfold seriesJ1
  have := PowerSeries.mul_invOfUnit seriesDelta 1 (by simp [constantCoeff_seriesDelta])
  rw [mul_assoc, mul_comm _ seriesDelta, this, mul_one]

end EC
