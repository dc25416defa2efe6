import Verif.Lemmas.Height

/-! Pure mathematics: the derivative of a rational function. -/

namespace EC
open Polynomial

section
variable {F : Type} [Field F]

/-- The derivative of a rational function. -/
noncomputable def rD (r : RatFunc F) : RatFunc F :=
  algebraMap F[X] (RatFunc F) (derivative r.num * r.denom - r.num * derivative r.denom) /
    algebraMap F[X] (RatFunc F) r.denom ^ 2

theorem algMap_ne {v : F[X]} (hv : v ≠ 0) : algebraMap F[X] (RatFunc F) v ≠ 0 := by
  rwa [Ne, map_eq_zero_iff _ (RatFunc.algebraMap_injective F)]

theorem rD_div (u v : F[X]) (hv : v ≠ 0) :
    rD (algebraMap F[X] (RatFunc F) u / algebraMap F[X] (RatFunc F) v) =
      algebraMap F[X] (RatFunc F) (derivative u * v - u * derivative v) / algebraMap F[X] (RatFunc F) v ^ 2 := by
  set r := algebraMap F[X] (RatFunc F) u / algebraMap F[X] (RatFunc F) v with hr
  have e : r.num * v = u * r.denom := (RatFunc.num_mul_eq_mul_denom_iff hv).2 hr
  have e' := congrArg derivative e
  rw [derivative_mul, derivative_mul] at e'
  unfold rD
  have h1 := algMap_ne hv
  have h2 := algMap_ne r.denom_ne_zero
  rw [div_eq_div_iff (pow_ne_zero 2 h2) (pow_ne_zero 2 h1), ← map_pow, ← map_pow, ← map_mul, ← map_mul]
  congr 1
  linear_combination v * r.denom * e' - (derivative r.denom * v + r.denom * derivative v) * e

theorem exists_div (r : RatFunc F) : ∃ u v : F[X], v ≠ 0 ∧
    r = algebraMap F[X] (RatFunc F) u / algebraMap F[X] (RatFunc F) v :=
  ⟨r.num, r.denom, r.denom_ne_zero, (RatFunc.num_div_denom r).symm⟩

theorem rD_mul (r s : RatFunc F) : rD (r * s) = rD r * s + r * rD s := by
  obtain ⟨u, v, hv, rfl⟩ := exists_div r
  obtain ⟨w, z, hz, rfl⟩ := exists_div s
  rw [div_mul_div_comm, ← map_mul, ← map_mul, rD_div _ _ (mul_ne_zero hv hz), rD_div _ _ hv, rD_div _ _ hz]
  have h1 := algMap_ne hv
  have h2 := algMap_ne hz
  simp only [derivative_mul, map_mul, map_sub, map_add]
  field_simp
  ring

theorem rD_add (r s : RatFunc F) : rD (r + s) = rD r + rD s := by
  obtain ⟨u, v, hv, rfl⟩ := exists_div r
  obtain ⟨w, z, hz, rfl⟩ := exists_div s
  have h1 := algMap_ne hv
  have h2 := algMap_ne hz
  rw [div_add_div _ _ h1 h2, ← map_mul, ← map_mul, ← map_mul, ← map_add, rD_div _ _ (mul_ne_zero hv hz), rD_div _ _ hv,
    rD_div _ _ hz]
  simp only [derivative_mul, derivative_add, map_mul, map_sub, map_add]
  field_simp
  ring

theorem rD_poly (u : F[X]) : rD (algebraMap F[X] (RatFunc F) u) = algebraMap F[X] (RatFunc F) (derivative u) := by
  have := rD_div u 1 one_ne_zero
  simpa using this

theorem rD_C (c : F) : rD (RatFunc.C c) = 0 := by
  rw [← RatFunc.algebraMap_C, rD_poly, derivative_C, map_zero]

theorem rD_X : rD (RatFunc.X : RatFunc F) = 1 := by
  rw [← RatFunc.algebraMap_X, rD_poly, derivative_X, map_one]

theorem rD_zero : rD (0 : RatFunc F) = 0 := by
  have := rD_C (0 : F)
  rwa [map_zero] at this

theorem rD_neg (r : RatFunc F) : rD (-r) = -rD r := by
  have := rD_add r (-r)
  rw [add_neg_cancel, rD_zero] at this
  exact eq_neg_of_add_eq_zero_right this.symm

theorem rD_sub (r s : RatFunc F) : rD (r - s) = rD r - rD s := by
  rw [sub_eq_add_neg, rD_add, rD_neg, sub_eq_add_neg]

theorem rD_pow (r : RatFunc F) (n : ℕ) : rD (r ^ n) = n * r ^ (n - 1) * rD r := by
  induction n with
  | zero =>
    have := rD_C (1 : F)
    rw [map_one] at this
    simp [this]
  | succ n ih =>
    rw [pow_succ, rD_mul, ih]
    rcases Nat.eq_zero_or_pos n with rfl | hn
    · simp
    · rw [Nat.add_sub_cancel]
      obtain ⟨k, rfl⟩ : ∃ k, n = k + 1 := ⟨n - 1, by omega⟩
      rw [Nat.add_sub_cancel]
      push_cast
      ring

theorem rD_ofNat (n : ℕ) [n.AtLeastTwo] : rD (OfNat.ofNat n : RatFunc F) = 0 := by
  have := rD_C (OfNat.ofNat n : F)
  rwa [map_ofNat] at this

/-- A rational function with nonzero derivative. -/
theorem wronskian_of_rD {r : RatFunc F} (h : rD r ≠ 0) : derivative r.num * r.denom - r.num * derivative r.denom ≠ 0 := by
  intro h0
  apply h
  unfold rD
  rw [h0, map_zero, zero_div]

end
end EC
