import Verif.Spec.Curve
import Mathlib.AlgebraicGeometry.EllipticCurve.DivisionPolynomial.Basic
import Mathlib.Data.ZMod.Basic
import Mathlib.Tactic.LinearCombination
import Mathlib.Algebra.Polynomial.Lifts

/-! Division polynomials modulo 2. -/

namespace EC
open Polynomial WeierstrassCurve

variable {R : Type*} [CommRing R] (h2 : (2 : R) = 0) (a b : R)

/-- The value of `preΨ n` in characteristic two, with `D = Ψ₃`. -/
noncomputable def pre2 (n : ℤ) : R[X] :=
  if n % 2 = 1 then (shortW a b).Ψ₃ ^ ((n ^ 2 - 1) / 8).toNat
  else if n % 4 = 2 then (shortW a b).Ψ₃ ^ ((n ^ 2 - 4) / 8).toNat
  else 0

theorem pre2_odd (t : ℤ) : pre2 a b (2 * t + 1) = (shortW a b).Ψ₃ ^ (t * (t + 1) / 2).toNat := by
  rw [pre2, if_pos (by omega)]
  congr 2
  rw [show (2 * t + 1) ^ 2 - 1 = 4 * (t * (t + 1)) by ring]
  omega

theorem pre2_two (t : ℤ) : pre2 a b (4 * t + 2) = (shortW a b).Ψ₃ ^ (2 * (t * (t + 1))).toNat := by
  rw [pre2, if_neg (by omega), if_pos (by omega)]
  congr 2
  rw [show (4 * t + 2) ^ 2 - 4 = 16 * (t * (t + 1)) by ring]
  omega

theorem pre2_four (t : ℤ) : pre2 a b (4 * t) = 0 := by
  rw [pre2, if_neg (by omega), if_neg (by omega)]

theorem half_consec (t : ℤ) : ∃ s, t * (t + 1) = 2 * s ∧ 0 ≤ s := by
  obtain ⟨s, hs⟩ := Int.even_mul_succ_self t
  refine ⟨s, by omega, ?_⟩
  have : 0 ≤ t * (t + 1) := by
    rcases le_or_gt 0 t with h | h
    · positivity
    · nlinarith
  omega

/-- The bracket `w(m+2) w(m-1)^2 - w(m-2) w(m+1)^2` vanishes for even `m`. -/
theorem pre2_bracket (m : ℤ) (hm : m % 2 = 0) :
    pre2 a b (m + 2) * pre2 a b (m - 1) ^ 2 - pre2 a b (m - 2) * pre2 a b (m + 1) ^ 2 = 0 := by
  by_cases h4 : m % 4 = 0
  · obtain ⟨t, rfl⟩ : ∃ t, m = 4 * t := ⟨m / 4, by omega⟩
    rw [pre2_two, show 4 * t - 1 = 2 * (2 * t - 1) + 1 by ring, pre2_odd,
      show 4 * t - 2 = 4 * (t - 1) + 2 by ring, pre2_two, show 4 * t + 1 = 2 * (2 * t) + 1 by ring, pre2_odd,
      ← pow_mul, ← pow_mul, ← pow_add, ← pow_add, sub_eq_zero]
    congr 1
    obtain ⟨s1, e1, p1⟩ := half_consec (2 * t - 1)
    obtain ⟨s2, e2, p2⟩ := half_consec (2 * t)
    obtain ⟨s3, e3, p3⟩ := half_consec t
    obtain ⟨s4, e4, p4⟩ := half_consec (t - 1)
    rw [e1, e2, e3, e4]
    ring_nf at e1 e2 e3 e4
    omega
  · obtain ⟨t, rfl⟩ : ∃ t, m = 4 * t + 2 := ⟨m / 4, by omega⟩
    rw [show 4 * t + 2 + 2 = 4 * (t + 1) by ring, pre2_four, show 4 * t + 2 - 2 = 4 * t by ring, pre2_four]
    ring

include h2 in
theorem four_eq_zero : (4 : R) = 0 := by
  have : (4 : R) = 2 * 2 := by norm_num
  rw [this, h2, zero_mul]

include h2 in
theorem psi2sq_mod2 : (shortW a b).Ψ₂Sq = 0 := by
  have h4 := four_eq_zero h2
  simp only [WeierstrassCurve.Ψ₂Sq, b₂, b₄, b₆, h4, h2]
  simp

include h2 in
theorem prePsi4_mod2 : (shortW a b).preΨ₄ = 0 := by
  have h4 := four_eq_zero h2
  have h2' : (2 : R[X]) = 0 := by rw [← C_ofNat, h2, C_0]
  have h10 : (10 : R[X]) = 0 := by
    have : (10 : R[X]) = 2 * 5 := by norm_num
    rw [this, h2', zero_mul]
  simp only [WeierstrassCurve.preΨ₄, b₂, b₄, b₆, b₈, h4, h2, h2', h10]
  simp

include h2 in
/-- `preΨ n` in characteristic two. -/
theorem prePsi_mod2 : ∀ n : ℤ, 0 ≤ n → (shortW a b).preΨ n = pre2 a b n := by
  intro n
  induction hn : n.toNat using Nat.strong_induction_on generalizing n with
  | _ N ih =>
    intro h0
    by_cases n0 : n = 0
    · subst n0; simp [pre2]
    by_cases n1 : n = 1
    · subst n1; simp [pre2]
    by_cases n2 : n = 2
    · subst n2; simp [pre2]
    by_cases n3 : n = 3
    · subst n3; simp [pre2]
    by_cases n4 : n = 4
    · subst n4; simp [pre2, prePsi4_mod2 h2]
    have hneg : ∀ f : R[X], -f = f := by
      intro f
      have h2' : (2 : R[X]) = 0 := by rw [← C_ofNat, h2, C_0]
      linear_combination (-f) * h2'
    rcases Int.even_or_odd' n with ⟨m, hm | hm⟩
    · subst hm
      have i0 := ih _ (by omega) m rfl (by omega)
      have i1 := ih _ (by omega) (m - 1) rfl (by omega)
      have i2 := ih _ (by omega) (m + 2) rfl (by omega)
      have i3 := ih _ (by omega) (m - 2) rfl (by omega)
      have i4 := ih _ (by omega) (m + 1) rfl (by omega)
      rw [preΨ_even, i0, i1, i2, i3, i4]
      by_cases hpar : m % 2 = 0
      · have hb := pre2_bracket a b m hpar
        rw [show 2 * m = 4 * (m / 2) by omega, pre2_four]
        linear_combination pre2 a b m * hb
      · by_cases h1 : m % 4 = 1
        · obtain ⟨t, rfl⟩ : ∃ t, m = 4 * t + 1 := ⟨m / 4, by omega⟩
          rw [show 4 * t + 1 - 1 = 4 * t by ring, pre2_four,
            show 4 * t + 1 - 2 = 2 * (2 * t - 1) + 1 by ring, pre2_odd,
            show 4 * t + 1 + 1 = 4 * t + 2 by ring, pre2_two,
            show 4 * t + 1 = 2 * (2 * t) + 1 by ring, pre2_odd,
            show 2 * (2 * (2 * t) + 1) = 4 * (2 * t) + 2 by ring, pre2_two,
            ← pow_mul, ← pow_add, ← pow_add]
          rw [zero_pow (by norm_num), zero_mul, zero_mul, zero_sub, hneg]
          congr 1
          obtain ⟨s1, e1, p1⟩ := half_consec (2 * t - 1)
          obtain ⟨s2, e2, p2⟩ := half_consec (2 * t)
          obtain ⟨s3, e3, p3⟩ := half_consec t
          rw [e1, e2, e3]
          ring_nf at e1 e2 e3
          omega
        · obtain ⟨t, rfl⟩ : ∃ t, m = 4 * t + 3 := ⟨m / 4, by omega⟩
          rw [show 4 * t + 3 + 1 = 4 * (t + 1) by ring, pre2_four,
            show 4 * t + 3 + 2 = 2 * (2 * t + 2) + 1 by ring, pre2_odd,
            show 4 * t + 3 - 1 = 4 * t + 2 by ring, pre2_two,
            show 4 * t + 3 = 2 * (2 * t + 1) + 1 by ring, pre2_odd,
            show 2 * (2 * (2 * t + 1) + 1) = 4 * (2 * t + 1) + 2 by ring, pre2_two,
            ← pow_mul, ← pow_add, ← pow_add]
          rw [zero_pow (by norm_num), mul_zero, sub_zero]
          congr 1
          obtain ⟨s1, e1, p1⟩ := half_consec (2 * t + 1)
          obtain ⟨s2, e2, p2⟩ := half_consec (2 * t + 2)
          obtain ⟨s3, e3, p3⟩ := half_consec t
          rw [e1, e2, e3]
          ring_nf at e1 e2 e3
          omega
    · subst hm
      have i0 := ih _ (by omega) m rfl (by omega)
      have i1 := ih _ (by omega) (m - 1) rfl (by omega)
      have i2 := ih _ (by omega) (m + 2) rfl (by omega)
      have i4 := ih _ (by omega) (m + 1) rfl (by omega)
      rw [preΨ_odd, i0, i1, i2, i4, psi2sq_mod2 h2]
      by_cases hpar : m % 2 = 0
      · rw [if_pos (Int.even_iff.2 hpar), if_pos (Int.even_iff.2 hpar)]
        obtain ⟨t, rfl⟩ : ∃ t, m = 2 * t := ⟨m / 2, by omega⟩
        rw [show 2 * t - 1 = 2 * (t - 1) + 1 by ring, pre2_odd, pre2_odd, pre2_odd, zero_pow (by norm_num),
          mul_zero, zero_sub, hneg, mul_one, ← pow_mul, ← pow_add]
        congr 1
        obtain ⟨s1, e1, p1⟩ := half_consec (t - 1)
        obtain ⟨s2, e2, p2⟩ := half_consec t
        obtain ⟨s3, e3, p3⟩ := half_consec (2 * t)
        rw [e1, e2, e3]
        ring_nf at e1 e2 e3
        omega
      · rw [if_neg (fun h => hpar (Int.even_iff.1 h)), if_neg (fun h => hpar (Int.even_iff.1 h))]
        obtain ⟨t, rfl⟩ : ∃ t, m = 2 * t + 1 := ⟨m / 2, by omega⟩
        rw [show 2 * t + 1 + 2 = 2 * (t + 1) + 1 by ring, pre2_odd, pre2_odd, pre2_odd, zero_pow (by norm_num),
          mul_zero, sub_zero, mul_one, ← pow_mul, ← pow_add]
        congr 1
        obtain ⟨s1, e1, p1⟩ := half_consec (t + 1)
        obtain ⟨s2, e2, p2⟩ := half_consec t
        obtain ⟨s3, e3, p3⟩ := half_consec (2 * t + 1)
        rw [e1, e2, e3]
        ring_nf at e1 e2 e3
        omega

/-- Over the integers: for even `n` the bracket of `omega` has even coefficients. -/
theorem bracket_even (a b n : ℤ) (h : 2 ≤ n) (hn : n % 2 = 0) :
    ∃ Q : ℤ[X], (shortW a b).preΨ (n + 2) * (shortW a b).preΨ (n - 1) ^ 2 -
      (shortW a b).preΨ (n - 2) * (shortW a b).preΨ (n + 1) ^ 2 = C 2 * Q := by
  set f := (shortW a b).preΨ (n + 2) * (shortW a b).preΨ (n - 1) ^ 2 -
      (shortW a b).preΨ (n - 2) * (shortW a b).preΨ (n + 1) ^ 2 with hf
  have h0 : f.map (Int.castRingHom (ZMod 2)) = 0 := by
    have hmap : (shortW a b).map (Int.castRingHom (ZMod 2)) = shortW (a : ZMod 2) (b : ZMod 2) := by
      simp [WeierstrassCurve.map, shortW]
    rw [hf, Polynomial.map_sub, Polynomial.map_mul, Polynomial.map_mul, Polynomial.map_pow, Polynomial.map_pow,
      ← map_preΨ, ← map_preΨ, ← map_preΨ, ← map_preΨ, hmap]
    have h2 : (2 : ZMod 2) = 0 := by decide
    rw [prePsi_mod2 h2 _ _ _ (by omega), prePsi_mod2 h2 _ _ _ (by omega), prePsi_mod2 h2 _ _ _ (by omega),
      prePsi_mod2 h2 _ _ _ (by omega)]
    exact pre2_bracket _ _ n hn
  have : C (2 : ℤ) ∣ f := by
    rw [C_dvd_iff_dvd_coeff]
    intro i
    have := congrArg (fun g => g.coeff i) h0
    simp only [coeff_map, coeff_zero, eq_intCast] at this
    rwa [ZMod.intCast_zmod_eq_zero_iff_dvd] at this
  exact this

end EC
