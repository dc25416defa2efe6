import Verif.Lemmas.HasseBound
import Mathlib.FieldTheory.RatFunc.Degree

/-! Pure mathematics: the Frobenius endomorphism satisfies `F^2 - t F + q = 0`, where `t = q + 1 - #E`. -/

namespace EC
open WeierstrassCurve EDS Polynomial

section
variable {F : Type} [Field F] [DecidableEq F] [Fintype F] {a b : F}

local notation "q" => Fintype.card F

/-- `(q - 1) / 2`. -/
abbrev mhalf (F : Type) [Fintype F] : ℕ := Fintype.card F / 2

omit [DecidableEq F] in
theorem card_eq (h2 : (2 : F) ≠ 0) : q = 2 * mhalf F + 1 := by
  have := FiniteField.odd_card_of_char_ne_two (ringChar_ne h2)
  unfold mhalf
  omega

variable (h2 : (2 : F) ≠ 0) (hd : 4 * a ^ 3 + 27 * b ^ 2 ≠ 0)

/-- Raising to the power `q` in `F(x)`. -/
noncomputable abbrev powL (F : Type) [Field F] [Fintype F] : RatFunc F →+* RatFunc F :=
  (FiniteField.frobeniusAlgHom F (RatFunc F)).toRingHom

omit [DecidableEq F] in
theorem powL_apply (r : RatFunc F) : powL F r = r ^ q := rfl

omit [DecidableEq F] in
theorem powL_C (c : F) : (RatFunc.C c) ^ q = RatFunc.C c := by
  rw [← map_pow, FiniteField.pow_card]

omit [DecidableEq F] in
include h2 in
theorem frobT_ha : tA a b = ((fL a b ^ mhalf F)⁻¹) ^ 4 * powL F (tA a b) := by
  have hf := fL_ne a b
  rw [powL_apply, mul_pow, powL_C, ← pow_mul, card_eq h2]
  field_simp
  ring

omit [DecidableEq F] in
include h2 in
theorem frobT_hb : tB a b = ((fL a b ^ mhalf F)⁻¹) ^ 6 * powL F (tB a b) := by
  have hf := fL_ne a b
  rw [powL_apply, mul_pow, powL_C, ← pow_mul, card_eq h2]
  field_simp
  ring

/-- Frobenius on the twisted curve: `(X, Y) ↦ (X^q, f^((q-1)/2) Y^q)`. -/
noncomputable def frobT : TPt a b →+ TPt a b :=
  scaleHom (powL F) (fL a b ^ mhalf F)⁻¹ (two_ne_ratFunc h2) (twist_disc hd) (frobT_ha h2) (frobT_hb h2)
    (inv_ne_zero (pow_ne_zero _ (fL_ne a b)))

theorem frobT_ne {P : TPt a b} (hP : P ≠ 0) : frobT h2 hd P ≠ 0 ∧ Xc (frobT h2 hd P) = Xc P ^ q ∧
    yc (frobT h2 hd P) = ((fL a b ^ mhalf F)⁻¹) ^ 3 * yc P ^ q := by
  obtain ⟨p1, p2, p3⟩ := scaleFun_ne (powL F) (fL a b ^ mhalf F)⁻¹ (two_ne_ratFunc h2) (twist_disc hd)
    (frobT_ha h2) (frobT_hb h2) hP
  refine ⟨p1, ?_, p3⟩
  have hf := fL_ne a b
  unfold Xc
  refine (congrArg (· / fL a b) p2).trans ?_
  rw [powL_apply, div_pow, card_eq h2]
  field_simp
  ring

theorem hgt_frobT (P : TPt a b) : hgt (frobT h2 hd P) = q * hgt P := by
  by_cases hP : P = 0
  · rw [hP, map_zero, hgt_zero, mul_zero]
  · unfold hgt
    rw [(frobT_ne h2 hd hP).2.1, ht_pow]
    push_cast; rfl

theorem hgt_frob_gen : hgt (frobT h2 hd (gen h2 hd)) = q := by rw [hgt_frobT, hgt_gen, mul_one]

theorem hgt_frob_sub : hgt (frobT h2 hd (gen h2 hd) - gen h2 hd) = Nat.card (Pt a b) := by
  obtain ⟨p1, p2, p3⟩ := frobT_ne h2 hd (gen_ne h2 hd)
  rw [Xc_gen] at p2
  rw [yc_gen] at p3
  have hf := fL_ne a b
  have inj := RatFunc.algebraMap_injective F
  have hne0 : (X ^ q - X : F[X]) ≠ 0 := FiniteField.X_pow_card_sub_X_ne_zero F Fintype.one_lt_card
  have hne : (RatFunc.X ^ q - RatFunc.X : RatFunc F) ≠ 0 := by
    intro h0
    apply hne0
    apply inj
    simpa using h0
  have hx : xc (frobT h2 hd (gen h2 hd)) ≠ xc (-gen h2 hd) := by
    rw [xc_neg, xc_eq_Xc, xc_eq_Xc, p2, Xc_gen]
    exact fun h0 => hne (sub_eq_zero.2 (mul_left_cancel₀ hf h0))
  have e := xc_add p1 (neg_ne_zero.2 (gen_ne h2 hd)) hx
  rw [← sub_eq_add_neg] at e
  have p3' : yc (frobT h2 hd (gen h2 hd)) = fL a b ^ (mhalf F + 2) := by
    rw [p3, card_eq h2]
    field_simp
    ring
  simp only [xc_neg, yc_neg, xc_eq_Xc, p2, Xc_gen, p3', yc_gen] at e
  rw [← ht_frob_sub_one h2 hd (card_eq h2)]
  unfold hgt
  congr 2
  rw [eq_div_iff]
  · apply mul_left_cancel₀ (pow_ne_zero 3 hf)
    simp only [map_add, map_sub, map_mul, map_pow, RatFunc.algebraMap_X, map_one]
    rw [show algebraMap F[X] (RatFunc F) (cubic a b) = fL a b from rfl]
    linear_combination e
  · rw [map_pow]
    refine pow_ne_zero 2 ?_
    rwa [Ne, map_eq_zero_iff _ inj]

/-- The trace of Frobenius. -/
noncomputable def trc (a b : F) : ℤ := q + 1 - Nat.card (Pt a b)

theorem bil_frob : bil hgt (gen h2 hd) (frobT h2 hd (gen h2 hd)) = trc a b := by
  have hp := hgt_para (a := a) (b := b) h2 hd
  have e := quad_add hp (gen h2 hd) (frobT h2 hd (gen h2 hd)) (-1) 1
  have c : (-1 : ℤ) • gen h2 hd + (1 : ℤ) • frobT h2 hd (gen h2 hd) = frobT h2 hd (gen h2 hd) - gen h2 hd := by
    rw [neg_one_zsmul, one_zsmul]; abel
  rw [c, hgt_frob_sub, hgt_gen, hgt_frob_gen] at e
  unfold trc
  linarith

/-- The degree of `m + n F`. -/
theorem hgt_lin (m n : ℤ) : hgt (m • gen h2 hd + n • frobT h2 hd (gen h2 hd)) =
    m ^ 2 + m * n * trc a b + n ^ 2 * q := by
  rw [quad_add (hgt_para h2 hd), hgt_gen, hgt_frob_gen, bil_frob, mul_one]

include h2 hd in
/-- Hasse's bound. -/
theorem hasse : trc a b ^ 2 ≤ 4 * q := by
  by_contra hc
  push Not at hc
  have key : ∀ m : ℤ, 0 ≤ m ^ 2 + m * trc a b + q := by
    intro m
    have := hgt_lin h2 hd m 1
    have h0 := hgt_nonneg (m • gen h2 hd + (1 : ℤ) • frobT h2 hd (gen h2 hd))
    rw [this] at h0
    linarith
  have hq := card_eq h2
  generalize q = Q at *
  generalize trc a b = t at *
  rcases Int.even_or_odd t with ⟨k, hk⟩ | ⟨k, hk⟩
  · have := key (-k)
    nlinarith
  · have h1 := key (-k)
    have h3 := key (-k - 1)
    have e : (Q : ℤ) = 2 * (mhalf F) + 1 := by exact_mod_cast hq
    -- `k^2 + k = Q`, but the left side is even
    have h4 : k ^ 2 + k ≤ Q := by nlinarith
    have h5 : (Q : ℤ) < k ^ 2 + k + 1 := by nlinarith
    have h6 : (2 : ℤ) ∣ k ^ 2 + k := by
      rw [show k ^ 2 + k = k * (k + 1) by ring]
      exact (Int.even_mul_succ_self k).two_dvd
    omega

/-- Composition with a point commutes with Frobenius at the generic point. -/
theorem comp_frob {P : TPt a b} (hP : P ≠ 0) (hs : Transcendental F (Xc P)) :
    compHom h2 hd hP hs (frobT h2 hd (gen h2 hd)) = frobT h2 hd P := by
  obtain ⟨p1, p2, p3⟩ := frobT_ne h2 hd (gen_ne h2 hd)
  obtain ⟨q1, q2, q3⟩ := frobT_ne h2 hd hP
  obtain ⟨c1, c2, c3⟩ := compHom_ne h2 hd hP hs p1
  have h1 := subst_fL_twist hP hs
  have h3 := yc_ne_of_transc hP hs
  have hf := fL_ne a b
  have hsf : substX hs (fL a b) ≠ 0 := (_root_.map_ne_zero _).2 hf
  refine EDS.ext c1 q1 ?_ ?_
  · rw [xc_eq_Xc, c2, p2, map_pow, Xc_gen, substX_X, xc_eq_Xc, q2]
  · rw [c3, p3, q3, yc_gen, map_mul, map_pow, map_pow, map_pow, map_inv₀, map_pow]
    have key : ∀ (f y s : RatFunc F) (m : ℕ), f ≠ 0 → y ≠ 0 → s ≠ 0 → y ^ 2 = f ^ 3 * s →
        (f ^ 2 / y) ^ 3 * (((s ^ m)⁻¹) ^ 3 * (s ^ 2) ^ (2 * m + 1)) = ((f ^ m)⁻¹) ^ 3 * y ^ (2 * m + 1) := by
      intro f y s m hf hy hs e
      have e1 : ((s ^ m)⁻¹) ^ 3 * (s ^ 2) ^ (2 * m + 1) = s ^ (m + 2) := by
        field_simp
        ring
      have e2 : y ^ (2 * m + 4) = (f ^ 3 * s) ^ (m + 2) := by
        rw [← e]; ring
      rw [e1]
      apply mul_left_cancel₀ (pow_ne_zero 3 hy)
      apply mul_left_cancel₀ (pow_ne_zero 3 (pow_ne_zero m hf))
      calc (f ^ m) ^ 3 * (y ^ 3 * ((f ^ 2 / y) ^ 3 * s ^ (m + 2))) = (f ^ 3 * s) ^ (m + 2) := by
            field_simp
            ring
        _ = y ^ (2 * m + 4) := e2.symm
        _ = _ := by field_simp; ring
    have := key _ _ _ (mhalf F) hf h3 hsf h1
    rw [← card_eq h2] at this
    exact this

/-- `⟨1, F^2⟩ = t^2 - 2 q`. -/
theorem bil_frob_sq : bil hgt (gen h2 hd) (frobT h2 hd (frobT h2 hd (gen h2 hd))) = trc a b ^ 2 - 2 * q := by
  have hp := hgt_para (a := a) (b := b) h2 hd
  set G := gen h2 hd with hG
  set Φ := frobT (a := a) (b := b) h2 hd with hΦ
  have hN : hgt (Φ G - G) ≠ 0 := by
    rw [hgt_frob_sub]
    have : 0 < Nat.card (Pt a b) := by
      have e1 := card_points (ringChar_ne h2) hd
      have e2 := chSet_card (a := a) (b := b)
      rw [chSet_sum] at e1
      omega
    omega
  obtain ⟨hA, hs⟩ := Xc_nonconst hN
  have e := hgt_comp h2 hd hA hs (G + Φ G)
  rw [map_add, compHom_gen, comp_frob, hgt_frob_sub] at e
  have c : Φ G - G + Φ (Φ G - G) = (1 : ℤ) • Φ (Φ G) + (-1 : ℤ) • G := by
    rw [map_sub, neg_one_zsmul, one_zsmul]; abel
  have c2 : G + Φ G = (1 : ℤ) • G + (1 : ℤ) • Φ G := by rw [one_zsmul, one_zsmul]
  rw [c, quad_add hp, c2, hgt_lin, hgt_gen, hgt_frobT, hgt_frob_gen, bil_comm] at e
  have hc : (Nat.card (Pt a b) : ℤ) = q + 1 - trc a b := by unfold trc; ring
  rw [hc] at e
  linarith

/-- `⟨F, F^2⟩ = q t`. -/
theorem bil_frob_frob : bil hgt (frobT h2 hd (gen h2 hd)) (frobT h2 hd (frobT h2 hd (gen h2 hd))) = q * trc a b := by
  have e := bil_frob h2 hd
  unfold bil at e ⊢
  rw [← map_add, hgt_frobT, hgt_frobT, hgt_frobT h2 hd (frobT h2 hd (gen h2 hd)), ← e]
  rw [hgt_frobT]
  ring

/-- A point of height 0 has order at most 2. -/
theorem hgt_zero_two (h2 : (2 : F) ≠ 0) {P : TPt a b} (h0 : hgt P = 0) : (2 : ℤ) • P = 0 := by
  by_cases hP : P = 0
  · rw [hP, zsmul_zero]
  obtain ⟨c, hc⟩ := ht_eq_zero (r := Xc P) (by unfold hgt at h0; exact_mod_cast h0)
  rw [two_zsmul, two_nsmul_eq_zero_iff (two_ne_ratFunc h2) hP]
  by_contra hy
  have p := eqnX hP
  have e : RatFunc.C (c ^ 3 + a * c + b) = Xc P ^ 3 + RatFunc.C a * Xc P + RatFunc.C b := by
    rw [hc]; simp only [map_add, map_mul, map_pow]
  rw [← e] at p
  have hc0 : RatFunc.C (c ^ 3 + a * c + b) ≠ 0 := by
    intro h
    rw [h, mul_zero] at p
    exact hy (pow_eq_zero_iff two_ne_zero |>.1 p)
  have hf := fL_ne a b
  have d := congrArg RatFunc.intDegree p
  have df : (fL a b).intDegree = 3 := by
    unfold fL
    rw [RatFunc.intDegree_polynomial, cubic_natDegree]; rfl
  rw [pow_two, RatFunc.intDegree_mul hy hy, RatFunc.intDegree_mul (pow_ne_zero 3 hf) hc0, RatFunc.intDegree_C,
    pow_succ, pow_two, RatFunc.intDegree_mul (mul_ne_zero hf hf) hf, RatFunc.intDegree_mul hf hf, df] at d
  omega

/-- The characteristic equation at the generic point, up to points of order 2. -/
theorem frob_char_gen : (2 : ℤ) • (frobT h2 hd (frobT h2 hd (gen h2 hd)) - trc a b • frobT h2 hd (gen h2 hd) +
    (q : ℤ) • gen h2 hd) = 0 := by
  apply hgt_zero_two h2
  have hp := hgt_para (a := a) (b := b) h2 hd
  have b1 := bil_frob h2 hd
  have b2 := bil_frob_sq h2 hd
  have b3 := bil_frob_frob h2 hd
  have h1 := hgt_frob_gen h2 hd
  have h3 := hgt_frobT h2 hd (frobT h2 hd (gen h2 hd))
  rw [h1] at h3
  have h4 := hgt_gen h2 hd
  generalize frobT h2 hd (frobT h2 hd (gen h2 hd)) = A at *
  generalize frobT h2 hd (gen h2 hd) = B at *
  generalize gen h2 hd = G at *
  generalize (q : ℤ) = Q at *
  generalize trc a b = t at *
  have e : A - t • B + Q • G = (1 : ℤ) • (A + (-t) • B) + Q • G := by rw [one_zsmul, neg_zsmul]; abel
  have e2 : A + (-t) • B = (1 : ℤ) • A + (-t) • B := by rw [one_zsmul]
  have k1 : hgt (A + (-t) • B) = Q ^ 2 - t * (Q * t) + t ^ 2 * Q := by
    rw [e2, quad_add hp, h3, h1, bil_comm, b3]; ring
  have k2 : bil hgt (A + (-t) • B) G = t ^ 2 - 2 * Q - t * t := by
    rw [bil_comm, bil_add hp, bil_zsmul hp, b1, b2]; ring
  rw [e, quad_add hp, k1, k2, h4]
  ring

end
end EC
