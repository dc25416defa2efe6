import Verif.Lemmas.RatDeriv
import Verif.Lemmas.FrobChar

/-! Pure mathematics: the invariant differential `dX / Y` is additive on the points over `F(x)` of
`f Y^2 = X^3 + a X + b`. -/

namespace EC
open EDS Polynomial

section core
variable {L : Type} [Field L]

/-- The common part of the chord and the tangent computation. -/
theorem diff_core {f f' a l dl X1 Y1 X2 Y2 X3 Y3 dX3 dY3 w1 w2 dY1 : L}
    (K1 : 3 * X1 ^ 2 + a - 2 * f * l * Y1 = (X1 - X2) * (X1 - X3)) (hl : f * l ^ 2 = X1 + X2 + X3)
    (M : 2 * f * dl = w2 * (X2 - X3) + w1 * (X1 - X3) - f' * l)
    (e1 : Y3 = l * (X1 - X3) - Y1) (e2 : Y3 = l * (X2 - X3) - Y2)
    (d1 : 2 * f * dY1 + f' * Y1 = (3 * X1 ^ 2 + a) * w1)
    (dx : dX3 = f' * l ^ 2 + 2 * f * l * dl - w1 * Y1 - w2 * Y2)
    (dy : dY3 = dl * (X1 - X3) + l * (w1 * Y1 - dX3) - dY1) :
    dX3 = (w1 + w2) * Y3 ∧ 2 * f * dY3 + f' * Y3 = (3 * X3 ^ 2 + a) * (w1 + w2) := by
  have h1 : dX3 = (w1 + w2) * Y3 := by
    rw [dx]
    linear_combination l * M - w1 * e1 - w2 * e2
  refine ⟨h1, ?_⟩
  have K3 : 3 * X3 ^ 2 + a + 2 * f * l * Y3 = (X3 - X1) * (X3 - X2) := by
    rw [e1]
    linear_combination K1 + 2 * (X1 - X3) * hl
  rw [dy, h1]
  linear_combination (X1 - X3) * M - d1 - w1 * K1 + f' * e1 - (w1 + w2) * K3

/-- Chord. -/
theorem diff_chord {f f' a b l dl X1 Y1 X2 Y2 X3 Y3 dX3 dY3 w1 w2 dY1 dY2 : L} (hX : X2 - X1 ≠ 0)
    (c1 : f * Y1 ^ 2 = X1 ^ 3 + a * X1 + b) (c2 : f * Y2 ^ 2 = X2 ^ 3 + a * X2 + b)
    (hl : l * (X2 - X1) = Y2 - Y1) (hdl : dl * (X2 - X1) + l * (w2 * Y2 - w1 * Y1) = dY2 - dY1)
    (x3 : X3 = f * l ^ 2 - X1 - X2) (e1 : Y3 = l * (X1 - X3) - Y1)
    (d1 : 2 * f * dY1 + f' * Y1 = (3 * X1 ^ 2 + a) * w1) (d2 : 2 * f * dY2 + f' * Y2 = (3 * X2 ^ 2 + a) * w2)
    (dx : dX3 = f' * l ^ 2 + 2 * f * l * dl - w1 * Y1 - w2 * Y2)
    (dy : dY3 = dl * (X1 - X3) + l * (w1 * Y1 - dX3) - dY1) :
    dX3 = (w1 + w2) * Y3 ∧ 2 * f * dY3 + f' * Y3 = (3 * X3 ^ 2 + a) * (w1 + w2) := by
  have k0 : 2 * f * Y1 * l + f * l ^ 2 * (X2 - X1) = X2 ^ 2 + X1 * X2 + X1 ^ 2 + a := by
    apply mul_right_cancel₀ hX
    have hY : Y2 = Y1 + l * (X2 - X1) := by rw [hl]; ring
    rw [hY] at c2
    linear_combination c2 - c1
  have K1 : 3 * X1 ^ 2 + a - 2 * f * l * Y1 = (X1 - X2) * (X1 - X3) := by
    rw [x3]; linear_combination -k0
  have K2 : 3 * X2 ^ 2 + a - 2 * f * l * Y2 = (X2 - X1) * (X2 - X3) := by
    have hY : Y2 = Y1 + l * (X2 - X1) := by rw [hl]; ring
    rw [x3, hY]; linear_combination -k0
  have e2 : Y3 = l * (X2 - X3) - Y2 := by rw [e1]; linear_combination -hl
  refine diff_core K1 (by rw [x3]; ring) ?_ e1 e2 d1 dx dy
  apply mul_right_cancel₀ hX
  linear_combination 2 * f * hdl + d2 - d1 + w2 * K2 - w1 * K1 + f' * hl

/-- Tangent. -/
theorem diff_tangent {f f' a l dl X1 Y1 X3 Y3 dX3 dY3 w dY1 : L} (hY : Y1 ≠ 0)
    (hl : l * (2 * f * Y1) = 3 * X1 ^ 2 + a)
    (hdl : dl * (2 * f * Y1) + l * (2 * (f' * Y1 + f * dY1)) = 6 * X1 * (w * Y1))
    (x3 : X3 = f * l ^ 2 - X1 - X1) (e1 : Y3 = l * (X1 - X3) - Y1)
    (d1 : 2 * f * dY1 + f' * Y1 = (3 * X1 ^ 2 + a) * w)
    (dx : dX3 = f' * l ^ 2 + 2 * f * l * dl - w * Y1 - w * Y1)
    (dy : dY3 = dl * (X1 - X3) + l * (w * Y1 - dX3) - dY1) :
    dX3 = (w + w) * Y3 ∧ 2 * f * dY3 + f' * Y3 = (3 * X3 ^ 2 + a) * (w + w) := by
  refine diff_core (by linear_combination -hl) (by rw [x3]; ring) ?_ e1 e1 d1 dx dy
  apply mul_right_cancel₀ hY
  rw [x3]
  linear_combination hdl - l * d1 + l * w * hl

end core

section
variable {F : Type} [Field F] {a b : F}

/-- The coordinate `Y`. -/
noncomputable def Yc (P : TPt a b) : RatFunc F := yc P / fL a b ^ 2

theorem yc_eq_Yc (P : TPt a b) : yc P = fL a b ^ 2 * Yc P := by
  unfold Yc
  rw [mul_div_cancel₀ _ (pow_ne_zero 2 (fL_ne a b))]

theorem eqnXY {P : TPt a b} (hP : P ≠ 0) : fL a b * Yc P ^ 2 = Xc P ^ 3 + RatFunc.C a * Xc P + RatFunc.C b := by
  have h := eqnX hP
  rw [yc_eq_Yc] at h
  have hf := pow_ne_zero 3 (fL_ne a b)
  apply mul_left_cancel₀ hf
  rw [← h]; ring

/-- `w` is the value of the invariant differential at `P`. -/
def IsDiff (P : TPt a b) (w : RatFunc F) : Prop :=
  (P = 0 → w = 0) ∧ (P ≠ 0 → rD (Xc P) = w * Yc P ∧
    2 * fL a b * rD (Yc P) + rD (fL a b) * Yc P = (3 * Xc P ^ 2 + RatFunc.C a) * w)

theorem isDiff_zero : IsDiff (0 : TPt a b) 0 := ⟨fun _ => rfl, fun h => absurd rfl h⟩

theorem IsDiff.neg {P : TPt a b} {w : RatFunc F} (h : IsDiff P w) : IsDiff (-P) (-w) := by
  refine ⟨fun h0 => ?_, fun h0 => ?_⟩
  · rw [h.1 (neg_eq_zero.1 h0), neg_zero]
  · obtain ⟨h1, h3⟩ := h.2 (neg_ne_zero.1 h0)
    have ex : Xc (-P) = Xc P := by unfold Xc; rw [xc_neg]
    have ey : Yc (-P) = -Yc P := by unfold Yc; rw [yc_neg, neg_div]
    rw [ex, ey, rD_neg, h1]
    refine ⟨by ring, ?_⟩
    linear_combination -h3

variable (h2 : (2 : F) ≠ 0) (hd : 4 * a ^ 3 + 27 * b ^ 2 ≠ 0)
include h2 hd

theorem deriv_ne {P : TPt a b} (hP : P ≠ 0) (hy : Yc P = 0) : 3 * Xc P ^ 2 + RatFunc.C a ≠ 0 := by
  intro h
  have e := eqnXY hP
  rw [hy] at e
  have : RatFunc.C (4 * a ^ 3 + 27 * b ^ 2) = 0 := by
    simp only [map_add, map_mul, map_pow, map_ofNat]
    set A := RatFunc.C a
    set B := RatFunc.C b
    set x := Xc P
    linear_combination (9 * x ^ 4 + 15 * A * x ^ 2 + 4 * A ^ 2) * h - (27 * B - 27 * x ^ 3 - 27 * A * x) * e
  exact hd ((map_eq_zero RatFunc.C).1 this)

theorem IsDiff.unique {P : TPt a b} {w w' : RatFunc F} (h : IsDiff P w) (h' : IsDiff P w') : w = w' := by
  by_cases hP : P = 0
  · rw [h.1 hP, h'.1 hP]
  obtain ⟨e1, e2⟩ := h.2 hP
  obtain ⟨e1', e2'⟩ := h'.2 hP
  by_cases hy : Yc P = 0
  · exact mul_left_cancel₀ (deriv_ne h2 hd hP hy) (e2.symm.trans e2')
  · exact mul_right_cancel₀ hy (e1.symm.trans e1')

theorem IsDiff.add {P Q : TPt a b} {w1 w2 : RatFunc F} (h1 : IsDiff P w1) (h3 : IsDiff Q w2) : IsDiff (P + Q) (w1 + w2) := by
  have h2' := two_ne_ratFunc (F := F) h2
  have hf := fL_ne a b
  by_cases hP : P = 0
  · rw [h1.1 hP, hP, zero_add, zero_add]; exact h3
  by_cases hQ : Q = 0
  · rw [h3.1 hQ, hQ, add_zero, add_zero]; exact h1
  obtain ⟨p1, p2⟩ := h1.2 hP
  obtain ⟨q1, q2⟩ := h3.2 hQ
  by_cases hx : xc P = xc Q
  · rcases (xc_eq_iff hP hQ).1 hx with rfl | rfl
    · obtain rfl := h1.unique h2 hd h3
      by_cases hy : Yc P = 0
      · have w0 : w1 = 0 := by
          rw [hy, rD_zero, mul_zero, mul_zero, add_zero] at p2
          exact (mul_eq_zero.1 p2.symm).resolve_left (deriv_ne h2 hd hP hy)
        have : P + P = 0 := by
          rw [two_nsmul_eq_zero_iff h2' hP, yc_eq_Yc, hy, mul_zero]
        rw [this, w0, add_zero]
        exact isDiff_zero
      · have hyc : yc P ≠ 0 := by rw [yc_eq_Yc]; exact mul_ne_zero (pow_ne_zero 2 hf) hy
        have hs : P + P ≠ 0 := fun h0 => hyc ((two_nsmul_eq_zero_iff h2' hP).1 h0)
        refine ⟨fun h0 => absurd h0 hs, fun _ => ?_⟩
        set l := (3 * Xc P ^ 2 + RatFunc.C a) / (2 * fL a b * Yc P) with hl
        have hne : 2 * fL a b * Yc P ≠ 0 := mul_ne_zero (mul_ne_zero h2' hf) hy
        have hl' : l * (2 * fL a b * Yc P) = 3 * Xc P ^ 2 + RatFunc.C a := div_mul_cancel₀ _ hne
        have x3 : Xc (P + P) = fL a b * l ^ 2 - Xc P - Xc P := by
          have e := xc_double h2' hP hyc
          rw [xc_eq_Xc, xc_eq_Xc, yc_eq_Yc] at e
          have hz : fL a b * (2 * (fL a b ^ 2 * Yc P)) ^ 2 ≠ 0 :=
            mul_ne_zero hf (pow_ne_zero 2 (mul_ne_zero h2' (mul_ne_zero (pow_ne_zero 2 hf) hy)))
          apply mul_right_cancel₀ hz
          have e' : (3 * Xc P ^ 2 + RatFunc.C a) ^ 2 = (l * (2 * fL a b * Yc P)) ^ 2 := by rw [hl']
          unfold tA at e
          linear_combination e + fL a b ^ 4 * e'
        have y3 : Yc (P + P) = l * (Xc P - Xc (P + P)) - Yc P := by
          have e := yc_double h2' hP hyc
          rw [xc_eq_Xc, xc_eq_Xc, yc_eq_Yc, yc_eq_Yc] at e
          have hz : fL a b ^ 4 * (2 * Yc P) ≠ 0 := mul_ne_zero (pow_ne_zero 4 hf) (mul_ne_zero h2' hy)
          apply mul_right_cancel₀ hz
          unfold tA at e
          linear_combination e - fL a b ^ 3 * (Xc P - Xc (P + P)) * hl'
        have d2' : rD (2 : RatFunc F) = 0 := rD_ofNat 2
        have d3' : rD (3 : RatFunc F) = 0 := rD_ofNat 3
        have dl := congrArg rD hl'
        simp only [rD_mul, rD_add, rD_pow, rD_C, d2', d3'] at dl
        have dx := congrArg rD x3
        simp only [rD_mul, rD_sub, rD_pow] at dx
        have dy := congrArg rD y3
        simp only [rD_mul, rD_sub] at dy
        rw [p1] at dl dx dy
        refine diff_tangent hy hl' (dl := rD l) ?_ x3 y3 p2 ?_ dy
        · push_cast at dl
          linear_combination dl
        · push_cast at dx
          rw [dx]; ring
    · have := h1.unique h2 hd h3.neg
      rw [this, neg_add_cancel, neg_add_cancel]
      exact isDiff_zero
  · have hs : P + Q ≠ 0 := by
      intro h0
      apply hx
      rw [eq_neg_of_add_eq_zero_left h0, xc_neg]
    refine ⟨fun h0 => absurd h0 hs, fun _ => ?_⟩
    have hX : Xc Q - Xc P ≠ 0 := by
      intro h0
      apply hx
      rw [xc_eq_Xc, xc_eq_Xc, sub_eq_zero.1 h0]
    set l := (Yc Q - Yc P) / (Xc Q - Xc P) with hl
    have hl' : l * (Xc Q - Xc P) = Yc Q - Yc P := div_mul_cancel₀ _ hX
    have x3 : Xc (P + Q) = fL a b * l ^ 2 - Xc P - Xc Q := by
      have e := xc_add hP hQ hx
      rw [xc_eq_Xc, xc_eq_Xc P, xc_eq_Xc Q, yc_eq_Yc, yc_eq_Yc] at e
      have hz : fL a b ^ 3 * (Xc Q - Xc P) ^ 2 ≠ 0 := mul_ne_zero (pow_ne_zero 3 hf) (pow_ne_zero 2 hX)
      apply mul_right_cancel₀ hz
      have e' : (Yc Q - Yc P) ^ 2 = (l * (Xc Q - Xc P)) ^ 2 := by rw [hl']
      linear_combination e + fL a b ^ 4 * e'
    have y3 : Yc (P + Q) = l * (Xc P - Xc (P + Q)) - Yc P := by
      have e := yc_add hP hQ hx
      rw [xc_eq_Xc, xc_eq_Xc Q, xc_eq_Xc (P + Q), yc_eq_Yc, yc_eq_Yc P, yc_eq_Yc Q] at e
      have hz : fL a b ^ 3 * (Xc Q - Xc P) ≠ 0 := mul_ne_zero (pow_ne_zero 3 hf) hX
      apply mul_right_cancel₀ hz
      linear_combination -e - fL a b ^ 3 * (Xc P - Xc (P + Q)) * hl'
    have dl := congrArg rD hl'
    simp only [rD_mul, rD_sub] at dl
    have dx := congrArg rD x3
    simp only [rD_mul, rD_sub, rD_pow] at dx
    have dy := congrArg rD y3
    simp only [rD_mul, rD_sub] at dy
    rw [p1] at dx dy
    rw [p1, q1] at dl
    rw [q1] at dx
    refine diff_chord hX (eqnXY hP) (eqnXY hQ) hl' (dl := rD l) dl x3 y3 p2 q2 ?_ dy
    push_cast at dx
    rw [dx]; ring

theorem IsDiff.nsmul {P : TPt a b} {w : RatFunc F} (h : IsDiff P w) (n : ℕ) : IsDiff (n • P) (n * w) := by
  induction n with
  | zero => rw [zero_nsmul, Nat.cast_zero, zero_mul]; exact isDiff_zero
  | succ n ih =>
    rw [succ_nsmul, Nat.cast_succ, add_mul, one_mul]
    exact ih.add h2 hd h

theorem IsDiff.zsmul {P : TPt a b} {w : RatFunc F} (h : IsDiff P w) (n : ℤ) : IsDiff (n • P) (n * w) := by
  obtain ⟨k, rfl | rfl⟩ := n.eq_nat_or_neg
  · rw [natCast_zsmul, Int.cast_natCast]; exact h.nsmul h2 hd k
  · rw [neg_zsmul, natCast_zsmul, Int.cast_neg, Int.cast_natCast, neg_mul]
    exact (h.nsmul h2 hd k).neg

theorem rD_fL : rD (fL a b) = 3 * RatFunc.X ^ 2 + RatFunc.C a := by
  rw [fL_eq]
  simp only [rD_add, rD_mul, rD_pow, rD_C, rD_X]
  push_cast
  ring

theorem isDiff_gen : IsDiff (gen h2 hd) 1 := by
  refine ⟨fun h0 => absurd h0 (gen_ne h2 hd), fun _ => ?_⟩
  have hy : Yc (gen h2 hd) = 1 := by
    unfold Yc
    rw [yc_gen, div_self (pow_ne_zero 2 (fL_ne a b))]
  have h1 : rD (1 : RatFunc F) = 0 := by
    have := rD_C (1 : F)
    rwa [map_one] at this
  rw [Xc_gen, hy, rD_X, h1, rD_fL h2 hd]
  exact ⟨by ring, by ring⟩

variable [Fintype F] [DecidableEq F]

theorem isDiff_frob : IsDiff (frobT h2 hd (gen h2 hd)) 0 := by
  obtain ⟨p1, p2, p3⟩ := frobT_ne h2 hd (gen_ne h2 hd)
  refine ⟨fun _ => rfl, fun _ => ?_⟩
  have hc : ((Fintype.card F : ℕ) : RatFunc F) = 0 := by
    have : RatFunc.C ((Fintype.card F : ℕ) : F) = 0 := by rw [Nat.cast_card_eq_zero, map_zero]
    rwa [map_natCast] at this
  have hf := fL_ne a b
  have hy : Yc (frobT h2 hd (gen h2 hd)) = fL a b ^ mhalf F := by
    unfold Yc
    rw [p3, yc_gen, div_eq_iff (pow_ne_zero 2 hf), inv_pow, inv_mul_eq_iff_eq_mul₀ (pow_ne_zero 3 (pow_ne_zero _ hf)),
      ← pow_mul, ← pow_mul, ← pow_add, ← pow_add, card_eq h2]
    congr 1
    ring
  rw [p2, hy, Xc_gen, rD_pow, rD_pow, hc, zero_mul, zero_mul, zero_mul, mul_zero]
  refine ⟨rfl, ?_⟩
  have hm : 0 < mhalf F := by
    have := card_eq (F := F) h2
    have := Fintype.one_lt_card (α := F)
    omega
  obtain ⟨k, hk⟩ : ∃ k, mhalf F = k + 1 := ⟨mhalf F - 1, by omega⟩
  have hc' : (2 * (mhalf F : RatFunc F) + 1) = 0 := by
    rw [← hc, card_eq h2]; push_cast; ring
  rw [hk] at hc' ⊢
  rw [Nat.add_sub_cancel]
  push_cast at hc' ⊢
  linear_combination fL a b ^ (k + 1) * rD (fL a b) * hc'

/-- The derivative of the `X`-coordinate of `F + v` at the generic point vanishes only if `p ∣ v`. -/
theorem rD_frob_add_ne (v : ℤ) (hv : (v : F) ≠ 0) (hne : frobT h2 hd (gen h2 hd) + v • gen h2 hd ≠ 0) :
    rD (Xc (frobT h2 hd (gen h2 hd) + v • gen h2 hd)) ≠ 0 := by
  have h := (isDiff_frob h2 hd).add h2 hd ((isDiff_gen h2 hd).zsmul h2 hd v)
  rw [zero_add, mul_one] at h
  obtain ⟨e1, e2⟩ := h.2 hne
  have hv' : (v : RatFunc F) ≠ 0 := by
    rw [← map_intCast (RatFunc.C : F →+* RatFunc F)]
    exact (_root_.map_ne_zero _).2 hv
  rw [e1]
  refine mul_ne_zero hv' fun hy => ?_
  have h3 := deriv_ne h2 hd hne hy
  rw [hy, rD_zero, mul_zero, mul_zero, add_zero] at e2
  exact mul_ne_zero h3 hv' e2.symm

end
end EC
