import Verif.Lemmas.MapScale
import Verif.Lemmas.Height

/-! Pure mathematics: on the points over `F(x)` of the curve `f Y^2 = X^3 + a X + b`, `f = x^3 + a x + b`, the degree of
`X` is a quadratic form. -/

namespace EC
open WeierstrassCurve EDS Polynomial

section
variable {M : Type*} [AddCommGroup M] {h : M → ℤ}

/-- The bilinear form of a function. -/
def bil (h : M → ℤ) (P Q : M) : ℤ := h (P + Q) - h P - h Q

theorem bil_comm (P Q : M) : bil h P Q = bil h Q P := by
  unfold bil; rw [add_comm]; ring

variable (hp : ∀ P Q : M, h (P + Q) + h (P - Q) = 2 * h P + 2 * h Q)
include hp

theorem bil_add (P Q R : M) : bil h P (Q + R) = bil h P Q + bil h P R := by
  have e1 := hp (P + Q) R
  have e2 := hp (P - R) Q
  have e3 := hp P (R + Q)
  have e4 := hp P R
  have c1 : P + Q + R = P + (Q + R) := by abel
  have c2 : P - R + Q = P + Q - R := by abel
  have c3 : P - R - Q = P - (R + Q) := by abel
  have c4 : R + Q = Q + R := by abel
  rw [c1] at e1
  rw [c2, c3] at e2
  rw [c4] at e2 e3
  unfold bil
  linarith

theorem bil_zsmul (P Q : M) (n : ℤ) : bil h P (n • Q) = n * bil h P Q := by
  have := map_zsmul (AddMonoidHom.mk' (bil h P) (bil_add hp P)) n Q
  simpa using this

theorem bil_self (P : M) : bil h P P = 2 * h P := by
  have e1 := hp P P
  have e0 := hp (0 : M) 0
  simp only [add_zero, sub_self] at e0 e1
  unfold bil
  linarith

theorem quad_zsmul (P : M) (n : ℤ) : h (n • P) = n ^ 2 * h P := by
  have e1 := bil_self hp (n • P)
  rw [bil_zsmul hp, bil_comm, bil_zsmul hp, bil_self hp] at e1
  linarith

theorem quad_add (P Q : M) (m n : ℤ) : h (m • P + n • Q) = m ^ 2 * h P + m * n * bil h P Q + n ^ 2 * h Q := by
  have e1 : h (m • P + n • Q) = bil h (m • P) (n • Q) + h (m • P) + h (n • Q) := by unfold bil; ring
  rw [e1, bil_zsmul hp, bil_comm, bil_zsmul hp, bil_comm, quad_zsmul hp, quad_zsmul hp]
  ring

end

section
variable {F : Type} [Field F] (a b : F)

/-- `f = x^3 + a x + b` as a polynomial. -/
noncomputable def cubic : F[X] := X ^ 3 + C a * X + C b

/-- `f` as a rational function. -/
noncomputable def fL : RatFunc F := algebraMap F[X] (RatFunc F) (cubic a b)

noncomputable instance : DecidableEq (RatFunc F) := Classical.decEq _

theorem cubic_natDegree : (cubic a b).natDegree = 3 := by
  unfold cubic
  compute_degree!

theorem cubic_ne : cubic a b ≠ 0 := by
  intro h
  have := cubic_natDegree a b
  rw [h] at this
  simp at this

theorem fL_ne : fL a b ≠ 0 := by
  unfold fL
  rw [Ne, map_eq_zero_iff _ (RatFunc.algebraMap_injective F)]
  exact cubic_ne a b

theorem fL_eq : fL a b = RatFunc.X ^ 3 + RatFunc.C a * RatFunc.X + RatFunc.C b := by
  unfold fL cubic
  simp

/-- Coefficients of the twisted curve in short form. -/
noncomputable abbrev tA : RatFunc F := RatFunc.C a * fL a b ^ 2
@[inherit_doc tA] noncomputable abbrev tB : RatFunc F := RatFunc.C b * fL a b ^ 3

/-- Points over `F(x)` of `f Y^2 = X^3 + a X + b`, in the coordinates `(f X, f^2 Y)`. -/
abbrev TPt := Pt (tA a b) (tB a b)

variable {a b}

/-- The coordinate `X`. -/
noncomputable def Xc (P : TPt a b) : RatFunc F := xc P / fL a b

/-- The height. -/
noncomputable def hgt (P : TPt a b) : ℤ := ht (Xc P)

theorem hgt_nonneg (P : TPt a b) : 0 ≤ hgt P := by unfold hgt; positivity

theorem hgt_zero : hgt (0 : TPt a b) = 0 := by
  have : Xc (0 : TPt a b) = RatFunc.C 0 := by
    unfold Xc
    rw [show xc (0 : TPt a b) = 0 from rfl]; simp
  unfold hgt
  rw [this, ht_C]; rfl

theorem xc_eq_Xc (P : TPt a b) : xc P = fL a b * Xc P := by
  unfold Xc
  rw [mul_div_cancel₀ _ (fL_ne a b)]

theorem hgt_neg (P : TPt a b) : hgt (-P) = hgt P := by
  unfold hgt Xc; rw [xc_neg]

theorem two_ne_ratFunc (h2 : (2 : F) ≠ 0) : (2 : RatFunc F) ≠ 0 := by
  intro h
  apply h2
  have : RatFunc.C (2 : F) = 0 := by rw [map_ofNat, h]
  exact (map_eq_zero RatFunc.C).1 this

theorem twist_disc (hd : 4 * a ^ 3 + 27 * b ^ 2 ≠ 0) : 4 * (tA a b) ^ 3 + 27 * (tB a b) ^ 2 ≠ 0 := by
  have : 4 * (tA a b) ^ 3 + 27 * (tB a b) ^ 2 = fL a b ^ 6 * RatFunc.C (4 * a ^ 3 + 27 * b ^ 2) := by
    simp only [map_add, map_mul, map_pow, map_ofNat]
    ring
  rw [this]
  exact mul_ne_zero (pow_ne_zero _ (fL_ne a b)) ((_root_.map_ne_zero _).2 hd)

theorem eqnX {P : TPt a b} (hP : P ≠ 0) :
    yc P ^ 2 = fL a b ^ 3 * (Xc P ^ 3 + RatFunc.C a * Xc P + RatFunc.C b) := by
  rw [eqn hP, xc_eq_Xc]
  ring

/-- Sum and product of `X(P + Q)` and `X(P - Q)`. -/
theorem Xc_add_sub {P Q : TPt a b} (hP : P ≠ 0) (hQ : Q ≠ 0) (h : Xc P ≠ Xc Q) :
    (Xc (P + Q) + Xc (P - Q)) * (Xc P - Xc Q) ^ 2 =
      2 * (Xc P + Xc Q) * (RatFunc.C a + Xc P * Xc Q) + 4 * RatFunc.C b ∧
    (Xc (P + Q) * Xc (P - Q)) * (Xc P - Xc Q) ^ 2 =
      (Xc P * Xc Q - RatFunc.C a) ^ 2 - 4 * RatFunc.C b * (Xc P + Xc Q) := by
  have hf := fL_ne a b
  have hx : xc P ≠ xc Q := fun h0 => h (by unfold Xc; rw [h0])
  have e1 := xc_add hP hQ hx
  have e2 : xc (P - Q) * (xc P - xc Q) ^ 2 = (yc P + yc Q) ^ 2 - (xc P + xc Q) * (xc P - xc Q) ^ 2 := by
    have := xc_add (A := P) (B := -Q) hP (by simpa using hQ) (by rwa [xc_neg])
    rw [xc_neg, yc_neg, ← sub_eq_add_neg] at this
    rw [this]; ring
  have p := eqnX hP
  have q := eqnX hQ
  simp only [xc_eq_Xc] at e1 e2
  have hd : Xc P - Xc Q ≠ 0 := sub_ne_zero.2 h
  generalize Xc (P + Q) = s at *
  generalize Xc (P - Q) = d at *
  generalize Xc P = u at *
  generalize Xc Q = v at *
  generalize yc P = y at *
  generalize yc Q = z at *
  generalize fL a b = f at *
  generalize RatFunc.C a = A at *
  generalize RatFunc.C b = B at *
  constructor
  · apply mul_left_cancel₀ (pow_ne_zero 3 hf)
    linear_combination e1 + e2 + 2 * p + 2 * q
  · apply mul_left_cancel₀ (pow_ne_zero 6 hf)
    apply mul_left_cancel₀ (pow_ne_zero 2 hd)
    have : (f * s * (f * u - f * v) ^ 2) * (f * d * (f * u - f * v) ^ 2) =
      ((y - z) ^ 2 - (f * u + f * v) * (f * u - f * v) ^ 2) * ((y + z) ^ 2 - (f * u + f * v) * (f * u - f * v) ^ 2) := by
      rw [e1, e2]
    linear_combination this + (y ^ 2 + f ^ 3 * (u ^ 3 + A * u + B) - 2 * z ^ 2 - 2 * f ^ 3 * (u + v) * (u - v) ^ 2) * p +
      (z ^ 2 + f ^ 3 * (v ^ 3 + A * v + B) - 2 * f ^ 3 * (u ^ 3 + A * u + B) - 2 * f ^ 3 * (u + v) * (u - v) ^ 2) * q

theorem hgt_add_sub_le_of_ne {P Q : TPt a b} (hP : P ≠ 0) (hQ : Q ≠ 0) (h : Xc P ≠ Xc Q) :
    hgt (P + Q) + hgt (P - Q) ≤ 2 * hgt P + 2 * hgt Q := by
  obtain ⟨e1, e2⟩ := Xc_add_sub hP hQ h
  unfold hgt
  generalize Xc (P + Q) = s at *
  generalize Xc (P - Q) = d at *
  generalize Xc P = r at *
  generalize Xc Q = t at *
  have hv := r.denom_ne_zero
  have hv' := t.denom_ne_zero
  have hr := RatFunc.num_div_denom r
  have hs := RatFunc.num_div_denom t
  have d1 : r.num.natDegree ≤ ht r := le_max_left _ _
  have d2 : r.denom.natDegree ≤ ht r := le_max_right _ _
  have d3 : t.num.natDegree ≤ ht t := le_max_left _ _
  have d4 : t.denom.natDegree ≤ ht t := le_max_right _ _
  generalize ht r = m at *
  generalize ht t = n at *
  generalize r.num = u at *
  generalize r.denom = v at *
  generalize t.num = u' at *
  generalize t.denom = v' at *
  have inj := RatFunc.algebraMap_injective F
  have hvL : algebraMap F[X] (RatFunc F) v ≠ 0 := by rwa [Ne, map_eq_zero_iff _ inj]
  have hvL' : algebraMap F[X] (RatFunc F) v' ≠ 0 := by rwa [Ne, map_eq_zero_iff _ inj]
  have b1 : (u * v').natDegree ≤ m + n := natDegree_mul_le_of_le d1 d4
  have b2 : (u' * v).natDegree ≤ m + n := by rw [add_comm m n]; exact natDegree_mul_le_of_le d3 d2
  have b3 : (u * u').natDegree ≤ m + n := natDegree_mul_le_of_le d1 d3
  have b4 : (v * v').natDegree ≤ m + n := natDegree_mul_le_of_le d2 d4
  have cm : ∀ (c p : F[X]), c.natDegree = 0 → p.natDegree ≤ m + n → (c * p).natDegree ≤ m + n := fun c p hc hp =>
    (natDegree_mul_le_of_le hc.le hp).trans (by omega)
  have c2 : (2 : F[X]).natDegree = 0 := natDegree_ofNat 2
  have c4 : (4 * C b : F[X]).natDegree = 0 := by
    rw [show (4 : F[X]) = C 4 from (map_ofNat C 4).symm, ← C_mul]; exact natDegree_C _
  have k : ht s + ht d ≤ 2 * m + 2 * n := by
    refine ht_add_ht_le (W := (u * v' - u' * v) ^ 2)
      (S := 2 * (u * v' + u' * v) * (C a * (v * v') + u * u') + 4 * C b * (v * v') ^ 2)
      (T := (u * u' - C a * (v * v')) ^ 2 - 4 * C b * (v * v') * (u * v' + u' * v)) ?_ ?_ ?_ ?_ ?_ ?_
    · refine pow_ne_zero 2 (sub_ne_zero.2 fun h0 => h ?_)
      rw [← hr, ← hs, div_eq_div_iff hvL hvL', ← map_mul, ← map_mul, h0]
    · rw [← hr, ← hs] at e1
      simp only [map_add, map_sub, map_mul, map_pow, map_ofNat, RatFunc.algebraMap_C]
      field_simp at e1
      linear_combination -e1
    · rw [← hr, ← hs] at e2
      simp only [map_add, map_sub, map_mul, map_pow, map_ofNat, RatFunc.algebraMap_C]
      field_simp at e2
      linear_combination -e2
    · refine (natDegree_pow_le_of_le 2 (natDegree_sub_le_of_le b1 b2)).trans ?_
      rw [max_self]; omega
    · refine (natDegree_add_le_of_le (natDegree_mul_le_of_le (cm _ _ c2 (natDegree_add_le_of_le b1 b2 |>.trans
        (max_self _).le)) (natDegree_add_le_of_le (cm _ _ (natDegree_C _) b4) b3))
        (natDegree_mul_le_of_le c4.le (natDegree_pow_le_of_le 2 b4))).trans ?_
      rw [max_self]
      refine max_le ?_ ?_ <;> omega
    · refine (natDegree_sub_le_of_le (natDegree_pow_le_of_le 2 (natDegree_sub_le_of_le b3 (cm _ _ (natDegree_C _) b4)))
        (natDegree_mul_le_of_le (cm _ _ c4 b4) (natDegree_add_le_of_le b1 b2))).trans ?_
      rw [max_self]
      refine max_le ?_ ?_ <;> omega
  exact_mod_cast k

/-! The generic point. -/

variable (h2 : (2 : F) ≠ 0) (hd : 4 * a ^ 3 + 27 * b ^ 2 ≠ 0)

theorem gen_eqn : (fL a b ^ 2) ^ 2 = (RatFunc.X * fL a b) ^ 3 + tA a b * (RatFunc.X * fL a b) + tB a b := by
  unfold tA tB
  have := fL_eq a b
  linear_combination fL a b ^ 3 * this

/-- The generic point `(x, 1)`. -/
noncomputable def gen : TPt a b :=
  .some (RatFunc.X * fL a b) (fL a b ^ 2) (nonsing_of (two_ne_ratFunc h2) (twist_disc hd) gen_eqn)

theorem gen_ne : gen h2 hd ≠ 0 := Affine.Point.some_ne_zero _

theorem Xc_gen : Xc (gen h2 hd) = RatFunc.X := by
  unfold Xc
  rw [show xc (gen h2 hd) = RatFunc.X * fL a b from rfl, mul_div_cancel_right₀ _ (fL_ne a b)]

theorem yc_gen : yc (gen h2 hd) = fL a b ^ 2 := rfl

theorem hgt_gen : hgt (gen h2 hd) = 1 := by
  unfold hgt; rw [Xc_gen, ht_X]; rfl

/-! Substituting a point into the generic point. -/

section subst
variable {K : Type} [Field K] [Algebra F K]

theorem subst_fL {s : K} (hs : Transcendental F s) :
    substX hs (fL a b) = s ^ 3 + algebraMap F K a * s + algebraMap F K b := by
  rw [fL_eq]
  simp only [map_add, map_mul, map_pow, substX_X, substX_C]

end subst

theorem Xc_nonconst {P : TPt a b} (h : hgt P ≠ 0) : P ≠ 0 ∧ Transcendental F (Xc P) := by
  refine ⟨?_, ?_⟩
  · rintro rfl; exact h hgt_zero
  · refine RatFunc.transcendental_of_ne_C _ ?_
    rintro ⟨c, hc⟩
    apply h
    unfold hgt
    rw [hc, ht_C]; rfl

theorem subst_fL_twist {P : TPt a b} (hP : P ≠ 0) (hs : Transcendental F (Xc P)) :
    yc P ^ 2 = fL a b ^ 3 * substX hs (fL a b) := by
  rw [subst_fL, eqnX hP]; rfl

theorem yc_ne_of_transc {P : TPt a b} (hP : P ≠ 0) (hs : Transcendental F (Xc P)) : yc P ≠ 0 := by
  intro h0
  have := subst_fL_twist hP hs
  rw [h0] at this
  exact mul_ne_zero (pow_ne_zero 3 (fL_ne a b)) ((_root_.map_ne_zero _).2 (fL_ne a b)) (this.symm.trans (by simp))

theorem comp_ha {P : TPt a b} (hP : P ≠ 0) (hs : Transcendental F (Xc P)) :
    tA a b = (fL a b ^ 2 / yc P) ^ 4 * (substX hs).toRingHom (tA a b) := by
  have h1 := subst_fL_twist hP hs
  have h3 := yc_ne_of_transc hP hs
  show _ = _ * substX hs (tA a b)
  rw [map_mul, map_pow, substX_C]
  field_simp
  rw [show yc P ^ 4 = (yc P ^ 2) ^ 2 by ring, h1]
  rw [RatFunc.algebraMap_eq_C]
  ring

theorem comp_hb {P : TPt a b} (hP : P ≠ 0) (hs : Transcendental F (Xc P)) :
    tB a b = (fL a b ^ 2 / yc P) ^ 6 * (substX hs).toRingHom (tB a b) := by
  have h1 := subst_fL_twist hP hs
  have h3 := yc_ne_of_transc hP hs
  show _ = _ * substX hs (tB a b)
  rw [map_mul, map_pow, substX_C]
  field_simp
  rw [show yc P ^ 6 = (yc P ^ 2) ^ 3 by ring, h1]
  rw [RatFunc.algebraMap_eq_C]
  ring

/-- The endomorphism of the twisted curve that maps the generic point to `P`. -/
noncomputable def compHom {P : TPt a b} (hP : P ≠ 0) (hs : Transcendental F (Xc P)) : TPt a b →+ TPt a b :=
  scaleHom (substX hs).toRingHom (fL a b ^ 2 / yc P) (two_ne_ratFunc h2) (twist_disc hd) (comp_ha hP hs) (comp_hb hP hs)
    (div_ne_zero (pow_ne_zero 2 (fL_ne a b)) (yc_ne_of_transc hP hs))

theorem compHom_ne {P : TPt a b} (hP : P ≠ 0) (hs : Transcendental F (Xc P)) {Q : TPt a b} (hQ : Q ≠ 0) :
    compHom h2 hd hP hs Q ≠ 0 ∧ Xc (compHom h2 hd hP hs Q) = substX hs (Xc Q) ∧
      yc (compHom h2 hd hP hs Q) = (fL a b ^ 2 / yc P) ^ 3 * substX hs (yc Q) := by
  obtain ⟨p1, p2, p3⟩ := scaleFun_ne (substX hs).toRingHom (fL a b ^ 2 / yc P) (two_ne_ratFunc h2) (twist_disc hd)
    (comp_ha hP hs) (comp_hb hP hs) hQ
  refine ⟨p1, ?_, p3⟩
  have h1 := subst_fL_twist hP hs
  have h3 := yc_ne_of_transc hP hs
  have hf := fL_ne a b
  have hsf : substX hs (fL a b) ≠ 0 := (_root_.map_ne_zero _).2 hf
  unfold Xc
  rw [map_div₀]
  refine (congrArg (· / fL a b) p2).trans ?_
  have key : ∀ f y s x : RatFunc F, f ≠ 0 → s ≠ 0 → y ^ 2 = f ^ 3 * s → (f ^ 2 / y) ^ 2 * x / f = x / s := by
    intro f y s x hf hs e
    rw [div_pow, e]
    field_simp
  exact key _ _ _ _ hf hsf h1

theorem compHom_gen {P : TPt a b} (hP : P ≠ 0) (hs : Transcendental F (Xc P)) :
    compHom h2 hd hP hs (gen h2 hd) = P := by
  obtain ⟨p1, p2, p3⟩ := compHom_ne h2 hd hP hs (gen_ne h2 hd)
  refine EDS.ext p1 hP ?_ ?_
  · rw [xc_eq_Xc, p2, Xc_gen, substX_X, xc_eq_Xc]
  · have h1 := subst_fL_twist hP hs
    have h3 := yc_ne_of_transc hP hs
    have hf := fL_ne a b
    rw [p3, yc_gen, map_pow]
    apply mul_left_cancel₀ (pow_ne_zero 6 hf)
    have : fL a b ^ 6 * substX hs (fL a b) ^ 2 = yc P ^ 4 := by
      rw [show yc P ^ 4 = (yc P ^ 2) ^ 2 by ring, h1]; ring
    calc fL a b ^ 6 * ((fL a b ^ 2 / yc P) ^ 3 * substX hs (fL a b) ^ 2)
        = (fL a b ^ 2 / yc P) ^ 3 * (fL a b ^ 6 * substX hs (fL a b) ^ 2) := by ring
      _ = _ := by rw [this]; field_simp

theorem hgt_comp {P : TPt a b} (hP : P ≠ 0) (hs : Transcendental F (Xc P)) (Q : TPt a b) :
    hgt (compHom h2 hd hP hs Q) = hgt P * hgt Q := by
  by_cases hQ : Q = 0
  · rw [hQ, map_zero, hgt_zero, mul_zero]
  · unfold hgt
    rw [(compHom_ne h2 hd hP hs hQ).2.1, ht_comp, substX_X]
    push_cast; rfl

/-! Doubling. -/

theorem Xc_double {P : TPt a b} (h2 : (2 : F) ≠ 0) (hP : P ≠ 0) (hy : yc P ≠ 0) :
    Xc (P + P) * (4 * (Xc P ^ 3 + RatFunc.C a * Xc P + RatFunc.C b)) =
      Xc P ^ 4 - 2 * RatFunc.C a * Xc P ^ 2 - 8 * RatFunc.C b * Xc P + RatFunc.C a ^ 2 := by
  have e := xc_double (two_ne_ratFunc h2) hP hy
  have p := eqnX hP
  have hf := fL_ne a b
  simp only [xc_eq_Xc] at e
  apply mul_left_cancel₀ (pow_ne_zero 4 hf)
  linear_combination e - 4 * (fL a b * Xc (P + P) + 2 * fL a b * Xc P) * p

theorem hgt_two_gen : hgt (gen h2 hd + gen h2 hd) = 4 := by
  have e := Xc_double h2 (gen_ne h2 hd) (by rw [yc_gen]; exact pow_ne_zero 2 (fL_ne a b))
  rw [Xc_gen, ← fL_eq] at e
  have h4 : (4 : F) ≠ 0 := by
    rw [show (4 : F) = 2 * 2 by norm_num]; exact mul_ne_zero h2 h2
  set N : F[X] := X ^ 4 - 2 * C a * X ^ 2 - 8 * C b * X + C a ^ 2 with hN
  have e' : Xc (gen h2 hd + gen h2 hd) = algebraMap F[X] (RatFunc F) N / algebraMap F[X] (RatFunc F) (C 4 * cubic a b) := by
    rw [eq_div_iff]
    · rw [hN]
      simp only [map_add, map_sub, map_mul, map_pow, map_ofNat, RatFunc.algebraMap_C, RatFunc.algebraMap_X]
      exact e
    · rw [Ne, map_eq_zero_iff _ (RatFunc.algebraMap_injective F)]
      exact mul_ne_zero (C_ne_zero.2 h4) (cubic_ne a b)
  unfold hgt
  have dN : N.natDegree = 4 := by
    rw [hN]
    have : X ^ 4 - 2 * C a * X ^ 2 - 8 * C b * X + C a ^ 2 = X ^ 4 - C (2 * a) * X ^ 2 - C (8 * b) * X + C (a ^ 2) := by
      simp only [map_mul, map_pow, map_ofNat]
    rw [this]
    compute_degree!
  rw [e', ht_div, dN, natDegree_C_mul h4, cubic_natDegree]
  · rfl
  · have hu : IsUnit (C (4 : F)) := isUnit_C.2 (isUnit_iff_ne_zero.2 h4)
    refine (isCoprime_mul_unit_left_right hu N (cubic a b)).2 ?_
    refine ⟨C (4 * a ^ 3 + 27 * b ^ 2)⁻¹ * (3 * X ^ 2 + 4 * C a),
      -C (4 * a ^ 3 + 27 * b ^ 2)⁻¹ * (3 * X ^ 3 - 5 * C a * X - 27 * C b), ?_⟩
    have k : C (4 * a ^ 3 + 27 * b ^ 2)⁻¹ * C (4 * a ^ 3 + 27 * b ^ 2) = 1 := by
      rw [← C_mul, inv_mul_cancel₀ hd, C_1]
    rw [← k, hN]
    unfold cubic
    simp only [C_add, C_mul, C_pow, map_ofNat]
    ring
  · exact mul_ne_zero (C_ne_zero.2 h4) (cubic_ne a b)

include h2 hd

theorem hgt_two (P : TPt a b) : hgt (P + P) = 4 * hgt P := by
  by_cases h0 : hgt P = 0
  · rw [h0]
    by_cases hP : P = 0
    · rw [hP, add_zero, hgt_zero]; rfl
    obtain ⟨c, hc⟩ := ht_eq_zero (r := Xc P) (by unfold hgt at h0; exact_mod_cast h0)
    by_cases hy : yc P = 0
    · rw [(two_nsmul_eq_zero_iff (two_ne_ratFunc h2) hP).2 hy, hgt_zero]; rfl
    · have e := Xc_double h2 hP hy
      have p := eqnX hP
      have hne : Xc P ^ 3 + RatFunc.C a * Xc P + RatFunc.C b ≠ 0 := by
        intro h
        rw [h, mul_zero] at p
        exact hy (pow_eq_zero_iff (two_ne_zero) |>.1 p)
      have h4 : (4 : RatFunc F) ≠ 0 := by
        rw [show (4 : RatFunc F) = 2 * 2 by norm_num]; exact mul_ne_zero (two_ne_ratFunc h2) (two_ne_ratFunc h2)
      have : Xc (P + P) = RatFunc.C ((c ^ 4 - 2 * a * c ^ 2 - 8 * b * c + a ^ 2) / (4 * (c ^ 3 + a * c + b))) := by
        rw [map_div₀]
        have : RatFunc.C (4 * (c ^ 3 + a * c + b)) = 4 * (Xc P ^ 3 + RatFunc.C a * Xc P + RatFunc.C b) := by
          rw [hc]; simp only [map_add, map_mul, map_pow, map_ofNat]
        rw [this, eq_div_iff (mul_ne_zero h4 hne), e, hc]
        simp only [map_add, map_sub, map_mul, map_pow, map_ofNat]
      unfold hgt
      rw [this, ht_C]; rfl
  · obtain ⟨hP, hs⟩ := Xc_nonconst h0
    have := hgt_comp h2 hd hP hs (gen h2 hd + gen h2 hd)
    rw [map_add, compHom_gen, hgt_two_gen] at this
    rw [this]; ring

theorem hgt_add_sub_le (P Q : TPt a b) : hgt (P + Q) + hgt (P - Q) ≤ 2 * hgt P + 2 * hgt Q := by
  by_cases hP : P = 0
  · rw [hP, zero_add, zero_sub, hgt_neg, hgt_zero]; omega
  by_cases hQ : Q = 0
  · rw [hQ, add_zero, sub_zero, hgt_zero]; omega
  by_cases h : Xc P = Xc Q
  · have hx : xc P = xc Q := by rw [xc_eq_Xc, xc_eq_Xc, h]
    rcases (xc_eq_iff hP hQ).1 hx with rfl | rfl
    · rw [sub_self, hgt_zero, hgt_two h2 hd]; omega
    · rw [neg_add_cancel, hgt_zero, ← neg_add', hgt_neg, hgt_neg, hgt_two h2 hd]; omega
  · exact hgt_add_sub_le_of_ne hP hQ h

/-- The parallelogram law. -/
theorem hgt_para (P Q : TPt a b) : hgt (P + Q) + hgt (P - Q) = 2 * hgt P + 2 * hgt Q := by
  have e1 := hgt_add_sub_le h2 hd P Q
  have e2 := hgt_add_sub_le h2 hd (P + Q) (P - Q)
  have c1 : P + Q + (P - Q) = P + P := by abel
  have c2 : P + Q - (P - Q) = Q + Q := by abel
  rw [c1, c2, hgt_two h2 hd, hgt_two h2 hd] at e2
  omega

end
end EC
