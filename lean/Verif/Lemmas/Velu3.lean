import Verif.Lemmas.Velu
import Mathlib.LinearAlgebra.Matrix.Determinant.Basic
import Mathlib.LinearAlgebra.Matrix.ToLinearEquiv
import Mathlib.Algebra.Polynomial.FieldDivision

/-! Vélu's formulas for degree 3 and the polynomial `Φ_3`. -/

namespace EC

variable {K : Type*} [Field K]

/-- The classical `Φ_3`. -/
def Phi3 {R : Type*} [CommRing R] (X Y : R) : R :=
  X ^ 4 + Y ^ 4 - X ^ 3 * Y ^ 3 + 2232 * (X ^ 3 * Y ^ 2 + X ^ 2 * Y ^ 3) - 1069956 * (X ^ 3 * Y + X * Y ^ 3) +
    36864000 * (X ^ 3 + Y ^ 3) + 2587918086 * (X ^ 2 * Y ^ 2) + 8900222976000 * (X ^ 2 * Y + X * Y ^ 2) +
    452984832000000 * (X ^ 2 + Y ^ 2) - 770845966336000000 * (X * Y) + 1855425871872000000000 * (X + Y)

theorem phi3_param {r : K} (hr : r - 27 ≠ 0) :
    Phi3 (r * (r + 216) ^ 3 / (r - 27) ^ 3) (r * (r - 24) ^ 3 / (r - 27)) = 0 := by
  unfold Phi3
  field_simp
  ring

theorem velu3_map {a b e x y : K} (he : psi3At a b e = 0) (hx : x ≠ e) (h : y ^ 2 = x ^ 3 + a * x + b) :
    velu3Y a b e x y ^ 2 = velu3X a b e x ^ 3 + velu3A a e * velu3X a b e x + velu3B a b e := by
  have hx' : x - e ≠ 0 := sub_ne_zero.2 hx
  have key : (x ^ 3 + a * x + b) * (1 - 2 * (3 * e ^ 2 + a) / (x - e) ^ 2 - 8 * (e ^ 3 + a * e + b) / (x - e) ^ 3) ^ 2 -
      (velu3X a b e x ^ 3 + velu3A a e * velu3X a b e x + velu3B a b e) =
      -psi3At a b e * (6 / (x - e) - 4 * (3 * e ^ 2 + a) / (x - e) ^ 3 - 12 * (e ^ 3 + a * e + b) / (x - e) ^ 4) := by
    obtain ⟨d, rfl⟩ : ∃ d, x = e + d := ⟨x - e, by ring⟩
    unfold velu3X velu3A velu3B psi3At
    rw [add_sub_cancel_left] at hx' ⊢
    field_simp
    ring
  rw [he, neg_zero, zero_mul, sub_eq_zero] at key
  rw [← key, ← h]
  unfold velu3Y
  ring

/-- The curve with a root `e ≠ 0` of the 3-division polynomial in terms of `e` and a parameter `r`. -/
theorem psi3_param {a b e : K} (h2 : (2 : K) ≠ 0) (h3 : (3 : K) ≠ 0) (he : psi3At a b e = 0) (h0 : e ≠ 0)
    (hD : 4 * a ^ 3 + 27 * b ^ 2 ≠ 0) :
    ∃ r : K, r ≠ 0 ∧ a = e ^ 2 * (72 / r - 3) ∧ b = e ^ 3 * (432 / r ^ 2 - 72 / r + 2) := by
  unfold psi3At at he
  have ht : 3 * e ^ 2 + a ≠ 0 := by
    intro ht
    have h12 : (12 : K) ≠ 0 := by
      have : (12 : K) = 2 * 2 * 3 := by norm_num
      rw [this]; exact mul_ne_zero (mul_ne_zero h2 h2) h3
    have ha : a = -(3 * e ^ 2) := by linear_combination ht
    have hb : b = 2 * e ^ 3 := by
      have h1 : 12 * e * (b - 2 * e ^ 3) = 0 := by
        subst ha
        linear_combination he
      have := (mul_eq_zero.1 h1).resolve_left (mul_ne_zero h12 h0)
      linear_combination this
    apply hD; rw [ha, hb]; ring
  have h72 : (72 : K) ≠ 0 := by
    have : (72 : K) = 2 ^ 3 * 3 ^ 2 := by norm_num
    rw [this]; exact mul_ne_zero (pow_ne_zero _ h2) (pow_ne_zero _ h3)
  have h12 : (12 : K) ≠ 0 := by
    have : (12 : K) = 2 * 2 * 3 := by norm_num
    rw [this]; exact mul_ne_zero (mul_ne_zero h2 h2) h3
  refine ⟨72 * e ^ 2 / (3 * e ^ 2 + a), div_ne_zero (mul_ne_zero h72 (pow_ne_zero _ h0)) ht, ?_, ?_⟩
  · field_simp; ring
  · have hb : b = (a ^ 2 - 3 * e ^ 4 - 6 * a * e ^ 2) / (12 * e) := by
      rw [eq_div_iff (mul_ne_zero h12 h0)]; linear_combination he
    rw [hb]
    field_simp
    ring

theorem disc_param {e r : K} (hr : r ≠ 0) :
    4 * (e ^ 2 * (72 / r - 3)) ^ 3 + 27 * (e ^ 3 * (432 / r ^ 2 - 72 / r + 2)) ^ 2 = -186624 * e ^ 6 * (r - 27) / r ^ 4 := by
  field_simp; ring

theorem ne_const {h2 : (2 : K) ≠ 0} {h3 : (3 : K) ≠ 0} : (186624 : K) ≠ 0 := by
  have : (186624 : K) = 2 ^ 8 * 3 ^ 6 := by norm_num
  rw [this]; exact mul_ne_zero (pow_ne_zero _ h2) (pow_ne_zero _ h3)

theorem jOf_param {e r : K} (h2 : (2 : K) ≠ 0) (h3 : (3 : K) ≠ 0) (he : e ≠ 0) (hr : r ≠ 0) (hr' : r - 27 ≠ 0) :
    jOf (e ^ 2 * (72 / r - 3)) (e ^ 3 * (432 / r ^ 2 - 72 / r + 2)) = r * (r - 24) ^ 3 / (r - 27) := by
  have hc := ne_const (h2 := h2) (h3 := h3)
  unfold jOf
  rw [disc_param hr]
  field_simp
  ring

theorem jOf_velu3_param {e r : K} (h2 : (2 : K) ≠ 0) (h3 : (3 : K) ≠ 0) (he : e ≠ 0) (hr : r ≠ 0) (hr' : r - 27 ≠ 0) :
    jOf (velu3A (e ^ 2 * (72 / r - 3)) e) (velu3B (e ^ 2 * (72 / r - 3)) (e ^ 3 * (432 / r ^ 2 - 72 / r + 2)) e) =
      r * (r + 216) ^ 3 / (r - 27) ^ 3 := by
  have hc := ne_const (h2 := h2) (h3 := h3)
  have e1 : velu3A (e ^ 2 * (72 / r - 3)) e = -3 * e ^ 2 * (r + 216) / r := by
    unfold velu3A; field_simp; ring
  have e2 : velu3B (e ^ 2 * (72 / r - 3)) (e ^ 3 * (432 / r ^ 2 - 72 / r + 2)) e =
      2 * e ^ 3 * (r ^ 2 - 540 * r - 5832) / r ^ 2 := by
    unfold velu3B; field_simp; ring
  have e3 : 4 * (-3 * e ^ 2 * (r + 216) / r) ^ 3 + 27 * (2 * e ^ 3 * (r ^ 2 - 540 * r - 5832) / r ^ 2) ^ 2 =
      -186624 * e ^ 6 * (r - 27) ^ 3 / r ^ 4 := by
    field_simp; ring
  unfold jOf
  rw [e1, e2, e3]
  field_simp
  ring

/-- The matrix of the multiplication by `g0 + g1 s + g2 s^2 + g3 s^3` modulo `s^4 + q3 s^3 + q2 s^2 + q1 s + q0`. -/
def mulMat {R : Type*} [CommRing R] (q0 q1 q2 q3 g0 g1 g2 g3 : R) : Matrix (Fin 4) (Fin 4) R :=
  let step : R × R × R × R → R × R × R × R := fun c =>
    (-c.2.2.2 * q0, c.1 - c.2.2.2 * q1, c.2.1 - c.2.2.2 * q2, c.2.2.1 - c.2.2.2 * q3)
  let r0 := (g0, g1, g2, g3)
  let r1 := step r0
  let r2 := step r1
  let r3 := step r2
  !![r0.1, r1.1, r2.1, r3.1; r0.2.1, r1.2.1, r2.2.1, r3.2.1; r0.2.2.1, r1.2.2.1, r2.2.2.1, r3.2.2.1;
    r0.2.2.2, r1.2.2.2, r2.2.2.2, r3.2.2.2]

theorem det_four {R : Type*} [CommRing R] (a b c d e f g h i j k l m n o p : R) :
    (!![a, b, c, d; e, f, g, h; i, j, k, l; m, n, o, p] : Matrix (Fin 4) (Fin 4) R).det =
      a * (f * (k * p - l * o) - g * (j * p - l * n) + h * (j * o - k * n)) -
      b * (e * (k * p - l * o) - g * (i * p - l * m) + h * (i * o - k * m)) +
      c * (e * (j * p - l * n) - f * (i * p - l * m) + h * (i * n - j * m)) -
      d * (e * (j * o - k * n) - f * (i * o - k * m) + g * (i * n - j * m)) := by
  simp [Matrix.det_succ_row_zero, Fin.sum_univ_succ, show Fin.succAbove (3 : Fin 4) 2 = 2 from rfl,
    show Fin.succAbove (3 : Fin 4) 1 = 1 from rfl, show Fin.succAbove (3 : Fin 4) 0 = 0 from rfl,
    show Fin.succAbove (2 : Fin 4) 2 = 3 from rfl,
    show Fin.succAbove (2 : Fin 4) 1 = 1 from rfl, show Fin.succAbove (2 : Fin 4) 0 = 0 from rfl,
    show Fin.succAbove (1 : Fin 4) 2 = 3 from rfl,
    show Fin.succAbove (1 : Fin 4) 1 = 2 from rfl, show Fin.succAbove (1 : Fin 4) 0 = 0 from rfl]
  ring

open Polynomial in
theorem common_root_of_det [IsAlgClosed K] (q0 q1 q2 q3 g0 g1 g2 g3 : K) (h : (mulMat q0 q1 q2 q3 g0 g1 g2 g3).det = 0) :
    ∃ s : K, s ^ 4 + q3 * s ^ 3 + q2 * s ^ 2 + q1 * s + q0 = 0 ∧ g0 + g1 * s + g2 * s ^ 2 + g3 * s ^ 3 = 0 := by
  obtain ⟨u, hu, hm⟩ := Matrix.exists_mulVec_eq_zero_iff.2 h
  set Q : K[X] := X ^ 4 + C q3 * X ^ 3 + C q2 * X ^ 2 + C q1 * X + C q0 with hQ
  set G : K[X] := C g0 + C g1 * X + C g2 * X ^ 2 + C g3 * X ^ 3 with hG
  set U : K[X] := C (u 0) + C (u 1) * X + C (u 2) * X ^ 2 + C (u 3) * X ^ 3 with hU
  have hdQ : Q.natDegree = 4 := by rw [hQ]; compute_degree!
  have hdU : U.natDegree ≤ 3 := by rw [hU]; compute_degree
  have hU0 : U ≠ 0 := by
    intro h0
    apply hu
    have hc : ∀ i, U.coeff i = 0 := fun i => by rw [h0, coeff_zero]
    have c0 := hc 0; have c1 := hc 1; have c2 := hc 2; have c3 := hc 3
    simp [hU, coeff_X, coeff_C] at c0 c1 c2 c3
    funext i
    fin_cases i <;> simp_all
  have hdvd : Q ∣ G * U := by
    have m0 := congrFun hm 0; have m1 := congrFun hm 1; have m2 := congrFun hm 2; have m3 := congrFun hm 3
    simp only [mulMat, Matrix.mulVec, dotProduct, Fin.sum_univ_four, Matrix.of_apply, Matrix.cons_val, Pi.zero_apply]
      at m0 m1 m2 m3
    refine ⟨C (u 1 * g3 + u 2 * (g2 - g3 * q3) + u 3 * (g1 - g3 * q2 - (g2 - g3 * q3) * q3)) +
      C (u 2 * g3 + u 3 * (g2 - g3 * q3)) * X + C (u 3 * g3) * X ^ 2, ?_⟩
    have k0 := congrArg C m0; have k1 := congrArg C m1; have k2 := congrArg C m2; have k3 := congrArg C m3
    rw [hQ, hG, hU]
    simp only [map_add, map_sub, map_mul, map_neg, map_zero] at k0 k1 k2 k3 ⊢
    linear_combination k0 + X * k1 + X ^ 2 * k2 + X ^ 3 * k3
  by_contra hno
  push Not at hno
  have hcop : IsCoprime Q G := by
    rw [isCoprime_iff_aeval_ne_zero_of_isAlgClosed K K]
    intro s
    by_cases h1 : s ^ 4 + q3 * s ^ 3 + q2 * s ^ 2 + q1 * s + q0 = 0
    · right; simpa [hG] using hno s h1
    · left; simpa [hQ] using h1
  have := natDegree_le_of_dvd (hcop.dvd_of_dvd_mul_left hdvd) hU0
  omega

theorem det_phi3 {R : Type*} [CommRing R] (x j : R) :
    (mulMat 729 (756 - j) 270 36 (-387419760) (-19131120 - j) (-196560) (x - 720)).det = 387420489 * Phi3 x j := by
  unfold mulMat Phi3
  rw [det_four]
  ring

/-- If `Φ_3(x, j) = 0` there is a parameter. -/
theorem phi3_exists_param [IsAlgClosed K] (h3 : (3 : K) ≠ 0) (x j : K) (h : Phi3 x j = 0) :
    ∃ s : K, s ≠ 0 ∧ (s + 27) * (s + 3) ^ 3 = j * s ∧ x * s ^ 3 = (s + 27) * (s + 243) ^ 3 := by
  have hd := det_phi3 x j
  rw [h, mul_zero] at hd
  obtain ⟨s, h1, h2⟩ := common_root_of_det _ _ _ _ _ _ _ _ hd
  refine ⟨s, ?_, by linear_combination h1, by linear_combination h2 - h1⟩
  rintro rfl
  have : (729 : K) = 3 ^ 6 := by norm_num
  apply pow_ne_zero 6 h3
  rw [← this]
  linear_combination h1

theorem psi3_of_param {e r : K} (hr : r ≠ 0) :
    psi3At (e ^ 2 * (72 / r - 3)) (e ^ 3 * (432 / r ^ 2 - 72 / r + 2)) e = 0 := by
  unfold psi3At
  field_simp
  ring

theorem jOf_velu3_zero (b : K) : jOf (velu3A 0 0) (velu3B 0 b 0) = 0 := by
  unfold jOf velu3A; simp

/-- For every parameter of the j-invariant of the curve there is a root of the 3-division polynomial. -/
theorem exists_psi3_root [IsAlgClosed K] {a b r : K} (h2 : (2 : K) ≠ 0) (h3 : (3 : K) ≠ 0)
    (hD : 4 * a ^ 3 + 27 * b ^ 2 ≠ 0) (hr' : r - 27 ≠ 0) (hj : jOf a b = r * (r - 24) ^ 3 / (r - 27)) :
    ∃ e : K, psi3At a b e = 0 ∧ jOf (velu3A a e) (velu3B a b e) = r * (r + 216) ^ 3 / (r - 27) ^ 3 := by
  have hc := ne_const (h2 := h2) (h3 := h3)
  have hj1 : 6912 * a ^ 3 * (r - 27) = r * (r - 24) ^ 3 * (4 * a ^ 3 + 27 * b ^ 2) := by
    unfold jOf at hj
    rw [div_eq_div_iff hD hr'] at hj
    linear_combination hj
  have hj2 : -46656 * b ^ 2 * (r - 27) = (r ^ 2 - 36 * r + 216) ^ 2 * (4 * a ^ 3 + 27 * b ^ 2) := by
    linear_combination hj1
  have h4 : (4 : K) ≠ 0 := by
    have : (4 : K) = 2 ^ 2 := by norm_num
    rw [this]; exact pow_ne_zero _ h2
  -- it suffices to find `e`
  have main : ∀ e : K, e ≠ 0 → r ≠ 0 → a = e ^ 2 * (72 / r - 3) → b = e ^ 3 * (432 / r ^ 2 - 72 / r + 2) →
      ∃ e : K, psi3At a b e = 0 ∧ jOf (velu3A a e) (velu3B a b e) = r * (r + 216) ^ 3 / (r - 27) ^ 3 := by
    rintro e he hr rfl rfl
    exact ⟨e, psi3_of_param hr, jOf_velu3_param h2 h3 he hr hr'⟩
  by_cases ha : a = 0
  · subst ha
    have hb : b ≠ 0 := by rintro rfl; apply hD; ring
    have h27 : 27 * b ^ 2 ≠ 0 := by simpa using hD
    have h0 : r * (r - 24) ^ 3 = 0 := by
      have : r * (r - 24) ^ 3 * (27 * b ^ 2) = 0 := by linear_combination -hj1
      exact (mul_eq_zero.1 this).resolve_right h27
    rcases mul_eq_zero.1 h0 with rfl | h24
    · exact ⟨0, by unfold psi3At; ring, by rw [jOf_velu3_zero]; simp⟩
    · have hr : r = 24 := by linear_combination pow_eq_zero_iff (by norm_num) |>.1 h24
      obtain ⟨e, he⟩ := IsAlgClosed.exists_pow_nat_eq (-4 * b) (n := 3) (by norm_num)
      have h24 : (24 : K) ≠ 0 := by
        have : (24 : K) = 2 ^ 3 * 3 := by norm_num
        rw [this]; exact mul_ne_zero (pow_ne_zero _ h2) h3
      refine main e ?_ (by rw [hr]; exact h24) ?_ ?_
      · rintro rfl
        apply mul_ne_zero (neg_ne_zero.2 h4) hb
        rw [← he]; ring
      · rw [hr]; field_simp; ring
      · rw [hr, he]; field_simp; ring
  · have hr0 : r ≠ 0 := by
      rintro rfl
      have h1 : a ^ 3 * 186624 = 0 := by linear_combination -hj1
      exact mul_ne_zero (pow_ne_zero 3 ha) hc h1
    have hr24 : r - 24 ≠ 0 := by
      intro h
      have h1 : 6912 * a ^ 3 * (r - 27) = 0 := by rw [hj1, h]; ring
      have : (6912 : K) = 2 ^ 8 * 3 ^ 3 := by norm_num
      rw [this] at h1
      exact mul_ne_zero (mul_ne_zero (mul_ne_zero (pow_ne_zero _ h2) (pow_ne_zero _ h3)) (pow_ne_zero _ ha)) hr' h1
    by_cases hb : b = 0
    · subst hb
      have hs : r ^ 2 - 36 * r + 216 = 0 := by
        have h1 : (r ^ 2 - 36 * r + 216) ^ 2 * (4 * a ^ 3) = 0 := by linear_combination -hj2
        exact pow_eq_zero_iff (by norm_num) |>.1 ((mul_eq_zero.1 h1).resolve_right (mul_ne_zero h4 (pow_ne_zero _ ha)))
      obtain ⟨e, he⟩ := IsAlgClosed.exists_pow_nat_eq (-(a * r) / (3 * (r - 24))) (n := 2) (by norm_num)
      refine main e ?_ hr0 ?_ ?_
      · rintro rfl
        apply div_ne_zero (neg_ne_zero.2 (mul_ne_zero ha hr0)) (mul_ne_zero h3 hr24)
        rw [← he]; ring
      · rw [he]; field_simp; ring
      · have : 432 / r ^ 2 - 72 / r + 2 = 2 * (r ^ 2 - 36 * r + 216) / r ^ 2 := by field_simp; ring
        rw [this, hs]; simp
    · have hs : r ^ 2 - 36 * r + 216 ≠ 0 := by
        intro h
        have h1 : 46656 * b ^ 2 * (r - 27) = 0 := by linear_combination -hj2 - (r ^ 2 - 36 * r + 216) * (4 * a ^ 3 + 27 * b ^ 2) * h
        have : (46656 : K) = 2 ^ 6 * 3 ^ 6 := by norm_num
        rw [this] at h1
        exact mul_ne_zero (mul_ne_zero (mul_ne_zero (pow_ne_zero _ h2) (pow_ne_zero _ h3)) (pow_ne_zero _ hb)) hr' h1
      have hx : 27 * b ^ 2 * (r * (r - 24) ^ 3) = -4 * a ^ 3 * (r ^ 2 - 36 * r + 216) ^ 2 := by
        have h1 : (4 * a ^ 3 + 27 * b ^ 2) * (27 * b ^ 2 * (r * (r - 24) ^ 3) + 4 * a ^ 3 * (r ^ 2 - 36 * r + 216) ^ 2) = 0 := by
          linear_combination -27 * b ^ 2 * hj1 - 4 * a ^ 3 * hj2
        linear_combination (mul_eq_zero.1 h1).resolve_left hD
      have h27 : (27 : K) ≠ 0 := by
        have : (27 : K) = 3 ^ 3 := by norm_num
        rw [this]; exact pow_ne_zero _ h3
      have hb2 : b ^ 2 = -4 * a ^ 3 * (r ^ 2 - 36 * r + 216) ^ 2 / (27 * (r * (r - 24) ^ 3)) := by
        rw [eq_div_iff (mul_ne_zero h27 (mul_ne_zero hr0 (pow_ne_zero _ hr24)))]
        linear_combination hx
      set s := r ^ 2 - 36 * r + 216 with hsd
      have he2 : (-3 * b * r * (r - 24) / (2 * a * s)) ^ 2 = -(a * r) / (3 * (r - 24)) := by
        have e1 : (-3 * b * r * (r - 24) / (2 * a * s)) ^ 2 = 9 * b ^ 2 * r ^ 2 * (r - 24) ^ 2 / (4 * a ^ 2 * s ^ 2) := by
          field_simp; ring
        rw [e1, hb2]
        field_simp
        ring
      refine main (-3 * b * r * (r - 24) / (2 * a * s)) ?_ hr0 ?_ ?_
      · exact div_ne_zero (mul_ne_zero (mul_ne_zero (mul_ne_zero (neg_ne_zero.2 h3) hb) hr0) hr24)
          (mul_ne_zero (mul_ne_zero h2 ha) hs)
      · rw [he2]; field_simp; ring
      · have : 432 / r ^ 2 - 72 / r + 2 = 2 * s / r ^ 2 := by rw [hsd]; field_simp; ring
        rw [this, pow_succ, he2]
        field_simp

/-- `Φ_3(x, j(E)) = 0` iff `x` is the j-invariant of the quotient by a subgroup of order 3. -/
theorem phi3_root_iff [IsAlgClosed K] {a b : K} (h2 : (2 : K) ≠ 0) (h3 : (3 : K) ≠ 0)
    (hD : 4 * a ^ 3 + 27 * b ^ 2 ≠ 0) (x : K) :
    Phi3 x (jOf a b) = 0 ↔ ∃ e : K, psi3At a b e = 0 ∧ x = jOf (velu3A a e) (velu3B a b e) := by
  constructor
  · intro h
    obtain ⟨s, hs, h1, h4⟩ := phi3_exists_param h3 x _ h
    obtain ⟨e, he, hj⟩ := exists_psi3_root (r := s + 27) h2 h3 hD (by simpa using hs) (by
      rw [eq_div_iff (by simpa using hs)]; linear_combination -h1)
    refine ⟨e, he, ?_⟩
    rw [hj, eq_div_iff (pow_ne_zero _ (by simpa using hs))]
    linear_combination h4
  · rintro ⟨e, he, rfl⟩
    by_cases h0 : e = 0
    · subst h0
      have ha : a = 0 := by
        unfold psi3At at he
        exact pow_eq_zero_iff (n := 2) (by norm_num) |>.1 (by linear_combination -he)
      subst ha
      rw [jOf_velu3_zero]
      have : jOf 0 b = 0 := by unfold jOf; simp
      rw [this]
      unfold Phi3; ring
    · obtain ⟨r, hr, rfl, rfl⟩ := psi3_param h2 h3 he h0 hD
      have hr' : r - 27 ≠ 0 := by
        intro h
        apply hD
        rw [disc_param hr, h]; simp
      rw [jOf_velu3_param h2 h3 h0 hr hr', jOf_param h2 h3 h0 hr hr']
      exact phi3_param hr'

theorem velu3_nonsingular {a b e : K} (h2 : (2 : K) ≠ 0) (h3 : (3 : K) ≠ 0) (he : psi3At a b e = 0)
    (hD : 4 * a ^ 3 + 27 * b ^ 2 ≠ 0) : 4 * velu3A a e ^ 3 + 27 * velu3B a b e ^ 2 ≠ 0 := by
  have hc := ne_const (h2 := h2) (h3 := h3)
  by_cases h0 : e = 0
  · subst h0
    have ha : a = 0 := by
      unfold psi3At at he
      exact pow_eq_zero_iff (n := 2) (by norm_num) |>.1 (by linear_combination -he)
    subst ha
    have h27 : (27 : K) ≠ 0 := by
      have : (27 : K) = 3 ^ 3 := by norm_num
      rw [this]; exact pow_ne_zero _ h3
    have : 4 * velu3A (0 : K) 0 ^ 3 + 27 * velu3B 0 b 0 ^ 2 = 27 ^ 2 * (4 * 0 ^ 3 + 27 * b ^ 2) := by
      unfold velu3A velu3B; ring
    rw [this]
    exact mul_ne_zero (pow_ne_zero _ h27) hD
  · obtain ⟨r, hr, rfl, rfl⟩ := psi3_param h2 h3 he h0 hD
    have hr' : r - 27 ≠ 0 := by
      intro h
      apply hD
      rw [disc_param hr, h]; simp
    have : 4 * velu3A (e ^ 2 * (72 / r - 3)) e ^ 3 +
        27 * velu3B (e ^ 2 * (72 / r - 3)) (e ^ 3 * (432 / r ^ 2 - 72 / r + 2)) e ^ 2 =
        -186624 * e ^ 6 * (r - 27) ^ 3 / r ^ 4 := by
      unfold velu3A velu3B; field_simp; ring
    rw [this]
    exact div_ne_zero (mul_ne_zero (mul_ne_zero (neg_ne_zero.2 hc) (pow_ne_zero _ h0)) (pow_ne_zero _ hr')) (pow_ne_zero _ hr)

end EC
