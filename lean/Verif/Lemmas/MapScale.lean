import Verif.Lemmas.Twist

/-! Pure mathematics: a homomorphism of fields followed by the change of coordinates `(x, y) ↦ (u^2 x, u^3 y)` maps the
points of one curve to those of another, as a homomorphism of groups. -/

namespace EC
open WeierstrassCurve EDS

section
variable {K K' : Type} [Field K] [DecidableEq K] [Field K'] [DecidableEq K'] {a b : K} {a' b' : K'}

theorem scale_eqn (φ : K →+* K') (u : K') (ha : a' = u ^ 4 * φ a) (hb : b' = u ^ 6 * φ b) {x y : K}
    (h : y ^ 2 = x ^ 3 + a * x + b) :
    (u ^ 3 * φ y) ^ 2 = (u ^ 2 * φ x) ^ 3 + a' * (u ^ 2 * φ x) + b' := by
  have := congrArg φ h
  simp only [map_add, map_mul, map_pow] at this
  rw [ha, hb]
  linear_combination u ^ 6 * this

/-- `(x, y) ↦ (u^2 φ(x), u^3 φ(y))`. -/
def scaleFun (φ : K →+* K') (u : K') (h2 : (2 : K') ≠ 0) (hd : 4 * a' ^ 3 + 27 * b' ^ 2 ≠ 0)
    (ha : a' = u ^ 4 * φ a) (hb : b' = u ^ 6 * φ b) : Pt a b → Pt a' b'
  | .zero => .zero
  | .some x y h => .some (u ^ 2 * φ x) (u ^ 3 * φ y) (nonsing_of h2 hd (scale_eqn φ u ha hb
      (by have := (Affine.equation_iff _ _).1 h.1; simpa using this)))

variable (φ : K →+* K') (u : K') (h2 : (2 : K') ≠ 0) (hd : 4 * a' ^ 3 + 27 * b' ^ 2 ≠ 0)
    (ha : a' = u ^ 4 * φ a) (hb : b' = u ^ 6 * φ b)

theorem scaleFun_ne {P : Pt a b} (hP : P ≠ 0) : scaleFun φ u h2 hd ha hb P ≠ 0 ∧
    xc (scaleFun φ u h2 hd ha hb P) = u ^ 2 * φ (xc P) ∧ yc (scaleFun φ u h2 hd ha hb P) = u ^ 3 * φ (yc P) := by
  cases P with
  | zero => exact absurd rfl hP
  | some x y h => exact ⟨Affine.Point.some_ne_zero _, rfl, rfl⟩

theorem scaleFun_zero : scaleFun φ u h2 hd ha hb (0 : Pt a b) = 0 := rfl

theorem scaleFun_neg (P : Pt a b) : scaleFun φ u h2 hd ha hb (-P) = -scaleFun φ u h2 hd ha hb P := by
  by_cases hP : P = 0
  · subst hP; rw [neg_zero, scaleFun_zero, neg_zero]
  · obtain ⟨p1, p2, p3⟩ := scaleFun_ne φ u h2 hd ha hb hP
    obtain ⟨n1, n2, n3⟩ := scaleFun_ne φ u h2 hd ha hb (neg_ne_zero.2 hP)
    refine EDS.ext n1 (neg_ne_zero.2 p1) ?_ ?_
    · rw [n2, xc_neg, xc_neg, p2]
    · rw [n3, yc_neg, yc_neg, p3, map_neg]; ring

theorem scaleFun_add (hu : u ≠ 0) (P Q : Pt a b) : scaleFun φ u h2 hd ha hb (P + Q) =
    scaleFun φ u h2 hd ha hb P + scaleFun φ u h2 hd ha hb Q := by
  have h2' : (2 : K) ≠ 0 := fun h => h2 (by rw [← map_ofNat φ 2, h, map_zero])
  by_cases hP : P = 0
  · rw [hP, zero_add, scaleFun_zero, zero_add]
  by_cases hQ : Q = 0
  · rw [hQ, add_zero, scaleFun_zero, add_zero]
  obtain ⟨p1, p2, p3⟩ := scaleFun_ne φ u h2 hd ha hb hP
  obtain ⟨q1, q2, q3⟩ := scaleFun_ne φ u h2 hd ha hb hQ
  have hφ : Function.Injective φ := φ.injective
  by_cases h : xc P = xc Q
  · rcases (xc_eq_iff hP hQ).1 h with rfl | rfl
    · by_cases hy : yc P = 0
      · have e1 := (two_nsmul_eq_zero_iff h2' hP).2 hy
        have e2 := (two_nsmul_eq_zero_iff h2 p1).2 (by rw [p3, hy, map_zero, mul_zero])
        rw [e1, e2, scaleFun_zero]
      · have hy' : yc (scaleFun φ u h2 hd ha hb P) ≠ 0 := by
          rw [p3]; exact mul_ne_zero (pow_ne_zero _ hu) ((map_ne_zero φ).2 hy)
        have hs : P + P ≠ 0 := fun h0 => hy ((two_nsmul_eq_zero_iff h2' hP).1 h0)
        have hs' := fun h0 => hy' ((two_nsmul_eq_zero_iff h2 p1).1 h0)
        obtain ⟨s1, s2, s3⟩ := scaleFun_ne φ u h2 hd ha hb hs
        have a1 := congrArg φ (xc_double h2' hP hy)
        have a2 := congrArg φ (yc_double h2' hP hy)
        simp only [map_mul, map_pow, map_sub, map_add, map_ofNat] at a1 a2
        have b1 := xc_double h2 p1 hy'
        have b2 := yc_double h2 p1 hy'
        have ex : xc (scaleFun φ u h2 hd ha hb (P + P)) =
            xc (scaleFun φ u h2 hd ha hb P + scaleFun φ u h2 hd ha hb P) := by
          refine mul_right_cancel₀ (pow_ne_zero 2 (mul_ne_zero h2 hy')) (Eq.trans ?_ b1.symm)
          rw [s2, p2, p3, ha]
          linear_combination u ^ 8 * a1
        refine EDS.ext s1 hs' ex ?_
        refine mul_right_cancel₀ (mul_ne_zero h2 hy') (Eq.trans ?_ b2.symm)
        rw [← ex, s2, s3, p2, p3, ha]
        linear_combination u ^ 6 * a2
    · rw [scaleFun_neg, neg_add_cancel, neg_add_cancel, scaleFun_zero]
  · have h' : xc (scaleFun φ u h2 hd ha hb P) ≠ xc (scaleFun φ u h2 hd ha hb Q) := by
      rw [p2, q2]
      exact fun h0 => h (hφ (mul_left_cancel₀ (pow_ne_zero 2 hu) h0))
    have hs : P + Q ≠ 0 := fun h0 => h (by rw [eq_neg_of_add_eq_zero_left h0, xc_neg])
    have hs' : scaleFun φ u h2 hd ha hb P + scaleFun φ u h2 hd ha hb Q ≠ 0 := fun h0 => h' (by
      rw [eq_neg_of_add_eq_zero_left h0, xc_neg])
    obtain ⟨s1, s2, s3⟩ := scaleFun_ne φ u h2 hd ha hb hs
    have a1 := congrArg φ (xc_add hP hQ h)
    have a2 := congrArg φ (yc_add hP hQ h)
    simp only [map_mul, map_pow, map_sub, map_add] at a1 a2
    have b1 := xc_add p1 q1 h'
    have b2 := yc_add p1 q1 h'
    have ex : xc (scaleFun φ u h2 hd ha hb (P + Q)) =
        xc (scaleFun φ u h2 hd ha hb P + scaleFun φ u h2 hd ha hb Q) := by
      refine mul_right_cancel₀ (pow_ne_zero 2 (sub_ne_zero.2 h')) (Eq.trans ?_ b1.symm)
      rw [s2, p2, p3, q2, q3]
      linear_combination u ^ 6 * a1
    refine EDS.ext s1 hs' ex ?_
    refine mul_right_cancel₀ (sub_ne_zero.2 h') (Eq.trans ?_ b2.symm)
    rw [← ex, s2, s3, p2, p3, q2, q3]
    linear_combination u ^ 5 * a2

/-- `(x, y) ↦ (u^2 φ(x), u^3 φ(y))` as a homomorphism of groups. -/
def scaleHom (hu : u ≠ 0) : Pt a b →+ Pt a' b' where
  toFun := scaleFun φ u h2 hd ha hb
  map_zero' := rfl
  map_add' := scaleFun_add φ u h2 hd ha hb hu

end
end EC
