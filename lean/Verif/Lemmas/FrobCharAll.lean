import Verif.Lemmas.FrobChar
import Mathlib.FieldTheory.IsAlgClosed.AlgebraicClosure
import Mathlib.FieldTheory.AlgebraicClosure

/-! Pure mathematics: the characteristic equation of Frobenius at every point over every field extension. -/

namespace EC
open WeierstrassCurve EDS Polynomial

section
variable {F : Type} [Field F] [DecidableEq F] [Fintype F] {a b : F}

local notation "q" => Fintype.card F

variable (h2 : (2 : F) ≠ 0) (hd : 4 * a ^ 3 + 27 * b ^ 2 ≠ 0)
variable (K : Type) [Field K] [DecidableEq K] [Algebra F K]

/-- Points over an extension field. -/
abbrev EPt (a b : F) (K : Type) [Field K] [DecidableEq K] [Algebra F K] := Pt (algebraMap F K a) (algebraMap F K b)

omit [DecidableEq F] [Fintype F] [DecidableEq K] in
include h2 in
theorem two_ne_ext : (2 : K) ≠ 0 := by
  rw [← map_ofNat (algebraMap F K) 2]
  exact (_root_.map_ne_zero _).2 h2

omit [DecidableEq F] [Fintype F] [DecidableEq K] in
include hd in
theorem disc_ext : 4 * (algebraMap F K a) ^ 3 + 27 * (algebraMap F K b) ^ 2 ≠ 0 := by
  have := (_root_.map_ne_zero (algebraMap F K)).2 hd
  simpa only [map_add, map_mul, map_pow, map_ofNat] using this

/-- Frobenius over an extension field. -/
noncomputable def frobK : EPt a b K →+ EPt a b K :=
  scaleHom (FiniteField.frobeniusAlgHom F K).toRingHom 1 (two_ne_ext h2 K) (disc_ext hd K)
    (by rw [one_pow, one_mul]; exact ((FiniteField.frobeniusAlgHom F K).commutes a).symm)
    (by rw [one_pow, one_mul]; exact ((FiniteField.frobeniusAlgHom F K).commutes b).symm) one_ne_zero

variable {K}

theorem frobK_ne {P : EPt a b K} (hP : P ≠ 0) : frobK h2 hd K P ≠ 0 ∧ xc (frobK h2 hd K P) = xc P ^ q ∧
    yc (frobK h2 hd K P) = yc P ^ q := by
  obtain ⟨p1, p2, p3⟩ := scaleFun_ne (FiniteField.frobeniusAlgHom F K).toRingHom 1 (two_ne_ext h2 K) (disc_ext hd K)
    (by rw [one_pow, one_mul]; exact ((FiniteField.frobeniusAlgHom F K).commutes a).symm)
    (by rw [one_pow, one_mul]; exact ((FiniteField.frobeniusAlgHom F K).commutes b).symm) hP
  refine ⟨p1, p2.trans ?_, p3.trans ?_⟩
  · rw [one_pow, one_mul]; rfl
  · rw [one_pow, one_mul]; rfl

/-- `F^2 P - t F P + q P`. -/
noncomputable def charP (P : EPt a b K) : EPt a b K :=
  frobK h2 hd K (frobK h2 hd K P) - trc a b • frobK h2 hd K P + (q : ℤ) • P

theorem charP_add (P Q : EPt a b K) : charP h2 hd (P + Q) = charP h2 hd P + charP h2 hd Q := by
  unfold charP
  simp only [map_add, zsmul_add]
  abel

/-! A point with transcendental coordinate is a specialization of the generic point. -/

omit [DecidableEq F] [Fintype F] in
theorem eval_fL {R : EPt a b K} (hR : R ≠ 0) (hs : Transcendental F (xc R)) : substX hs (fL a b) = yc R ^ 2 := by
  rw [subst_fL, eqn hR]

omit [DecidableEq F] [Fintype F] in
theorem yc_ne_transc {R : EPt a b K} (hR : R ≠ 0) (hs : Transcendental F (xc R)) : yc R ≠ 0 := by
  intro h0
  have := eval_fL hR hs
  rw [h0, zero_pow two_ne_zero] at this
  exact (_root_.map_ne_zero _).2 (fL_ne a b) this

omit [DecidableEq F] [Fintype F] in
theorem eval_ha {R : EPt a b K} (hR : R ≠ 0) (hs : Transcendental F (xc R)) :
    algebraMap F K a = ((yc R)⁻¹) ^ 4 * (substX hs).toRingHom (tA a b) := by
  have h1 := eval_fL hR hs
  have h3 := yc_ne_transc hR hs
  show _ = _ * substX hs (tA a b)
  rw [map_mul, map_pow, substX_C, h1]
  field_simp

omit [DecidableEq F] [Fintype F] in
theorem eval_hb {R : EPt a b K} (hR : R ≠ 0) (hs : Transcendental F (xc R)) :
    algebraMap F K b = ((yc R)⁻¹) ^ 6 * (substX hs).toRingHom (tB a b) := by
  have h1 := eval_fL hR hs
  have h3 := yc_ne_transc hR hs
  show _ = _ * substX hs (tB a b)
  rw [map_mul, map_pow, substX_C, h1]
  field_simp

/-- The homomorphism that maps the generic point to `R`. -/
noncomputable def evalHom {R : EPt a b K} (hR : R ≠ 0) (hs : Transcendental F (xc R)) : TPt a b →+ EPt a b K :=
  scaleHom (substX hs).toRingHom (yc R)⁻¹ (two_ne_ext h2 K) (disc_ext hd K) (eval_ha hR hs) (eval_hb hR hs)
    (inv_ne_zero (yc_ne_transc hR hs))

theorem evalHom_ne {R : EPt a b K} (hR : R ≠ 0) (hs : Transcendental F (xc R)) {Q : TPt a b} (hQ : Q ≠ 0) :
    evalHom h2 hd hR hs Q ≠ 0 ∧ xc (evalHom h2 hd hR hs Q) = ((yc R)⁻¹) ^ 2 * substX hs (xc Q) ∧
      yc (evalHom h2 hd hR hs Q) = ((yc R)⁻¹) ^ 3 * substX hs (yc Q) :=
  scaleFun_ne (substX hs).toRingHom (yc R)⁻¹ (two_ne_ext h2 K) (disc_ext hd K) (eval_ha hR hs) (eval_hb hR hs) hQ

theorem evalHom_gen {R : EPt a b K} (hR : R ≠ 0) (hs : Transcendental F (xc R)) :
    evalHom h2 hd hR hs (gen h2 hd) = R := by
  obtain ⟨p1, p2, p3⟩ := evalHom_ne h2 hd hR hs (gen_ne h2 hd)
  have h1 := eval_fL hR hs
  have h3 := yc_ne_transc hR hs
  refine EDS.ext p1 hR ?_ ?_
  · rw [p2, xc_eq_Xc, Xc_gen, map_mul, substX_X, h1]
    field_simp
  · rw [p3, yc_gen, map_pow, h1]
    field_simp

theorem evalHom_frob {R : EPt a b K} (hR : R ≠ 0) (hs : Transcendental F (xc R)) {Q : TPt a b} (hQ : Q ≠ 0) :
    evalHom h2 hd hR hs (frobT h2 hd Q) = frobK h2 hd K (evalHom h2 hd hR hs Q) := by
  obtain ⟨p1, p2, p3⟩ := frobT_ne h2 hd hQ
  obtain ⟨c1, c2, c3⟩ := evalHom_ne h2 hd hR hs p1
  obtain ⟨d1, d2, d3⟩ := evalHom_ne h2 hd hR hs hQ
  obtain ⟨f1, f2, f3⟩ := frobK_ne h2 hd d1
  have h1 := eval_fL hR hs
  have h3 := yc_ne_transc hR hs
  refine EDS.ext c1 f1 ?_ ?_
  · rw [c2, f2, d2, xc_eq_Xc, p2, xc_eq_Xc, map_mul, map_mul, map_pow, h1, mul_pow]
    have hy : (yc R)⁻¹ ^ 2 * yc R ^ 2 = 1 := by rw [← mul_pow, inv_mul_cancel₀ h3, one_pow]
    rw [mul_pow, ← mul_assoc, hy, one_mul, ← mul_assoc, ← mul_pow, hy, one_pow, one_mul]
  · rw [c3, f3, d3, p3, map_mul, map_pow, map_inv₀, map_pow, map_pow, h1, mul_pow]
    have key : ∀ (y z : K) (m : ℕ), y ≠ 0 → y⁻¹ ^ 3 * ((((y ^ 2) ^ m)⁻¹) ^ 3 * z) = (y⁻¹ ^ 3) ^ (2 * m + 1) * z := by
      intro y z m hy
      simp only [inv_pow, ← pow_mul]
      rw [← mul_assoc, ← mul_inv, ← pow_add]
      congr 3
      ring
    have := key (yc R) (substX hs (yc Q) ^ q) (mhalf F) h3
    rw [← card_eq h2] at this
    exact this

theorem char_transc {R : EPt a b K} (hR : R ≠ 0) (hs : Transcendental F (xc R)) : (2 : ℤ) • charP h2 hd R = 0 := by
  have e := congrArg (evalHom h2 hd hR hs) (frob_char_gen h2 hd)
  rw [map_zero, map_zsmul, map_add, map_sub, map_zsmul, map_zsmul,
    evalHom_frob h2 hd hR hs (frobT_ne h2 hd (gen_ne h2 hd)).1, evalHom_frob h2 hd hR hs (gen_ne h2 hd),
    evalHom_gen] at e
  exact e

/-! Every point is a difference of points with transcendental coordinates, over a larger field. -/

section ext
variable {K' : Type} [Field K'] [DecidableEq K'] [Algebra F K'] [Algebra K K'] [IsScalarTower F K K']

/-- Base change. -/
noncomputable def extHom : EPt a b K →+ EPt a b K' :=
  scaleHom (algebraMap K K') 1 (two_ne_ext h2 K') (disc_ext hd K')
    (by rw [one_pow, one_mul]; exact IsScalarTower.algebraMap_apply F K K' a)
    (by rw [one_pow, one_mul]; exact IsScalarTower.algebraMap_apply F K K' b) one_ne_zero

theorem extHom_ne {P : EPt a b K} (hP : P ≠ 0) : extHom (K' := K') h2 hd P ≠ 0 ∧
    xc (extHom (K' := K') h2 hd P) = algebraMap K K' (xc P) ∧ yc (extHom (K' := K') h2 hd P) = algebraMap K K' (yc P) := by
  obtain ⟨p1, p2, p3⟩ := scaleFun_ne (algebraMap K K') 1 (two_ne_ext h2 K') (disc_ext hd K')
    (by rw [one_pow, one_mul]; exact IsScalarTower.algebraMap_apply F K K' a)
    (by rw [one_pow, one_mul]; exact IsScalarTower.algebraMap_apply F K K' b) hP
  refine ⟨p1, p2.trans ?_, p3.trans ?_⟩
  · rw [one_pow, one_mul]
  · rw [one_pow, one_mul]

theorem extHom_frob (P : EPt a b K) :
    extHom (K' := K') h2 hd (frobK h2 hd K P) = frobK h2 hd K' (extHom (K' := K') h2 hd P) := by
  by_cases hP : P = 0
  · rw [hP, map_zero, map_zero, map_zero]
  · obtain ⟨p1, p2, p3⟩ := frobK_ne h2 hd hP
    obtain ⟨c1, c2, c3⟩ := extHom_ne (K' := K') h2 hd hP
    obtain ⟨d1, d2, d3⟩ := extHom_ne (K' := K') h2 hd p1
    obtain ⟨e1, e2, e3⟩ := frobK_ne h2 hd c1
    refine EDS.ext d1 e1 ?_ ?_
    · rw [d2, p2, e2, c2, map_pow]
    · rw [d3, p3, e3, c3, map_pow]

theorem extHom_char (P : EPt a b K) :
    extHom (K' := K') h2 hd (charP h2 hd P) = charP h2 hd (extHom (K' := K') h2 hd P) := by
  unfold charP
  rw [map_add, map_sub, map_zsmul, map_zsmul, extHom_frob, extHom_frob]

theorem extHom_inj {P : EPt a b K} (h : extHom (K' := K') h2 hd P = 0) : P = 0 := by
  by_contra hP
  exact (extHom_ne (K' := K') h2 hd hP).1 h

/-- The coordinates of `R - P` are algebraic if those of `R` and `P` are. -/
theorem alg_sub {A B : K'} {R P : Pt A B} (h2 : (2 : K') ≠ 0) (S : Subfield K') (hA : A ∈ S) (hR : R ≠ 0) (hP : P ≠ 0)
    (hRP : R - P ≠ 0) (r1 : xc R ∈ S) (r2 : yc R ∈ S) (p1 : xc P ∈ S) (p2 : yc P ∈ S) : xc (R - P) ∈ S := by
  by_cases h : xc R = xc P
  · rcases (xc_eq_iff hR hP).1 h with rfl | rfl
    · exact absurd (sub_self _) hRP
    · have hy : yc P ≠ 0 := by
        intro h0
        apply hRP
        rw [← neg_add', neg_eq_zero]
        exact (two_nsmul_eq_zero_iff h2 hP).2 h0
      have e := xc_double h2 hP hy
      have hy2 : (2 * yc P) ^ 2 ≠ 0 := pow_ne_zero 2 (mul_ne_zero h2 hy)
      have m2 : (2 : K') ∈ S := by
        rw [show (2 : K') = 1 + 1 by norm_num]; exact S.add_mem S.one_mem S.one_mem
      have m3 : (3 : K') ∈ S := by
        rw [show (3 : K') = 2 + 1 by norm_num]; exact S.add_mem m2 S.one_mem
      rw [← neg_add', xc_neg, eq_div_of_mul_eq hy2 e]
      exact S.div_mem (S.sub_mem (S.pow_mem (S.add_mem (S.mul_mem m3 (S.pow_mem p1 2)) hA) 2)
        (S.mul_mem (S.mul_mem m2 p1) (S.pow_mem (S.mul_mem m2 p2) 2))) (S.pow_mem (S.mul_mem m2 p2) 2)
  · have e := xc_add (A := R) (B := -P) hR (neg_ne_zero.2 hP) (by rwa [xc_neg])
    rw [xc_neg, yc_neg, ← sub_eq_add_neg] at e
    rw [eq_div_of_mul_eq (pow_ne_zero 2 (sub_ne_zero.2 h)) e]
    exact S.div_mem (S.sub_mem (S.pow_mem (S.sub_mem r2 (S.neg_mem p2)) 2)
      (S.mul_mem (S.add_mem r1 p1) (S.pow_mem (S.sub_mem r1 p1) 2))) (S.pow_mem (S.sub_mem r1 p1) 2)

theorem char_two [IsAlgClosed K'] {x : K'} (hx : Transcendental K x) (P : EPt a b K) :
    (2 : ℤ) • charP h2 hd P = 0 := by
  apply extHom_inj (K' := K') h2 hd
  rw [map_zsmul, extHom_char]
  by_cases hP : P = 0
  · rw [hP, map_zero]
    unfold charP
    rw [map_zero, map_zero, zsmul_zero, sub_zero, zsmul_zero, add_zero, zsmul_zero]
  obtain ⟨c1, c2, c3⟩ := extHom_ne (K' := K') h2 hd hP
  have h2' := two_ne_ext h2 K'
  have hd' := disc_ext hd K'
  obtain ⟨y, hy⟩ := IsAlgClosed.exists_pow_nat_eq (x ^ 3 + algebraMap F K' a * x + algebraMap F K' b) (n := 2) (by norm_num)
  let G : EPt a b K' := .some x y (nonsing_of h2' hd' hy)
  have hG : G ≠ 0 := Affine.Point.some_ne_zero _
  have hxG : xc G = x := rfl
  set P' := extHom (K' := K') h2 hd P with hP'
  -- the field of algebraic elements
  let S : Subfield K' := (algebraicClosure K K').toSubfield
  have memS : ∀ z : K', z ∈ S ↔ IsAlgebraic K z := fun z => mem_algebraicClosure_iff
  have mF : ∀ c : F, algebraMap F K' c ∈ S := fun c => by
    rw [memS, IsScalarTower.algebraMap_apply F K K']; exact isAlgebraic_algebraMap _
  have hxS : x ∉ S := fun h => hx ((memS x).1 h)
  have hp1 : xc P' ∈ S := by rw [c2, memS]; exact isAlgebraic_algebraMap _
  have hp2 : yc P' ∈ S := by rw [c3, memS]; exact isAlgebraic_algebraMap _
  have hR : G + P' ≠ 0 := by
    intro h0
    apply hxS
    rw [← hxG, eq_neg_of_add_eq_zero_left h0, xc_neg]
    exact hp1
  have toF : ∀ z : K', Transcendental K z → Transcendental F z := fun z hz h => hz (h.tower_top K)
  have tR : Transcendental F (xc (G + P')) := by
    apply toF
    intro hal
    have r1 : xc (G + P') ∈ S := (memS _).2 hal
    have r2 : yc (G + P') ∈ S := by
      have e := eqn hR
      rw [memS]
      refine IsAlgebraic.of_pow (n := 2) (by norm_num) ?_
      rw [e, ← memS]
      exact S.add_mem (S.add_mem (S.pow_mem r1 3) (S.mul_mem (mF a) r1)) (mF b)
    have := alg_sub h2' S (mF a) hR c1 (by rw [add_sub_cancel_right]; exact hG) r1 r2 hp1 hp2
    rw [add_sub_cancel_right] at this
    exact hxS this
  have e1 := char_transc h2 hd hG (toF x hx)
  have e2 := char_transc h2 hd hR tR
  rwa [charP_add, zsmul_add, e1, zero_add] at e2

end ext

theorem char_two_all (P : EPt a b K) : (2 : ℤ) • charP h2 hd P = 0 := by
  let _ : DecidableEq (AlgebraicClosure (RatFunc K)) := Classical.decEq _
  have hx : Transcendental K (algebraMap (RatFunc K) (AlgebraicClosure (RatFunc K)) RatFunc.X) := by
    rw [transcendental_algebraMap_iff (algebraMap (RatFunc K) (AlgebraicClosure (RatFunc K))).injective]
    refine RatFunc.transcendental_of_ne_C _ ?_
    rintro ⟨c, hc⟩
    have := congrArg ht hc
    rw [ht_X, ht_C] at this
    omega
  exact char_two h2 hd hx P

/-- Over an algebraically closed field every point is twice a point. -/
theorem exists_half {L : Type} [Field L] [DecidableEq L] [IsAlgClosed L] {A B : L} (h2 : (2 : L) ≠ 0)
    (hd : 4 * A ^ 3 + 27 * B ^ 2 ≠ 0) (P : Pt A B) : ∃ R : Pt A B, R + R = P := by
  by_cases hP : P = 0
  · exact ⟨0, by rw [add_zero, hP]⟩
  set c := xc P with hc
  have hdeg : (X ^ 4 - C (4 * c) * X ^ 3 - C (2 * A) * X ^ 2 - C (8 * B + 4 * c * A) * X +
      C (A ^ 2 - 4 * c * B) : L[X]).natDegree = 4 := by compute_degree!
  obtain ⟨x, hx⟩ := IsAlgClosed.exists_root (X ^ 4 - C (4 * c) * X ^ 3 - C (2 * A) * X ^ 2 - C (8 * B + 4 * c * A) * X +
      C (A ^ 2 - 4 * c * B) : L[X]) (by
    intro h0
    have := natDegree_eq_of_degree_eq_some h0
    rw [hdeg] at this
    exact absurd this (by norm_num))
  simp only [IsRoot.def, eval_add, eval_sub, eval_mul, eval_pow, eval_X, eval_C] at hx
  obtain ⟨y, hy⟩ := IsAlgClosed.exists_pow_nat_eq (x ^ 3 + A * x + B) (n := 2) (by norm_num)
  let R : Pt A B := .some x y (nonsing_of h2 hd hy)
  have hR : R ≠ 0 := Affine.Point.some_ne_zero _
  have hy0 : y ≠ 0 := by
    rintro rfl
    apply hd
    have f0 : x ^ 3 + A * x + B = 0 := by rw [← hy]; ring
    linear_combination (3 * x ^ 2 + 4 * A) * hx + (4 * c * (3 * x ^ 2 + 4 * A) - (3 * x ^ 3 - 5 * A * x - 27 * B)) * f0
  have hyR : yc R ≠ 0 := hy0
  have hRR : R + R ≠ 0 := fun h0 => hyR ((two_nsmul_eq_zero_iff h2 hR).1 h0)
  have e := xc_double h2 hR hyR
  have ex : xc (R + R) = c := by
    refine mul_right_cancel₀ (pow_ne_zero 2 (mul_ne_zero h2 hyR)) (e.trans ?_)
    have e1 : xc R = x := rfl
    have e2 : yc R = y := rfl
    rw [e1, e2]
    linear_combination hx - (4 * c + 8 * x) * hy
  rcases (xc_eq_iff hRR hP).1 ex with h | h
  · exact ⟨R, h⟩
  · exact ⟨-R, by rw [← neg_add, h, neg_neg]⟩

/-- The characteristic equation of Frobenius: `F^2 P - t F P + q P = 0` for every point `P` over every extension field,
where `t = q + 1 - #E`. -/
theorem frob_char (P : EPt a b K) : charP h2 hd P = 0 := by
  let _ : DecidableEq (AlgebraicClosure K) := Classical.decEq _
  apply extHom_inj (K' := AlgebraicClosure K) h2 hd
  rw [extHom_char]
  obtain ⟨R, hR⟩ := exists_half (two_ne_ext h2 _) (disc_ext hd _) (extHom (K' := AlgebraicClosure K) h2 hd P)
  rw [← hR, charP_add, ← two_zsmul]
  exact char_two_all h2 hd R

end
end EC
