import Verif.Lemmas.EDSGen
import Mathlib.Algebra.Polynomial.Degree.Lemmas
import Mathlib.Algebra.Polynomial.Eval.Defs
import Mathlib.RingTheory.Localization.FractionRing
import Mathlib.Data.ZMod.Basic
import Mathlib.Algebra.MvPolynomial.CommRing
import Mathlib.RingTheory.MvPolynomial.Basic
import Mathlib.GroupTheory.OrderOfElement

/-! The division-polynomial identities over every commutative ring, from the generic point. -/

set_option linter.unusedSectionVars false

namespace EC.EDS
open WeierstrassCurve Polynomial

noncomputable section

section generic
variable {B : Type*} [CommRing B] [IsDomain B] [CharZero B] (α ξ : B)
variable (K : Type*) [Field K] [DecidableEq K] [Algebra B[X] K] [IsFractionRing B[X] K]

/-- The constant `b` of the generic curve. -/
def gBb : B[X] := X ^ 2 - C ξ ^ 3 - C α * C ξ
/-- The coefficient `a` of the generic curve. -/
def ga : K := algebraMap B[X] K (C α)
/-- The `x`-coordinate of the generic point. -/
def gx : K := algebraMap B[X] K (C ξ)
variable (B) in
/-- The `y`-coordinate of the generic point. -/
def gy : K := algebraMap B[X] K X
/-- The coefficient `b` of the generic curve. -/
def gb : K := algebraMap B[X] K (gBb α ξ)

variable (B) in
theorem gInj : Function.Injective (algebraMap B[X] K) := IsFractionRing.injective B[X] K

variable (B) in
include B in
theorem g2 : (2 : K) ≠ 0 := by
  have : (algebraMap B[X] K) 2 ≠ 0 := by
    rw [Ne, map_eq_zero_iff _ (gInj B K)]
    exact two_ne_zero
  rwa [map_ofNat] at this

variable (B) in
theorem gy_ne : gy B K ≠ 0 := by
  rw [gy, Ne, map_eq_zero_iff _ (gInj B K)]
  exact X_ne_zero

theorem gNonsing : (cv (ga α K) (gb α ξ K)).Nonsingular (gx ξ K) (gy B K) := by
  rw [Affine.nonsingular_iff]
  refine ⟨?_, .inr ?_⟩
  · rw [Affine.equation_iff]
    simp [ga, gb, gx, gy, gBb]
  · simp only
    intro h
    have : 2 * (gy B K) = 0 := by linear_combination h
    exact (mul_ne_zero (g2 B K) (gy_ne B K)) this

/-- The generic point. -/
def gP : Pt (ga α K) (gb α ξ K) := .some (gx ξ K) (gy B K) (gNonsing α ξ K)

/-- `t` is `f/g` with leading coefficients in the ratio `(-2)^k X`. -/
def Lead (ξ : B) (K : Type*) [Field K] [Algebra B[X] K] (k : ℕ) (t : K) : Prop :=
  ∃ (f g : B[X]) (d : ℕ), f.natDegree ≤ d ∧ g.natDegree ≤ d ∧ g.coeff d ≠ 0 ∧
    f.coeff d = (-2) ^ k * ξ * g.coeff d ∧ t * algebraMap B[X] K g = algebraMap B[X] K f

variable {K} in
theorem Lead.inj {ξ : B} (hξ : ξ ≠ 0) {k l : ℕ} {t : K} (h : Lead ξ K k t) (h' : Lead ξ K l t) : k = l := by
  obtain ⟨f, g, d, hf, hg, g0, e, ht⟩ := h
  obtain ⟨f', g', d', hf', hg', g0', e', ht'⟩ := h'
  have : f * g' = f' * g := by
    apply (gInj B K)
    rw [map_mul, map_mul, ← ht, ← ht']; ring
  have c : (f * g').coeff (d + d') = (f' * g).coeff (d + d') := by rw [this]
  rw [coeff_mul_add_eq_of_natDegree_le hf hg', add_comm d d', coeff_mul_add_eq_of_natDegree_le hf' hg, e, e'] at c
  have c2 : ((-2 : B) ^ k - (-2) ^ l) * (ξ * g.coeff d * g'.coeff d') = 0 := by linear_combination c
  have c3 := (mul_eq_zero.1 c2).resolve_right (mul_ne_zero (mul_ne_zero hξ g0) g0')
  have c4 : (-2 : B) ^ k = (-2) ^ l := sub_eq_zero.1 c3
  have c5 : (-2 : ℤ) ^ k = (-2) ^ l := by
    have : (((-2 : ℤ) ^ k : ℤ) : B) = (((-2 : ℤ) ^ l : ℤ) : B) := by push_cast; exact c4
    exact_mod_cast this
  have := congrArg Int.natAbs c5
  simp [Int.natAbs_pow] at this
  exact this

variable {ξ K} in
theorem Lead.step {k : ℕ} {t : K} (h : Lead ξ K k t) :
    t ^ 3 + (ga α K) * t + (gb α ξ K) ≠ 0 ∧ ∀ t' : K, t' * (4 * (t ^ 3 + (ga α K) * t + (gb α ξ K))) =
      (3 * t ^ 2 + (ga α K)) ^ 2 - 8 * t * (t ^ 3 + (ga α K) * t + (gb α ξ K)) → Lead ξ K (k + 1) t' := by
  obtain ⟨f, g, d, hf, hg, g0, e, ht⟩ := h
  have dA : ((C α) : B[X]).natDegree ≤ 0 := by simp
  have dX : ((C ξ) : B[X]).natDegree ≤ 0 := by simp
  have dY2 : (X ^ 2 : B[X]).natDegree ≤ 2 := by simp
  have dB : (gBb α ξ).natDegree ≤ 2 := by
    rw [gBb]
    refine (natDegree_sub_le_of_le (natDegree_sub_le_of_le dY2 (n := 0) ?_) (n := 0) ?_).trans (by simp)
    · simpa using natDegree_pow_le_of_le 3 dX
    · exact natDegree_mul_le_of_le dA dX
  have cB : (gBb α ξ).coeff 2 = 1 := by
    rw [gBb, coeff_sub, coeff_sub, coeff_X_pow, ← C_pow, ← C_mul, coeff_C, coeff_C]
    simp
  set h0 : B[X] := f ^ 3 + (C α) * f * g ^ 2 with hh0
  set h1 : B[X] := (gBb α ξ) * g ^ 3 with hh1
  have d0 : h0.natDegree ≤ 3 * d := by
    refine natDegree_add_le_of_degree_le (natDegree_pow_le_of_le 3 hf) ?_
    refine (natDegree_mul_le_of_le (natDegree_mul_le_of_le dA hf) (natDegree_pow_le_of_le 2 hg)).trans (by omega)
  have d1 : h1.natDegree ≤ 2 + 3 * d := natDegree_mul_le_of_le dB (natDegree_pow_le_of_le 3 hg)
  have c1 : h1.coeff (2 + 3 * d) = g.coeff d ^ 3 := by
    rw [hh1, coeff_mul_add_eq_of_natDegree_le dB (natDegree_pow_le_of_le 3 hg), coeff_pow_of_natDegree_le hg, cB, one_mul]
  have c0 : h0.coeff (2 + 3 * d) = 0 := coeff_eq_zero_of_natDegree_lt (by omega)
  have dh : (h0 + h1).natDegree ≤ 2 + 3 * d := natDegree_add_le_of_degree_le (by omega) d1
  have ch : (h0 + h1).coeff (2 + 3 * d) = g.coeff d ^ 3 := by rw [coeff_add, c0, c1, zero_add]
  have gne : algebraMap B[X] K g ≠ 0 := by
    rw [Ne, map_eq_zero_iff _ (gInj B K)]
    rintro rfl
    simp at g0
  have hne : algebraMap B[X] K (h0 + h1) ≠ 0 := by
    rw [Ne, map_eq_zero_iff _ (gInj B K)]
    intro hz
    rw [hz, coeff_zero] at ch
    exact pow_ne_zero 3 g0 ch.symm
  have hrel : (t ^ 3 + (ga α K) * t + (gb α ξ K)) * algebraMap B[X] K g ^ 3 = algebraMap B[X] K (h0 + h1) := by
    rw [hh0, hh1]
    simp only [map_add, map_mul, map_pow, ← ht, ga, gb]
    ring
  refine ⟨fun hz => hne (by rw [← hrel, hz, zero_mul]), fun t' ht' => ?_⟩
  refine ⟨(3 * f ^ 2 + (C α) * g ^ 2) ^ 2 - 8 * f * (h0 + h1), 4 * g * (h0 + h1), d + (2 + 3 * d), ?_, ?_, ?_, ?_, ?_⟩
  · refine (natDegree_sub_le_of_le (m := 2 * (2 * d)) (n := d + (2 + 3 * d)) ?_ ?_).trans (by simp; omega)
    · refine natDegree_pow_le_of_le 2 (natDegree_add_le_of_degree_le ?_ ?_)
      · refine (natDegree_mul_le_of_le (m := 0) (by simp) (natDegree_pow_le_of_le 2 hf)).trans (by omega)
      · refine (natDegree_mul_le_of_le dA (natDegree_pow_le_of_le 2 hg)).trans (by omega)
    · refine natDegree_mul_le_of_le ?_ dh
      exact (natDegree_mul_le_of_le (m := 0) (by simp) hf).trans (by omega)
  · refine natDegree_mul_le_of_le ?_ dh
    exact (natDegree_mul_le_of_le (m := 0) (by simp) hg).trans (by omega)
  · have e4 : (4 * g).natDegree ≤ d := (natDegree_mul_le_of_le (m := 0) (by simp) hg).trans (by omega)
    rw [coeff_mul_add_eq_of_natDegree_le e4 dh, ch]
    rw [show (4 : B[X]) = C 4 from rfl, coeff_C_mul]
    exact mul_ne_zero (mul_ne_zero (by norm_num) g0) (pow_ne_zero 3 g0)
  · have e4 : (4 * g).natDegree ≤ d := (natDegree_mul_le_of_le (m := 0) (by simp) hg).trans (by omega)
    have e8 : (8 * f).natDegree ≤ d := (natDegree_mul_le_of_le (m := 0) (by simp) hf).trans (by omega)
    rw [coeff_sub, coeff_mul_add_eq_of_natDegree_le e4 dh, coeff_mul_add_eq_of_natDegree_le e8 dh, ch]
    rw [show (4 : B[X]) = C 4 from rfl, coeff_C_mul, show (8 : B[X]) = C 8 from rfl, coeff_C_mul, e]
    have : ((3 * f ^ 2 + (C α) * g ^ 2) ^ 2).coeff (d + (2 + 3 * d)) = 0 := by
      apply coeff_eq_zero_of_natDegree_lt
      refine lt_of_le_of_lt (natDegree_pow_le_of_le (m := 2 * d) 2 (natDegree_add_le_of_degree_le ?_ ?_)) (by omega)
      · refine (natDegree_mul_le_of_le (m := 0) (by simp) (natDegree_pow_le_of_le 2 hf)).trans (by omega)
      · refine (natDegree_mul_le_of_le dA (natDegree_pow_le_of_le 2 hg)).trans (by omega)
    rw [this]
    ring
  · have : t' * algebraMap B[X] K (4 * g * (h0 + h1)) =
        t' * (4 * (t ^ 3 + (ga α K) * t + (gb α ξ K))) * algebraMap B[X] K g ^ 4 := by
      rw [map_mul, ← hrel, map_mul, map_ofNat]; ring
    rw [this, ht', map_sub, map_mul _ _ (h0 + h1), ← hrel]
    simp only [map_add, map_mul, map_pow, ← ht, ga, map_ofNat]
    ring

theorem gLead (hξ : ξ ≠ 0) : ∀ k : ℕ, 2 ^ k • (gP α ξ K) ≠ 0 ∧ Lead ξ K k (xc (2 ^ k • (gP α ξ K)))
  | 0 => by
    rw [pow_zero, one_smul]
    refine ⟨Affine.Point.some_ne_zero _, (C ξ), 1, 0, by simp, by simp, by simp, by simp, ?_⟩
    simp [gP, xc, gx]
  | k + 1 => by
    obtain ⟨h0, hL⟩ := gLead hξ k
    obtain ⟨hne, hs⟩ := hL.step α
    have he := eqn h0
    rw [← he] at hne hs
    have hy : yc (2 ^ k • (gP α ξ K)) ≠ 0 := fun h => hne (by rw [h]; ring)
    rw [pow_succ, mul_smul, two_smul, smul_add]
    refine ⟨fun h => hy ((two_nsmul_eq_zero_iff (g2 B K) h0).1 h), hs _ ?_⟩
    have := xc_double (g2 B K) h0 hy
    linear_combination this

theorem gInf (hξ : ξ ≠ 0) : Inf (gP α ξ K) := by
  intro n hn h
  haveI : NeZero n := ⟨hn⟩
  obtain ⟨k, l, hkl, e⟩ := Finite.exists_ne_map_eq_of_infinite (fun k : ℕ => ((2 ^ k : ℕ) : ZMod n))
  have e := (ZMod.natCast_eq_natCast_iff _ _ _).1 e
  have hd : addOrderOf (gP α ξ K) ∣ n := addOrderOf_dvd_of_nsmul_eq_zero h
  have e2 : 2 ^ k • (gP α ξ K) = 2 ^ l • (gP α ξ K) := nsmul_eq_nsmul_iff_modEq.2 (e.of_dvd hd)
  have := (gLead α ξ K hξ k).2
  rw [e2] at this
  exact hkl (this.inj hξ (gLead α ξ K hξ l).2)

end generic

/-- `ℤ[A, X]`. -/
abbrev GB := MvPolynomial (Fin 2) ℤ
/-- The field of fractions of `ℤ[A, X][Y]`. -/
abbrev GK := FractionRing GB[X]

/-- `A`. -/
def gA : GB := MvPolynomial.X 0
/-- `X`. -/
def gX : GB := MvPolynomial.X 1

/-- Specialisation `ℤ[A, X][Y] → R`. -/
def spec {R : Type*} [CommRing R] (a x y : R) : GB[X] →+* R :=
  eval₂RingHom (MvPolynomial.eval₂Hom (Int.castRingHom R) ![a, x]) y

theorem gX_ne : gX ≠ 0 := MvPolynomial.X_ne_zero 1

section
variable {R : Type*} [CommRing R] (a x y : R)

theorem spec_A : spec a x y (C gA) = a := by simp [spec, gA]
theorem spec_X : spec a x y (C gX) = x := by simp [spec, gX]
theorem spec_Y : spec a x y X = y := by simp [spec]
theorem spec_B {b : R} (h : y ^ 2 = x ^ 3 + a * x + b) : spec a x y (gBb gA gX) = b := by
  rw [gBb, map_sub, map_sub, map_pow, map_pow, map_mul, spec_A, spec_X, spec_Y, h]; ring

theorem map_ps {R S : Type*} [CommRing R] [CommRing S] (f : R →+* S) (a b x y : R) (n : ℤ) :
    f (ps a b x y n) = ps (f a) (f b) (f x) (f y) n := by
  rw [ps, map_normEDS, ps]
  simp only [psi3, psi4, map_mul, map_add, map_sub, map_pow, map_ofNat]

variable {a x y} {b : R} (h : y ^ 2 = x ^ 3 + a * x + b)
include h

theorem spec_ps (n : ℤ) : spec a x y (ps (C gA) (gBb gA gX) (C gX) X n) = ps a b x y n := by
  rw [map_ps, spec_A, spec_X, spec_Y, spec_B _ _ _ h]

theorem gps (n : ℤ) : algebraMap GB[X] GK (ps (C gA) (gBb gA gX) (C gX) X n) = ps (ga gA GK) (gb gA gX GK) (gx gX GK) (gy GB GK) n := by
  rw [map_ps]; rfl

/-- The elliptic relation, over every commutative ring. -/
theorem rel (n k : ℕ) (hn : n ≠ 0) (hk : k ≠ 0) :
    ps a b x y (2 * n + k) * ps a b x y k =
      ps a b x y (n + k + 1) * ps a b x y (n + k - 1) * ps a b x y n ^ 2 -
      ps a b x y (n + 1) * ps a b x y (n - 1) * ps a b x y (n + k) ^ 2 := by
  classical
  have := ps_rel (g2 GB GK) (gInf gA gX GK gX_ne) n k hn hk
  simp only [gP, xc, yc, ← gps h, ← map_mul, ← map_pow, ← map_sub] at this
  have := congrArg (spec a x y) (gInj GB GK this)
  simpa only [map_mul, map_sub, map_pow, spec_ps h] using this

/-- The recursion for the `x`-coordinates, over every commutative ring. -/
theorem relx (m : ℕ) (hm : 2 ≤ m) :
    2 * x * (ps a b x y (m + 1) * ps a b x y (m - 1)) ^ 2
      - ps a b x y (m + 2) * ps a b x y m * ps a b x y (m - 1) ^ 2
      - ps a b x y m * ps a b x y (m - 2) * ps a b x y (m + 1) ^ 2
    = 2 * (a * ps a b x y m ^ 2 + x * (x * ps a b x y m ^ 2 - ps a b x y (m + 1) * ps a b x y (m - 1)))
        * (2 * x * ps a b x y m ^ 2 - ps a b x y (m + 1) * ps a b x y (m - 1))
      + 4 * b * ps a b x y m ^ 4 := by
  classical
  have := ps_x (g2 GB GK) (gInf gA gX GK gX_ne) m hm
  have e2 : (2 : GK) = algebraMap GB[X] GK 2   := (map_ofNat _ 2).symm
  have e4 : (4 : GK) = algebraMap GB[X] GK 4 := (map_ofNat _ 4).symm
  simp only [gP, xc, yc, ← gps h] at this
  rw [ga, gx, gb, e2, e4] at this
  simp only [← map_mul, ← map_pow, ← map_sub, ← map_add] at this
  have := congrArg (spec a x y) (gInj GB GK this)
  simpa only [map_mul, map_sub, map_add, map_pow, map_ofNat, spec_ps h, spec_A, spec_X, spec_B _ _ _ h] using this

end
end
end EC.EDS
