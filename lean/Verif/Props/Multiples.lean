import Verif.Props.DivPoly
import Verif.Props.Curve
import Verif.Lemmas.EDSTors

/-! Property C63: the division polynomials describe the multiples of the points of a curve.

`psi(a,b,n)`, `phi(a,b,n)`, `omega(a,b,n)` are evaluated with `eval_xy` at the coordinates of a point of the curve over
GF(p); the results, read modulo `p`, determine `n • P` in Mathlib's group of points. -/

namespace EC
open Poly Polynomial WeierstrassCurve

/-- Evaluation of a polynomial with integer coefficients in a ring. -/
noncomputable def evR (R : Type*) [CommRing R] (x y : R) : ℤ[X][X] →+* R :=
  eval₂RingHom (eval₂RingHom (Int.castRingHom R) x) y

theorem evR_cast {R : Type*} [CommRing R] (x y : ℤ) (f : ℤ[X][X]) :
    ((f.evalEval x y : ℤ) : R) = evR R x y f := by
  have : (Int.castRingHom R).comp (evalEvalRingHom x y) = evR R (x : R) (y : R) := by
    apply Polynomial.ringHom_ext
    · intro q
      induction q using Polynomial.induction_on' with
      | add p q hp hq => rw [C_add, map_add, map_add, hp, hq]
      | monomial n c => simp [evR, evalEval, ← C_mul_X_pow_eq_monomial]
    · simp [evR, evalEval]
  exact congrArg (fun g => g f) this

theorem evR_X {R : Type*} [CommRing R] (x y : R) : evR R x y X = y := by simp [evR]
theorem evR_CX {R : Type*} [CommRing R] (x y : R) : evR R x y (C X) = x := by simp [evR]
theorem evR_CC {R : Type*} [CommRing R] (x y : R) (n : ℤ) : evR R x y (C (C n)) = n := by
  simp [evR, -eq_intCast, -map_intCast, eval₂_C]

section
variable {R : Type*} [CommRing R] {a b : ℤ} {x y : R} (h : y ^ 2 = x ^ 3 + a * x + b)
include h

theorem evR_mk {f g : ℤ[X][X]} (e : Affine.CoordinateRing.mk (shortW a b).toAffine f =
    Affine.CoordinateRing.mk (shortW a b).toAffine g) : evR R x y f = evR R x y g := by
  obtain ⟨q, hq⟩ := AdjoinRoot.mk_eq_mk.1 e
  have hz : evR R x y (shortW a b).toAffine.polynomial = 0 := by
    rw [Affine.polynomial]
    simp only [map_sub, map_add, map_mul, map_pow, evR_X, evR_CX, evR_CC, h, Int.cast_zero]
    ring
  rw [← sub_eq_zero, ← map_sub, hq, map_mul, hz, zero_mul]

theorem evR_psi (n : ℤ) : evR R x y ((shortW a b).Ψ n) = EDS.ps (a : R) b x y n := by
  rw [evR_mk h (Affine.CoordinateRing.mk_ψ (shortW a b) n).symm, WeierstrassCurve.ψ, map_normEDS, EDS.ps]
  congr 1
  · rw [WeierstrassCurve.ψ₂, Affine.polynomialY]
    simp [evR]
  · rw [WeierstrassCurve.Ψ₃]
    simp only [WeierstrassCurve.b₂, WeierstrassCurve.b₄, WeierstrassCurve.b₆, WeierstrassCurve.b₈, EDS.psi3,
      map_sub, map_add, map_mul, map_pow, evR_CX, evR_CC, map_ofNat]
    push_cast
    ring
  · rw [WeierstrassCurve.preΨ₄]
    simp only [WeierstrassCurve.b₂, WeierstrassCurve.b₄, WeierstrassCurve.b₆, WeierstrassCurve.b₈, EDS.psi4,
      map_sub, map_add, map_mul, map_pow, evR_CX, evR_CC, map_ofNat]
    push_cast
    ring

end

/-- C31: `psi(a,b,2n) = 2 psi(a,b,n) omega(a,b,n)` exactly (for the values of the polynomials). -/
theorem C31_double (a b n : ℤ) (c d : Poly) (hn : 1 ≤ n) (hc : psi a b n = .ok c) (hd : omega a b n = .ok d) :
    2 * c.polyXY ℤ * d.polyXY ℤ = (shortW a b).Ψ (2 * n) := by
  rw [(C29_psi a b n c hc).2.1]
  rcases (by omega : n = 1 ∨ 2 ≤ n) with rfl | h2
  · obtain ⟨d', hd', e⟩ := C31_omega_one a b
    rw [hd] at hd'; cases hd'
    rw [e]
    simp [WeierstrassCurve.Ψ, psi2]
    rfl
  · have e := (C31_omega a b n d h2 hd).1
    have ev := (shortW a b).Ψ_even n
    have h0 : (shortW a b).ψ₂ ≠ 0 := by
      rw [psi2]
      exact mul_ne_zero (by simp) X_ne_zero
    apply mul_right_cancel₀ h0
    rw [ev]
    rw [psi2]
    have : (C (C 2) : ℤ[X][X]) = 2 := by simp only [map_ofNat]
    rw [this]
    linear_combination (shortW a b).Ψ n * e

namespace EllipticCurve
variable {ec : EllipticCurve} [Fact (Nat.Prime ec.p.toNat)]

theorem two_ne (h : ec.Good) : (2 : ZMod ec.p.toNat) ≠ 0 := by
  have hp := h.prime
  intro h0
  have h2 : ((2 : ℕ) : ZMod ec.p.toNat) = 0 := by exact_mod_cast h0
  rw [ZMod.natCast_eq_zero_iff] at h2
  have := (Nat.prime_dvd_prime_iff_eq hp Nat.prime_two).1 h2
  have := h.odd
  omega

theorem rep_coords {P : ECPoint} {Q : ec.W.Point} (r : ec.Rep P Q) (z : P.z ≠ 0) :
    Q ≠ 0 ∧ (P.x : ZMod ec.p.toNat) = EDS.xc Q ∧ (P.y : ZMod ec.p.toNat) = EDS.yc Q := by
  cases Q with
  | zero => exact absurd r z
  | some x y hn => exact ⟨Affine.Point.some_ne_zero _, r.2.1, r.2.2⟩

theorem eval_psi {P : ECPoint} {Q : ec.W.Point} (r : ec.Rep P Q) (z : P.z ≠ 0)
    {n : ℕ} {c : Poly} (hc : psi ec.a ec.b n = .ok c) :
    ((c.evalXY P.x P.y : ℤ) : ZMod ec.p.toNat) = EDS.F Q n := by
  obtain ⟨h0, hx, hy⟩ := rep_coords r z
  rw [C22_eval_xy _ (psi_spec _ _ _ _ hc).2.isXY, (C29_psi _ _ _ _ hc).2.1, evR_cast, hx, hy,
    evR_psi (EDS.eqn h0), EDS.F]

theorem eval_phi {P : ECPoint} {Q : ec.W.Point} (r : ec.Rep P Q) (z : P.z ≠ 0)
    {n : ℕ} {c : Poly} (hc : phi ec.a ec.b n = .ok c) :
    ((c.evalXY P.x P.y : ℤ) : ZMod ec.p.toNat) =
      EDS.xc Q * EDS.F Q n ^ 2 - EDS.F Q (n + 1) * EDS.F Q (n - 1) := by
  obtain ⟨h0, hx, hy⟩ := rep_coords r z
  obtain ⟨h1, -, hX, -, -⟩ := phi_spec hc
  have hall : c.All (fun k => k.IsXY ∧ k.y = 0) := hX.mono fun k hk => ⟨⟨hk.1, hk.2.1.ge, hk.2.2⟩, hk.2.1⟩
  rw [C22_eval_xy _ (hall.mono fun _ h => h.1), (polyXY_of_y0 hall).2, evR_cast, hx, hy,
    evR_mk (EDS.eqn h0) (C30_phi_class _ _ _ _ hc), map_sub, map_mul, map_mul, map_pow,
    evR_mk (EDS.eqn h0) (Affine.CoordinateRing.mk_ψ _ _), evR_mk (EDS.eqn h0) (Affine.CoordinateRing.mk_ψ _ (n + 1)),
    evR_mk (EDS.eqn h0) (Affine.CoordinateRing.mk_ψ _ (n - 1)), evR_psi (EDS.eqn h0), evR_psi (EDS.eqn h0),
    evR_psi (EDS.eqn h0)]
  simp only [EDS.F, Nat.cast_sub (show 1 ≤ n by omega)]
  push_cast
  congr 2
  simp [evR]

theorem eval_omega (h : ec.Good) {P : ECPoint} {Q : ec.W.Point} (r : ec.Rep P Q) (z : P.z ≠ 0)
    {n : ℕ} (hn : 1 ≤ n) {c : Poly} (hc : omega ec.a ec.b n = .ok c) (hQ : n • Q ≠ 0) :
    ((c.evalXY P.x P.y : ℤ) : ZMod ec.p.toNat) = EDS.yc (n • Q) * EDS.F Q n ^ 3 := by
  obtain ⟨h0, hx, hy⟩ := rep_coords r z
  have hxy : c.All Key.IsXY := by
    rcases (by omega : n = 1 ∨ 2 ≤ n) with rfl | h2
    · rw [Nat.cast_one, omega_one] at hc
      cases hc
      exact all_toPol fun _ => by
        simp [Key.IsXY, TermBuilder.new, TermBuilder.build, TermBuilder.ypow, Monomial.key, SubVar.key, SubVar.new]
    · exact (omega_spec hc (by omega)).2.1.mono fun _ h => h.1
  obtain ⟨d, hd⟩ : ∃ d, psi ec.a ec.b n = .ok d := by
    rw [(C32_psi_returns_iff ec.a ec.b n).1]
    have := ((C32_omega_returns_iff ec.a ec.b n).1).1 ⟨c, hc⟩
    omega
  have e := congrArg (evR (ZMod ec.p.toNat) (P.x : ZMod ec.p.toNat) (P.y : ZMod ec.p.toNat))
    (C31_double ec.a ec.b n d c (by omega) hd hc)
  rw [map_mul, map_mul, map_ofNat, ← evR_cast, ← evR_cast, ← C22_eval_xy _ hxy,
    ← C22_eval_xy _ (psi_spec _ _ _ _ hd).2.isXY, eval_psi r z hd, hx, hy, evR_psi (EDS.eqn h0)] at e
  have f : EDS.F Q n ≠ 0 := fun hz => hQ ((EDS.F_eq_zero_iff (two_ne h) h0 n (by omega)).1 hz)
  have fy := EDS.F_y (two_ne h) h0 n (by omega) hQ
  have e2 : EDS.ps (ec.a : ZMod ec.p.toNat) ec.b (EDS.xc Q) (EDS.yc Q) (2 * n) = EDS.F Q (2 * n) := by
    rw [EDS.F]; push_cast; rfl
  rw [e2, ← fy] at e
  apply mul_left_cancel₀ (mul_ne_zero (two_ne h) f)
  linear_combination e

/-- C63: the value of `psi(a,b,n)` at a point vanishes modulo `p` exactly when `n • P` is the point at infinity. -/
theorem C63_psi_zero_iff (h : ec.Good) (P : ECPoint) (Q : ec.W.Point) (r : ec.Rep P Q) (z : P.z ≠ 0)
    (n : ℕ) (hn : 1 ≤ n) (c : Poly) (hc : psi ec.a ec.b n = .ok c) :
    ec.p ∣ c.evalXY P.x P.y ↔ n • Q = 0 := by
  rw [← EDS.F_eq_zero_iff (two_ne h) (rep_coords r z).1 n (by omega), ← eval_psi r z hc,
    ZMod.intCast_zmod_eq_zero_iff_dvd, Int.toNat_of_nonneg h.p_pos.le]

/-- C63: equivalently, exactly when the number returned by `point_order` divides `n`. -/
theorem C63_psi_point_order (h : ec.Good) (P : ECPoint) (o : ec.isOnCurve P = .ok true) (z : P.z ≠ 0)
    (n : ℕ) (hn : 1 ≤ n) (c : Poly) (hc : psi ec.a ec.b n = .ok c) :
    ∃ r, Returns (fun fuel => pointOrder fuel ec P) r ∧ (ec.p ∣ c.evalXY P.x P.y ↔ r ∣ n) := by
  obtain ⟨Q, r⟩ := (isOnCurve_iff_rep h P).1 o
  refine ⟨addOrderOf Q, C48_point_order h P Q r, ?_⟩
  rw [C63_psi_zero_iff h P Q r z n hn c hc, Int.natCast_dvd_natCast, addOrderOf_dvd_iff_nsmul_eq_zero]

/-- C63: if `n • P` is not the point at infinity then its coordinates are `phi / psi^2` and `omega / psi^3`,
where `phi`, `omega`, `psi` are the values of `phi(a,b,n)`, `omega(a,b,n)`, `psi(a,b,n)` at `P`. -/
theorem C63_coordinates (h : ec.Good) (P : ECPoint) (Q : ec.W.Point) (r : ec.Rep P Q) (z : P.z ≠ 0)
    (n : ℕ) (hn : 1 ≤ n) (hQ : n • Q ≠ 0) (c f g : Poly) (hc : psi ec.a ec.b n = .ok c)
    (hf : phi ec.a ec.b n = .ok f) (hg : omega ec.a ec.b n = .ok g) (S : ECPoint) (rS : ec.Rep S (n • Q)) :
    ¬ ec.p ∣ c.evalXY P.x P.y ∧
    S.x * c.evalXY P.x P.y ^ 2 ≡ f.evalXY P.x P.y [ZMOD ec.p] ∧
    S.y * c.evalXY P.x P.y ^ 3 ≡ g.evalXY P.x P.y [ZMOD ec.p] := by
  have hS : S.z ≠ 0 := fun hz => hQ ((rep_zero_iff rS).1 hz)
  obtain ⟨h0, hx, hy⟩ := rep_coords rS hS
  refine ⟨fun hd => hQ ((C63_psi_zero_iff h P Q r z n hn c hc).1 hd), ?_, ?_⟩
  · rw [← Int.toNat_of_nonneg h.p_pos.le, ← ZMod.intCast_eq_intCast_iff]
    push_cast
    rw [eval_phi r z hf, eval_psi r z hc, hx]
    exact EDS.F_x (two_ne h) (rep_coords r z).1 n (by omega) hQ
  · rw [← Int.toNat_of_nonneg h.p_pos.le, ← ZMod.intCast_eq_intCast_iff]
    push_cast
    rw [eval_omega h r z hn hg hQ, eval_psi r z hc, hy]

/-- C63: `phi` and `psi` have no common zero on the curve. -/
theorem C63_no_common_zero (h : ec.Good) (P : ECPoint) (o : ec.isOnCurve P = .ok true) (z : P.z ≠ 0)
    (n : ℕ) (hn : 1 ≤ n) (c f : Poly) (hc : psi ec.a ec.b n = .ok c) (hf : phi ec.a ec.b n = .ok f) :
    ¬ (ec.p ∣ c.evalXY P.x P.y ∧ ec.p ∣ f.evalXY P.x P.y) := by
  obtain ⟨Q, r⟩ := (isOnCurve_iff_rep h P).1 o
  rintro ⟨h1, h2⟩
  have hQ := (C63_psi_zero_iff h P Q r z n hn c hc).1 h1
  have h0 := (rep_coords r z).1
  have hF := (EDS.F_eq_zero_iff (two_ne h) h0 n (by omega)).2 hQ
  have hp : ((f.evalXY P.x P.y : ℤ) : ZMod ec.p.toNat) = 0 := by
    rw [ZMod.intCast_zmod_eq_zero_iff_dvd, Int.toNat_of_nonneg h.p_pos.le]; exact h2
  rw [eval_phi r z hf, hF] at hp
  exact EDS.F_phi_ne (two_ne h) h0 n (by omega) hQ (by linear_combination -hp)

/-- C63: `multiply_scalar` agrees with the division polynomials: whenever its result is a finite point and the order of
the point is odd, the coordinates of the result are the quotients of `C63_coordinates`; and the result is a point at
infinity exactly when `psi` vanishes. -/
theorem C63_multiply_scalar (h : ec.Good) (P : ECPoint) (Q : ec.W.Point) (r : ec.Rep P Q) (z : P.z ≠ 0)
    (hodd : Odd (addOrderOf Q)) (n : ℕ) (hn : 1 ≤ n) (c f g : Poly) (hc : psi ec.a ec.b n = .ok c)
    (hf : phi ec.a ec.b n = .ok f) (hg : omega ec.a ec.b n = .ok g) :
    ∃ S, ec.multiplyScalar P n = .ok S ∧ (S.isInfinity = true ↔ ec.p ∣ c.evalXY P.x P.y) ∧
      (S.isInfinity = false → S.x * c.evalXY P.x P.y ^ 2 ≡ f.evalXY P.x P.y [ZMOD ec.p] ∧
        S.y * c.evalXY P.x P.y ^ 3 ≡ g.evalXY P.x P.y [ZMOD ec.p]) := by
  obtain ⟨S, hS, rS⟩ := C46_odd_order h P Q r n hodd
  refine ⟨S, hS, ?_, fun hi => ?_⟩
  · rw [C63_psi_zero_iff h P Q r z n hn c hc, ← rep_zero_iff rS]
    simp [ECPoint.isInfinity]
  · have : S.z ≠ 0 := by simpa [ECPoint.isInfinity] using hi
    exact (C63_coordinates h P Q r z n hn (fun h0 => this ((rep_zero_iff rS).2 h0)) c f g hc hf hg S rS).2

/-! Concrete cases: on `y^2 = x^3 + 6x + 2` over GF(7) the point `(0,3)` has order 9. -/

example : ∃ c f g, psi sampleCurve.a sampleCurve.b (5 : ℕ) = .ok c ∧ phi sampleCurve.a sampleCurve.b (5 : ℕ) = .ok f ∧
    omega sampleCurve.a sampleCurve.b (5 : ℕ) = .ok g := by
  obtain ⟨c, hc⟩ := ((C32_psi_returns_iff 6 2 5).1).2 (by norm_num)
  obtain ⟨f, hf⟩ := ((C32_phi_returns_iff 6 2 5).1).2 (by norm_num)
  obtain ⟨g, hg⟩ := ((C32_omega_returns_iff 6 2 5).1).2 (by norm_num)
  exact ⟨c, f, g, hc, hf, hg⟩

/-- The values at `(0,3)` for `n = 5`: `5 • (0,3) = (2,1)` and `2 psi^2 = phi`, `1 psi^3 = omega` modulo 7. -/
example : (do
    let c ← psi 6 2 5
    let f ← phi 6 2 5
    let g ← omega 6 2 5
    pure (c.evalXY 0 3 % 7, f.evalXY 0 3 % 7, g.evalXY 0 3 % 7) : Res (ℤ × ℤ × ℤ)) = .ok (2, 1, 1) := by decide +kernel

/-- The hypotheses of `C63_psi_point_order` are met by `(0,3)` and `n = 9`. -/
example : ∃ r, Returns (fun fuel => pointOrder fuel sampleCurve ⟨0, 3, 1⟩) r ∧
    ∃ c, psi 6 2 9 = .ok c ∧ (sampleCurve.p ∣ c.evalXY 0 3 ↔ r ∣ (9 : ℕ)) := by
  obtain ⟨c, hc⟩ := ((C32_psi_returns_iff 6 2 9).1).2 (by norm_num)
  obtain ⟨r, h1, h2⟩ := C63_psi_point_order sampleCurve_good ⟨0, 3, 1⟩ (by decide +kernel) (by decide) 9 (by norm_num) c hc
  exact ⟨r, h1, c, hc, h2⟩

end EllipticCurve
end EC
