import Verif.Witness.Out
import Verif.Props.Curve
import Verif.Props.TwoPower
import Verif.Props.CurveHistory
import Verif.Props.GroupStructure
import Verif.Props.Hasse
import Verif.Props.Multiples
import Verif.Props.DivSeq
import Verif.Props.CurveTwist
import Verif.Props.Secp256k1

/-! Witnesses for the properties of curves (C41-C52, C63, C70, C71, C80-C82, C94, C96): each theorem with hypotheses,
applied to the curve `y^2 = x^3 + 6x + 2` over GF(7), whose nine points form a cyclic group generated by `(0,3)`. -/

namespace EC
namespace EllipticCurve

private theorem good : sampleCurve.Good := sampleCurve_good
private theorem wf : sampleCurve.WF := good.wf
private theorem on03 : sampleCurve.isOnCurve ⟨0, 3, 1⟩ = .ok true := by decide +kernel
private theorem on13 : sampleCurve.isOnCurve ⟨1, 3, 1⟩ = .ok true := by decide +kernel
private theorem on91 : sampleCurve.isOnCurve ⟨9, -1, 1⟩ = .ok true := by decide +kernel

private theorem rep : ∃ Q, sampleCurve.Rep ⟨0, 3, 1⟩ Q := (isOnCurve_iff_rep good _).1 on03
/-- The group element denoted by `(0,3)`. -/
private noncomputable def Q0 := rep.choose
private theorem r0 : sampleCurve.Rep ⟨0, 3, 1⟩ Q0 := rep.choose_spec
private theorem order : addOrderOf Q0 = 9 := by
  obtain ⟨N, hN⟩ := C48_point_order good.fair ⟨0, 3, 1⟩ Q0 r0
  obtain ⟨M, hM⟩ := pointOrder_returns (ec := sampleCurve) (P := ⟨0, 3, 1⟩) (f := 20) (n := 9) (by decide +kernel)
  have h := hN (max N M) (le_max_left _ _)
  have h' := hM (max N M) (le_max_right _ _)
  rw [h] at h'
  exact_mod_cast Res.ok.inj h'

example := C41_is_on_curve wf (by decide) ⟨9, -1, 1⟩
example := C41_representatives wf (by decide) ⟨9, -1, 1⟩ ⟨2, 6, 1⟩ (by decide) (by decide) (by decide)
example := C41_denotes good ⟨9, -1, 1⟩
example := C42_zero_plus good ⟨5, 8, 0⟩ ⟨9, -1, 1⟩ rfl on91
example := C42_comm good ⟨0, 3, 1⟩ ⟨9, -1, 1⟩ (by decide) (by decide) on03 on91
example := C42_assoc good ⟨9, -1, 1⟩ ⟨0, 3, 1⟩ ⟨1, 3, 1⟩ _ _ (by decide) (by decide) (by decide) (by unfold ECPoint.Canonical; decide)
  on91 on03 on13 (Res.eq_out (sampleCurve.plus ⟨9, -1, 1⟩ ⟨0, 3, 1⟩) (by decide +kernel))
  (Res.eq_out (sampleCurve.plus ⟨0, 3, 1⟩ ⟨1, 3, 1⟩) (by decide +kernel)) (by decide +kernel)
example := C42_panics wf (by decide) ⟨0, 3, 1⟩ ⟨1, 1, 1⟩ (.inr (by decide +kernel))
example := C43_neutral_partial good ⟨9, -1, 1⟩ on91
example := C43_plus_zero_refuted good ⟨9, -1, 1⟩ on91 (by decide)
example := C44_negate good ⟨9, -1, 1⟩ on91
example := C44_involutive good ⟨0, 3, 1⟩ (by unfold ECPoint.Canonical; decide) _ (Res.eq_out (sampleCurve.negate ⟨0, 3, 1⟩) (by decide +kernel))
example := C44_plus_negate good ⟨9, -1, 1⟩ _ on91 (Res.eq_out (sampleCurve.negate ⟨9, -1, 1⟩) (by decide +kernel))
example := C45_new_panics 6 2 9 (fun h => absurd h.1 (show ¬ Nat.Prime 9 by norm_num))
example := C46_multiply_scalar good.fair ⟨0, 3, 1⟩ Q0 r0 1000
example := C46_multiply_scalar_iff good.fair ⟨0, 3, 1⟩ Q0 r0 1000
example := C46_odd_order good.fair ⟨0, 3, 1⟩ Q0 r0 1000 (by rw [order]; decide)
example := C47_negative_scalar_partial good ⟨0, 3, 1⟩ on03 5
example := C47_negative_scalar_refuted good ⟨0, 3, 1⟩ Q0 r0 (by
  intro h
  have : addOrderOf Q0 ∣ 2 := addOrderOf_dvd_iff_nsmul_eq_zero.2 (by rw [two_nsmul, h])
  rw [order] at this; revert this; decide)
example := C50_j_invariant good
private instance : (sampleCurve.W).IsElliptic := ⟨isUnit_iff_ne_zero.2 (by decide +kernel)⟩
example := C50_j_mathlib good 3 (by decide +kernel)

/-- What `EllipticCurve::new(6, 2, 7)` returns. -/
private def curve7 : EllipticCurve :=
  { newRaw 6 2 7 with points := (irange 0 7).flatMap (newRaw 6 2 7).ptsAt ++ [ECPoint.infinity] }
private theorem hnew : EllipticCurve.new 6 2 7 = .ok curve7 := new_eq (show Nat.Prime 7 by norm_num) (by norm_num)
private theorem card : curve7.cardinality = 9 := by decide +kernel
private instance : Fact (Nat.Prime curve7.p.toNat) := ⟨show Nat.Prime 7 by norm_num⟩

example := C45_bijection 6 2 7 _ hnew (by norm_num) (by norm_num)
example := C49_division_points_partial 6 2 7 hnew (by norm_num) (by norm_num) 3
example := C49_exact 6 2 7 hnew (by norm_num) (by norm_num) 3 (.inl (by rw [card]; decide))
example := C51_isogeny_returns_partial 6 2 7 hnew (by norm_num) (by norm_num) 3

private theorem nd : ¬ (7 : ℤ) ∣ 4 * 6 ^ 3 + 27 * 2 ^ 2 := by norm_num
private theorem r2 : sampleCurve.Rep ⟨1, 3, 1⟩ (2 • Q0) := by
  obtain ⟨S, h1, h2⟩ := C46_odd_order good.fair ⟨0, 3, 1⟩ Q0 r0 2 (by rw [order]; decide)
  have h3 : sampleCurve.multiplyScalar ⟨0, 3, 1⟩ (2 : ℕ) = .ok ⟨1, 3, 1⟩ := by decide +kernel
  rw [h1] at h3
  cases h3
  exact h2
private theorem n2 : 2 • Q0 ≠ 0 := fun h => by
  have : addOrderOf Q0 ∣ 2 := addOrderOf_dvd_iff_nsmul_eq_zero.2 h
  rw [order] at this; revert this; decide

example := C49_iff 6 2 7 hnew (by norm_num) nd 3
example := C51_trivial_kernel_refuted 6 2 7 2 hnew (by decide) (by decide) (by decide +kernel)
example := C80_closed good (Call.plus (.point ⟨0, 3, 1⟩) (.multiplyScalar (.point ⟨9, -1, 1⟩) 4)) ⟨on03, on91⟩
example := C80_create_points 6 2 7 _ hnew (by norm_num) nd 3
example := C81_order_dvd 6 2 7 _ hnew (by norm_num) nd ⟨9, -1, 1⟩ (by decide +kernel)
example := C81_annihilates 6 2 7 _ hnew (by norm_num) nd ⟨9, -1, 1⟩ (by decide +kernel)
example := C94_group 6 2 7 _ hnew (by norm_num) nd
example := C94_structure 6 2 7 _ hnew (by norm_num) nd
example := C70_hasse 6 2 7 _ hnew (by norm_num) nd
example := C70_bounds 6 2 7 _ hnew (by norm_num) nd
example := C94_torsion_bound 6 2 7 _ hnew (by norm_num) nd 9 (by norm_num) [⟨0, 3, 1⟩, ⟨1, 3, 1⟩] (by decide) (by
  intro P hP
  simp only [List.mem_cons, List.not_mem_nil, or_false] at hP
  rcases hP with rfl | rfl
  · exact ⟨by decide +kernel, 9, by decide, pointOrder_returns (f := 20) (by decide +kernel)⟩
  · exact ⟨by decide +kernel, 9, by decide, pointOrder_returns (f := 20) (by decide +kernel)⟩)

/-- What `EllipticCurve::new(0, 3, 7)` returns; it has 13 points. -/
private def curve13 : EllipticCurve :=
  { newRaw 0 3 7 with points := (irange 0 7).flatMap (newRaw 0 3 7).ptsAt ++ [ECPoint.infinity] }
private theorem hnew13 : EllipticCurve.new 0 3 7 = .ok curve13 := new_eq (show Nat.Prime 7 by norm_num) (by norm_num)
example := C81_determines 0 3 7 _ hnew13 (by norm_num) (by norm_num) ⟨1, 2, 1⟩ (by decide +kernel) 13
  (pointOrder_returns (f := 20) (by decide +kernel)) (by norm_num) 13
example := C94_cyclic 0 3 7 _ hnew13 (by norm_num) (by norm_num) (.inr (by decide +kernel))

/-- What `EllipticCurve::new(3, 2, 7)` returns: `6 * 3^4 = 3`, `2 * 3^6 = 2`. -/
private def curveTw : EllipticCurve :=
  { newRaw 3 2 7 with points := (irange 0 7).flatMap (newRaw 3 2 7).ptsAt ++ [ECPoint.infinity] }
private theorem hnewTw : EllipticCurve.new 3 2 7 = .ok curveTw := new_eq (show Nat.Prime 7 by norm_num) (by norm_num)
example := C82_same_j 6 2 7 3 2 _ _ hnew hnewTw (by norm_num) nd (by norm_num) (by norm_num) (by norm_num) (by decide +kernel)

/-! Division polynomials at the point `(0,3)`. -/

example := C63_psi_zero_iff good ⟨0, 3, 1⟩ Q0 r0 (by decide) 5 (by decide) _
  (Res.eq_out (psi sampleCurve.a sampleCurve.b (5 : ℕ)) (by decide +kernel))
example := C63_coordinates good ⟨0, 3, 1⟩ Q0 r0 (by decide) 2 (by decide) n2 _ _ _
  (Res.eq_out (psi sampleCurve.a sampleCurve.b (2 : ℕ)) (by decide +kernel))
  (Res.eq_out (phi sampleCurve.a sampleCurve.b (2 : ℕ)) (by decide +kernel))
  (Res.eq_out (omega sampleCurve.a sampleCurve.b (2 : ℕ)) (by decide +kernel)) ⟨1, 3, 1⟩ r2
example := C63_no_common_zero good ⟨0, 3, 1⟩ on03 (by decide) 2 (by decide) _ _
  (Res.eq_out (psi sampleCurve.a sampleCurve.b (2 : ℕ)) (by decide +kernel))
  (Res.eq_out (phi sampleCurve.a sampleCurve.b (2 : ℕ)) (by decide +kernel))
example := C63_multiply_scalar good ⟨0, 3, 1⟩ Q0 r0 (by decide) (by rw [order]; decide) 3 (by decide) _ _ _
  (Res.eq_out (psi sampleCurve.a sampleCurve.b (3 : ℕ)) (by decide +kernel))
  (Res.eq_out (phi sampleCurve.a sampleCurve.b (3 : ℕ)) (by decide +kernel))
  (Res.eq_out (omega sampleCurve.a sampleCurve.b (3 : ℕ)) (by decide +kernel))
example := C96_chain good ⟨0, 3, 1⟩ ⟨1, 3, 1⟩ Q0 r0 (by decide) 2 3 (by decide) r2 (by decide) _ _ _
  (Res.eq_out (psi sampleCurve.a sampleCurve.b (2 : ℕ)) (by decide +kernel))
  (Res.eq_out (psi sampleCurve.a sampleCurve.b (3 : ℕ)) (by decide +kernel))
  (Res.eq_out (psi sampleCurve.a sampleCurve.b ((3 * 2 : ℕ) : ℤ)) (by decide +kernel))
example := C96_gcd good ⟨0, 3, 1⟩ on03 (by decide) 4 6 (by decide) (by decide) _ _ _
  (Res.eq_out (psi sampleCurve.a sampleCurve.b (4 : ℕ)) (by decide +kernel))
  (Res.eq_out (psi sampleCurve.a sampleCurve.b (6 : ℕ)) (by decide +kernel))
  (Res.eq_out (psi sampleCurve.a sampleCurve.b (Nat.gcd 4 6 : ℕ)) (by decide +kernel))

/-! secp256k1. -/

private noncomputable def G0 := C52_generator_exists.choose
private theorem rG0 : Secp256k1.new.ec.Rep Secp256k1.new.g G0 := C52_generator_exists.choose_spec.1
example := C52_generator_order G0 rG0
example := C71_cyclic G0 rG0 (5 • G0)
example := C71_multiply_scalar Secp256k1.new.g C52_generator_on_curve (10 ^ 70)
example := C52_multiply_scalar G0 rG0 Secp256k1.new.g 1
  (by rw [one_nsmul]; exact rG0) (10 ^ 70)

end EllipticCurve

/-! Division polynomials as polynomials. -/

private theorem ok_psi (n : ℤ) (h : 0 ≤ n ∧ n ≤ 65536) : (psi 6 2 n).isOk = true := by
  obtain ⟨c, hc⟩ := (C32_psi_returns_iff 6 2 n).1.2 h
  rw [hc]; rfl
private theorem ok_phi (n : ℤ) (h : 1 ≤ n ∧ n ≤ 46340) : (phi 6 2 n).isOk = true := by
  obtain ⟨c, hc⟩ := (C32_phi_returns_iff 6 2 n).1.2 h
  rw [hc]; rfl
private theorem ok_omega (n : ℤ) (h : 1 ≤ n ∧ n ≤ 37837) : (omega 6 2 n).isOk = true := by
  obtain ⟨c, hc⟩ := (C32_omega_returns_iff 6 2 n).1.2 h
  rw [hc]; rfl

example := C29_psi 6 2 60000 _ (Res.eq_out _ (ok_psi 60000 (by norm_num)))
example := C29_psi_class 6 2 60000 _ (Res.eq_out _ (ok_psi 60000 (by norm_num)))
example := C30_phi 6 2 40000 _ (Res.eq_out _ (ok_phi 40000 (by norm_num)))
example := C30_phi_class 6 2 40000 _ (Res.eq_out _ (ok_phi 40000 (by norm_num)))
example := C31_omega 6 2 30000 _ (by decide) (Res.eq_out _ (ok_omega 30000 (by norm_num)))
example := C31_omega_class 6 2 30000 _ (by decide) (Res.eq_out _ (ok_omega 30000 (by norm_num)))
example := C31_double 6 2 30000 _ _ (by decide) (Res.eq_out _ (ok_psi 30000 (by norm_num))) (Res.eq_out _ (ok_omega 30000 (by norm_num)))
example := C96_psi_odd 6 2 60001 (by decide +kernel) _ (Res.eq_out _ (ok_psi ((60001 : ℕ) : ℤ) (by norm_num)))
example := C96_psi_even 6 2 60000 (by decide +kernel) (by decide) _ (Res.eq_out _ (ok_psi ((60000 : ℕ) : ℤ) (by norm_num)))
example := C96_phi 6 2 40000 _ (Res.eq_out _ (ok_phi ((40000 : ℕ) : ℤ) (by norm_num)))
example := C96_omega 6 2 30000 _ (Res.eq_out _ (ok_omega ((30000 : ℕ) : ℤ) (by norm_num)))
example := C96_divides 6 2 1000 60000 (by norm_num) _ _ (Res.eq_out _ (ok_psi ((1000 : ℕ) : ℤ) (by norm_num))) (Res.eq_out _ (ok_psi ((60000 : ℕ) : ℤ) (by norm_num)))
private theorem ok_psi' (n : ℤ) (h : 0 ≤ n ∧ n ≤ 65536) : (psi 0 (-2) n).isOk = true := by
  obtain ⟨c, hc⟩ := (C32_psi_returns_iff 0 (-2) n).1.2 h
  rw [hc]; rfl
example := C96_divides_eval 0 (-2) 3 5 (by norm_num) 1000 60000 (by norm_num) _ _
  (Res.eq_out _ (ok_psi' ((1000 : ℕ) : ℤ) (by norm_num))) (Res.eq_out _ (ok_psi' ((60000 : ℕ) : ℤ) (by norm_num)))

end EC
