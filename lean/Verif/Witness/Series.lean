import Verif.Witness.Out
import Verif.Props.Reduction
import Verif.Props.NormalForm
import Verif.Props.TruncPower
import Verif.Props.QDomain
import Verif.Props.Solve
import Verif.Props.ModularTerms
import Verif.Props.ModularExists
import Verif.Props.ModularDomain
import Verif.Props.RingLaws
import Verif.Props.Terms
import Verif.Props.Display
import Verif.Props.SubstDomain
import Verif.Props.IsogenyExact
import Verif.Props.OutputCallers

/-! Witnesses for C20, C21, C33-C40, C57-C60, C65, C68, C69, C75-C77, C89, C91, C98, C99: each theorem with hypotheses,
applied to concrete inputs. -/

namespace EC

private theorem isXY (f : Poly)
    (h : ∀ e ∈ f.entries, 0 ≤ e.1.key.x ∧ 0 ≤ e.1.key.y ∧ e.1.key.q = 0 ∧ e.1.key.v = none) : f.All Key.IsXY := h
private theorem nonneg (f : Poly)
    (h : ∀ e ∈ f.entries, 0 ≤ e.1.key.x ∧ 0 ≤ e.1.key.y ∧ 0 ≤ e.1.key.q) : f.All Key.Nonneg := h
private theorem canon (f : Poly) (h : ∀ e ∈ f.entries, e.2 ≠ 0) : f.Canon := h

/-! Reduction modulo the curve equation; `(0,3)` is on `y^2 = x^3 + 2x + 9`. -/

example := C20_reduction sampleRed _ 2 7 (Res.eq_out (sampleRed.reduction 2 7) (by decide +kernel))
example := C20_reduction_eval (R := ℤ) sampleRed _ 2 9 0 3 5 (fun _ => 7) (nonneg _ (by decide +kernel)) (by norm_num)
  (Res.eq_out (sampleRed.reduction 2 9) (by decide +kernel))
example := C21_reduction_modular sampleRed _ 2 7 11 (by decide) (Res.eq_out (sampleRed.reductionModular 2 7 11) (by decide +kernel))
example := C21_returns sampleRed 2 7 11 (by decide) (by decide +kernel)
example := C21_reduction_modular_eval (R := ZMod 11) sampleRed _ 2 9 11 (by decide) 0 3 5 (fun _ => 7) (by decide)
  (nonneg _ (by decide +kernel)) (by decide) (Res.eq_out (sampleRed.reductionModular 2 9 11) (by decide +kernel))
example := C89_reduction_modular_normal_form sampleRed sampleX1 _ _ 2 7 11 (by decide) (isXY _ (by decide +kernel))
  (isXY _ (by decide +kernel)) (Res.eq_out (sampleRed.reductionModular 2 7 11) (by decide +kernel))
  (Res.eq_out (sampleX1.reductionModular 2 7 11) (by decide +kernel))
example := C89_reduction_normal_form sampleRed sampleX1 _ _ 2 7 (isXY _ (by decide +kernel))
  (isXY _ (by decide +kernel)) (Res.eq_out (sampleRed.reduction 2 7) (by decide +kernel))
  (Res.eq_out (sampleX1.reduction 2 7) (by decide +kernel))
private theorem okRed : (sampleRed.reductionModular 2 7 11).isOk = true := by decide +kernel
example := C89_idempotent sampleRed _ _ 2 7 11 (by decide) (isXY _ (by decide +kernel)) (Res.eq_out _ okRed)
  (Res.eq_out (((sampleRed.reductionModular 2 7 11).out okRed).reductionModular 2 7 11) (by decide +kernel))
private theorem okX1 : (sampleX1.reductionModular 2 7 11).isOk = true := by decide +kernel
private theorem okM : (sampleRed.mul sampleX1).isOk = true := by decide +kernel
private theorem okM' : (((sampleRed.reductionModular 2 7 11).out okRed).mul ((sampleX1.reductionModular 2 7 11).out okX1)).isOk = true := by
  decide +kernel
example := C89_mul sampleRed sampleX1 _ _ _ _ _ _ 2 7 11 (by decide) (isXY _ (by decide +kernel)) (isXY _ (by decide +kernel))
  (Res.eq_out _ okRed) (Res.eq_out _ okX1) (Res.eq_out _ okM) (Res.eq_out _ okM')
  (Res.eq_out (((sampleRed.mul sampleX1).out okM).reductionModular 2 7 11) (by decide +kernel))
  (Res.eq_out (((((sampleRed.reductionModular 2 7 11).out okRed).mul ((sampleX1.reductionModular 2 7 11).out okX1)).out okM').reductionModular
    2 7 11) (by decide +kernel))
example := C26_power_omit_laurent sampleLaurent _ 3 2 1 (by decide) (by decide) (by decide +kernel)
  (Res.eq_out (sampleLaurent.powerOmitHighOrderQ 3 2) (by decide +kernel))

/-! q-series. -/

example := C33_domain 2147483647 (by decide)
example := C35_domain (-5) (by decide)
example := C33_eisenstein4 1000 (by decide) (by decide)
example := C34_delta1 1000 (by decide) (by decide)
example := C34_delta1_finite 1000 2000 (by decide) (by decide) (by decide)
example := C35_delta1_inverse 1000 (by decide) (by decide)
example := C35_delta1_mul_inverse 1000 (by decide) (by decide)
example := C36_j_invariant1 1000 (by decide) (by decide)
example := C36_j_invariant 1000 (by decide) (by decide)
example := C36_prefix 10 1000 (by decide) (by decide) (by decide)

/-! Linear systems and modular polynomials. -/

private theorem aug : Augmented [[0, 2, 6], [3, 1, 9], [3, 3, 15]] 2 := ⟨_, _, rfl, rfl, by decide⟩
private theorem sol : Solves [[0, 2, 6], [3, 1, 9], [3, 3, 15]] 2 (fun k => if k = 0 then 2 else 3) := by
  intro r hr
  simp only [List.mem_cons, List.not_mem_nil, or_false] at hr
  rcases hr with rfl | rfl | rfl <;> simp [Finset.sum_range_succ]
example := C37_returns_iff aug
example := C37_solve aug sol (Res.eq_out (solve [[0, 2, 6], [3, 1, 9], [3, 3, 15]]) (by decide +kernel))
example := C37_malformed (M := [[1, 2, 3], [4, 5]]) (by
  rintro ⟨n, r, M, h1, h2, h3⟩
  have h4 := (List.cons.inj h1).1
  have h6 := h3 [4, 5] (by simp)
  subst h4
  simp at h2 h6; omega)
example := C38_generic 101 (by norm_num) (by norm_num)
example := C38_generic_panics 6 (fun h => absurd h.1 (show ¬ Nat.Prime 6 by norm_num)) (by norm_num)
private theorem okPhi (p : ℕ) (hp : p.Prime) (hb : p ≤ 214) : ∃ f, modularPolynomial p = .ok f := C40_returns p hp hb
private noncomputable def phi211 : Poly := (okPhi 211 (by norm_num) (by norm_num)).choose
private theorem hphi211 : modularPolynomial (211 : ℕ) = .ok phi211 := (okPhi 211 (by norm_num) (by norm_num)).choose_spec
example := C39_shape 211 _ hphi211
example := C39_symmetric 211 _ hphi211
example := C39_stored 211 _ hphi211 100 50
example := C77_whenever_returns (211 : ℕ) _ hphi211
example := C75_exists 211 (by norm_num)
private noncomputable def c211 := (C75_exists 211 (by norm_num)).choose
private theorem low211 : ∀ n ≤ 0, (modularAt 211 c211 jLaurent (qPow 211 (by norm_num) jLaurent)).coeff n = 0 := by
  intro n _
  have := (C75_exists 211 (by norm_num)).choose_spec
  show (modularAt 211 c211 jLaurent _).coeff n = 0
  unfold c211
  rw [this]; simp
example := C40_modular_polynomial 211 (by norm_num) (by norm_num) c211 low211
example := C40_unique 211 (by norm_num) c211 c211 low211 low211
example := C75_low_order 211 (by norm_num) c211 low211
example := C75_modular_polynomial 211 (by norm_num) (by norm_num)
example := C76_kronecker 211 (by norm_num) (by norm_num)
example := C77_j_invariant1 1000 (by norm_num)

/-! Ring laws and terms. -/

private theorem okA : (sampleX1.mul sampleXYQ).isOk = true := by decide +kernel
private theorem okB : (sampleXYQ.mul sampleXm1).isOk = true := by decide +kernel
example := C68_mul_assoc sampleX1 sampleXYQ sampleXm1 _ _ _ _ (Res.eq_out _ okA)
  (Res.eq_out (((sampleX1.mul sampleXYQ).out okA).mul sampleXm1) (by decide +kernel)) (Res.eq_out _ okB)
  (Res.eq_out (sampleX1.mul ((sampleXYQ.mul sampleXm1).out okB)) (by decide +kernel))
example := C68_mul_one sampleXYQ _ (.inr (Res.eq_out (Poly.one.mul sampleXYQ) (by decide +kernel)))
example := C68_additive sampleX1 sampleXYQ sampleXm1 (canon _ (by decide +kernel)) (canon _ (by decide +kernel))
  (canon _ (by decide +kernel))
private theorem okC : (sampleXYQ.mul (sampleX1.add sampleXm1)).isOk = true := by decide +kernel
private theorem okD : (sampleXYQ.mul sampleX1).isOk = true := by decide +kernel
example := C68_distrib sampleXYQ sampleX1 sampleXm1 _ _ _ _ _ (Res.eq_out _ okC) (Res.eq_out _ okD) (Res.eq_out _ okB) 7 (by decide)
  (Res.eq_out (((sampleXYQ.mul (sampleX1.add sampleXm1)).out okC).rem 7) (by decide +kernel))
  (Res.eq_out ((((sampleXYQ.mul sampleX1).out okD).add ((sampleXYQ.mul sampleXm1).out okB)).rem 7) (by decide +kernel))
private theorem okP : (sampleX1.power 7).isOk = true := by decide +kernel
private theorem okF : (sampleX1.toFrob 7).isOk = true := by decide +kernel
example := C69_frobenius sampleX1 _ _ _ _ 7 (show Nat.Prime 7 by norm_num) (by decide +kernel) (Res.eq_out _ okP) (Res.eq_out _ okF)
  (Res.eq_out (((sampleX1.power 7).out okP).rem 7) (by decide +kernel))
  (Res.eq_out (((sampleX1.toFrob 7).out okF).rem 7) (by decide +kernel))
example := C59_div (((TermBuilder.new.coef 6).xpow 5).build) (((TermBuilder.new.coef 3).xpow 2).build) _
  (Res.eq_out (Term.div (((TermBuilder.new.coef 6).xpow 5).build) (((TermBuilder.new.coef 3).xpow 2).build)) (by decide +kernel))
example := C59_power_modulo sampleT 1000 7 (by decide) (by decide)
example := C59_is_equal_order sampleT (((TermBuilder.new.coef 5).xpow 2).ypow 1).build (by decide) (by decide) (by decide) (by decide)
example := C65_eval_q ⟨0, 0, 31, SubVar.new⟩ (-2) (by decide)
example := C98_eval_y_polynomial sampleRed sampleX1 (by decide +kernel) (by decide +kernel)

/-! Printing. -/

example := C57_display_injective sampleX1 sampleX1 rfl
example := C57_display_eq_iff sampleX1 sampleXYQ (canon _ (by decide +kernel)) (canon _ (by decide +kernel))
example := C58_display_affine ⟨9, -1, 1⟩ (by decide)
example := C58_display_points_injective [⟨9, -1, 1⟩, ⟨3, 5, 0⟩] [⟨9, -1, 1⟩, ⟨0, 1, 0⟩] (by decide +kernel)
example := C99_point_order_off_curve EllipticCurve.sampleCurve ⟨1, 1, 1⟩ (by decide +kernel) 5

namespace EllipticCurve

private def curve7 : EllipticCurve :=
  { newRaw 6 2 7 with points := (irange 0 7).flatMap (newRaw 6 2 7).ptsAt ++ [ECPoint.infinity] }
private theorem hnew : EllipticCurve.new 6 2 7 = .ok curve7 := new_eq (show Nat.Prime 7 by norm_num) (by norm_num)
example := C91_isogeny 6 2 7 hnew 3 _ (Res.eq_out (curve7.divisionPoints 3) (by decide +kernel))
example := C91_domain 6 2 7 hnew 3
example := C91_bounds 6 2 7 hnew (by decide) (by decide) (by decide) 3 _ (Res.eq_out (curve7.divisionPoints 3) (by decide +kernel))
example := C60_display_injective sampleCurve sampleCurve sampleCurve_good.wf sampleCurve_good.wf _
  (Res.eq_out sampleCurve.display (by decide +kernel)) (Res.eq_out sampleCurve.display (by decide +kernel))

end EllipticCurve
end EC
