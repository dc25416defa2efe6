import Verif.Witness.Out
import Verif.Props.PolyDiv
import Verif.Props.PolyDivAll
import Verif.Props.PolyDivAny
import Verif.Props.PolyMaps
import Verif.Lemmas.Fuel

/-! Witnesses for C15-C19, C22-C28 and C88: each theorem with hypotheses, applied to concrete inputs. -/

namespace EC

open Polynomial Poly

private theorem isX (f : Poly)
    (h : ∀ e ∈ f.entries, 0 ≤ e.1.key.x ∧ e.1.key.y = 0 ∧ e.1.key.q = 0 ∧ e.1.key.v = none) : f.All Key.IsX := h
private theorem isXY (f : Poly)
    (h : ∀ e ∈ f.entries, 0 ≤ e.1.key.x ∧ 0 ≤ e.1.key.y ∧ e.1.key.q = 0 ∧ e.1.key.v = none) : f.All Key.IsXY := h
private theorem nonneg (f : Poly)
    (h : ∀ e ∈ f.entries, 0 ≤ e.1.key.x ∧ 0 ≤ e.1.key.y ∧ 0 ≤ e.1.key.q) : f.All Key.Nonneg := h
private theorem canon (f : Poly) (h : ∀ e ∈ f.entries, e.2 ≠ 0) : f.Canon := h

/-- `3 x^2 y + 5 y + 1`. -/
private def sampleXY : Poly :=
  ((((TermBuilder.new.coef 3).xpow 2).ypow 1).build.add ((TermBuilder.new.coef 5).ypow 1).build).addTerm Term.one

private instance prime5 : Fact (Nat.Prime (5 : ℤ).toNat) := ⟨show Nat.Prime 5 by norm_num⟩

private theorem isX_X3' : sampleX3'.All Key.IsX := isX _ (by decide +kernel)

private theorem not_coprime : ¬ IsCoprime (sampleX3.polyX (ZMod (5 : ℤ).toNat)) (sampleX3'.polyX (ZMod (5 : ℤ).toNat)) := by
  intro h
  have := C16_diverges 5 sampleX3 sampleX3' isX_sampleX3 (by decide +kernel) (by decide +kernel)
    isX_X3' (by decide +kernel) (by decide +kernel) h 20
  revert this; decide +kernel

example := C15_panics 5 sampleX3 sampleXYQ 9 (by decide +kernel)
example := C16_gcd 5 sampleX3 sampleX3' isX_sampleX3 (by decide +kernel) (by decide +kernel) isX_X3' (by decide +kernel)
  (by decide +kernel) not_coprime
example := (C17_is_gcd_one_refuted 5 sampleX3 sampleX3' isX_sampleX3 (by decide +kernel) (by decide +kernel) isX_X3'
  (by decide +kernel) (by decide +kernel)).1 not_coprime
example := C18_to_monic 5 any2x1 (isX _ (by decide +kernel)) (by decide +kernel) (by decide +kernel)
example := C18_zero 5 Poly.new (by decide +kernel)
example := C18_any_modulus any2x1 (isX _ (by decide +kernel)) (by decide +kernel) (by decide +kernel) 15
example := C27_degree sampleX3 isX_sampleX3 (canon _ (by decide +kernel)) (by decide +kernel)
example := C27_zero Poly.new (by decide +kernel)
example := C28_exact (((TermBuilder.new.coef 4).xpow 3).build.add (TermBuilder.new.coef 6).build)
  ((TermBuilder.new.coef 2).xpow 1).build.toPol _ ⟨1, 0, 0, SubVar.new⟩ 2 (by decide +kernel) (by decide +kernel)
  (Res.eq_out (((((TermBuilder.new.coef 4).xpow 3).build.add (TermBuilder.new.coef 6).build)).div
    ((TermBuilder.new.coef 2).xpow 1).build.toPol) (by decide +kernel))
example := C28_floor sampleXYQ ((TermBuilder.new.coef 2).xpow 1).build.toPol _ ⟨1, 0, 0, SubVar.new⟩ 2 (by decide +kernel)
  (Res.eq_out (sampleXYQ.div ((TermBuilder.new.coef 2).xpow 1).build.toPol) (by decide +kernel))
example := C28_returns sampleXYQ sampleX1 (by decide +kernel)
example := C28_panics sampleXYQ sampleX1 (by decide +kernel)
example := C15_any_modulus_sound (p := 9) (by decide) anyx21 any2x1 _ (isX _ (by decide +kernel)) (by decide +kernel)
  (isX _ (by decide +kernel))
  ((mono_polynomialModular _ _ _).returns (n := 9) (Res.eq_out (anyx21.polynomialModular 9 any2x1 9) (by decide +kernel)))
example := C15_any_modulus (p := 9) (by decide) any2x1 (isX _ (by decide +kernel)) (by decide +kernel) (by decide +kernel)
example := C15_any_modulus_diverges (p := 15) (by decide) anyx21 any2x1 (isX _ (by decide +kernel)) (by decide +kernel)
  (isX _ (by decide +kernel)) (by decide +kernel) 5 (by norm_num) (by decide) (by decide +kernel) (by decide +kernel)
example := C15_small_modulus (p := 1) (by decide) anyx21 any2x1 (by decide +kernel) 0
example := C16_any_modulus (p := 9) (by decide) sampleX3 (((TermBuilder.new.coef 1).xpow 3).build.add (TermBuilder.new.coef 2).build) _
  isX_sampleX3 (by decide +kernel) (isX _ (by decide +kernel)) (by decide +kernel)
  ((mono_gcd _ _ _).returns (n := 20) (Res.eq_out (Poly.gcd 20 sampleX3
    (((TermBuilder.new.coef 1).xpow 3).build.add (TermBuilder.new.coef 2).build) 9) (by decide +kernel)))
example := C88_gcd_swap 5 sampleX3' sampleX3 (by decide +kernel)
example := (C88_gcd 5 sampleX3 sampleX3' isX_sampleX3 (by decide +kernel) isX_X3' (by decide +kernel) (by decide +kernel)
  _ _ rfl rfl).1 ⟨by decide +kernel, fun h => absurd h (by decide +kernel), .inr not_coprime⟩

example := C19_derivative_x sampleXYQ (by decide +kernel)
example := C19_derivative_y sampleXYQ (by decide +kernel)
example := C19_univariate sampleX3 isX_sampleX3
example := C22_eval_xy sampleXY (isXY _ (by decide +kernel)) 2 (-7)
example := C22_multiplicative sampleXY sampleX3 _ (isXY _ (by decide +kernel)) (isXY _ (by decide +kernel))
  (Res.eq_out (sampleXY.mul sampleX3) (by decide +kernel)) 2 (-7)
example := C22_eval_x sampleXY (by decide +kernel) 2
example := C22_eval_y sampleXY (by decide +kernel) 2
example := C22_eval_chain sampleXY (isXY _ (by decide +kernel)) 2 (-7)
example := C23_eval_x_polynomial sampleXY sampleX3 _ (Res.eq_out (sampleXY.evalXPolynomial sampleX3) (by decide +kernel))
example := C23_eval_y_polynomial sampleXY sampleX3 _ (Res.eq_out (sampleXY.evalYPolynomial sampleX3) (by decide +kernel))
example := C23_eval_x_polynomial_value sampleXY sampleX3 _ (nonneg _ (by decide +kernel)) (nonneg _ (by decide +kernel))
  (Res.eq_out (sampleXY.evalXPolynomial sampleX3) (by decide +kernel)) ℤ 2 3 5 (fun _ => 7)
example := C23_eval_y_polynomial_value sampleXY sampleX3 _ (nonneg _ (by decide +kernel)) (nonneg _ (by decide +kernel))
  (Res.eq_out (sampleXY.evalYPolynomial sampleX3) (by decide +kernel)) ℤ 2 3 5 (fun _ => 7)
example := C24_to_frob sampleXYQ _ 7 (by decide) (Res.eq_out (sampleXYQ.toFrob 7) (by decide +kernel))
example := C24_to_y_power sampleXYQ _ (-7) (by decide) (Res.eq_out (sampleXYQ.toYPower (-7)) (by decide +kernel))
example := C24_to_q_power sampleXYQ _ 7 (by decide) (Res.eq_out (sampleXYQ.toQPower 7) (by decide +kernel))
private theorem coef_sampleQ (k : ℤ) : (sampleQ.toQPowerCoef k).isOk = true := by
  obtain ⟨c, hc⟩ := (C25_to_q_power_coef_returns sampleQ k).1.2 (by decide +kernel)
  rw [hc]; rfl
example : sampleQ.val = ∑ k ∈ {1, 3}, mono 0 0 k * ((sampleQ.toQPowerCoef k).out (coef_sampleQ k)).val :=
  (C25_to_q_power_coef sampleQ {1, 3} (by decide +kernel) _ (fun k => Res.eq_out _ (coef_sampleQ k))).1
example := C25_to_variable_coef (((TermBuilder.new.coef 2).var { i := 0, j := 1, empty := false }).build.toPol)
  { i := 0, j := 1, empty := false } (by decide +kernel)
example := C25_to_variable_coef_panics sampleQ { i := 0, j := 1, empty := false } (by decide +kernel)
example := C25_to_scalar (TermBuilder.new.coef 5).build.toPol (by decide +kernel) (canon _ (by decide +kernel)) 5
example := C25_to_scalar_panics sampleX3 (by decide +kernel) (canon _ (by decide +kernel))
example := C26_omit sampleQ 2 (by decide) (by decide +kernel)
example := C26_omit_returns_only sampleQ _ 2 (Res.eq_out (sampleQ.omitHighOrderQ 2) (by decide +kernel))
example := C26_power_omit sample1mq _ 4 2 (nonneg _ (by decide +kernel)) (by decide)
  (Res.eq_out (sample1mq.powerOmitHighOrderQ 4 2) (by decide +kernel))
example := C26_power_omit_returns sample1mq 4 2 1 (by decide +kernel) (by decide) (by decide) (by decide)

end EC
