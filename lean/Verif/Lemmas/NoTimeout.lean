import Verif.Model.ModularPolynomial
import Verif.Lemmas.PolyPow

/-! The functions whose loops are all bounded never run out of fuel in the model. -/

namespace EC

open Poly

theorem Res.bind_ne_timeout {α β : Type} {x : Res α} {f : α → Res β} (hx : x ≠ .timeout) (hf : ∀ a, f a ≠ .timeout) :
    x >>= f ≠ .timeout := by
  cases x with
  | ok a => exact hf a
  | panic w => simp
  | timeout => exact absurd rfl hx

theorem Res.ok_ne_timeout {α : Type} (a : α) : Res.ok a ≠ .timeout := by simp
theorem Res.panic_ne_timeout {α : Type} (w) : (Res.panic w : Res α) ≠ .timeout := by simp

/-- Decompose a computation into steps. -/
syntax "nt" : tactic
macro_rules
  | `(tactic| nt) => `(tactic| repeat' (first
      | exact Res.ok_ne_timeout _
      | exact Res.panic_ne_timeout _
      | exact chk_ne_timeout
      | exact rassert_ne_timeout _
      | exact modFloor_ne_timeout _ _
      | exact Term.mul_ne_timeout _ _
      | exact mul_ne_timeout _ _
      | exact power_ne_timeout _ _
      | assumption
      | refine Res.bind_ne_timeout ?_ fun _ => ?_
      | refine foldlM_ne_timeout (fun _ _ => ?_) _ _
      | split))

theorem evalXPolynomial_ne_timeout (f g : Poly) : f.evalXPolynomial g ≠ .timeout := by
  unfold Poly.evalXPolynomial Monomial.evalXPolynomial
  nt

theorem evalYPolynomial_ne_timeout (f g : Poly) : f.evalYPolynomial g ≠ .timeout := by
  unfold Poly.evalYPolynomial Monomial.evalYPolynomial
  nt

theorem omit_ne_timeout (f : Poly) (N : ℤ) : f.omitHighOrderQ N ≠ .timeout := by
  unfold Poly.omitHighOrderQ
  nt

theorem toQPower_ne_timeout (f : Poly) (N : ℤ) : f.toQPower N ≠ .timeout := by
  unfold Poly.toQPower Term.toQPower
  nt

theorem toQPowerCoef_ne_timeout (f : Poly) (N : ℤ) : f.toQPowerCoef N ≠ .timeout := by
  unfold Poly.toQPowerCoef
  nt

theorem toVariableCoef_ne_timeout (f : Poly) (v : SubVar) : f.toVariableCoef v ≠ .timeout := by
  unfold Poly.toVariableCoef
  nt

theorem sigmaDivisor_ne_timeout (n k : ℤ) : sigmaDivisor n k ≠ .timeout := by
  unfold sigmaDivisor
  nt

theorem eisenstein4_ne_timeout (n : ℤ) : eisenstein4 n ≠ .timeout := by
  have := fun n => sigmaDivisor_ne_timeout n 3
  unfold eisenstein4
  nt
  exact this _

theorem subTermPol_ne_timeout (i j k l : ℤ) : subTermPol i j k l ≠ .timeout := by
  unfold subTermPol TermBuilder.variableIJ
  nt

theorem solve_ne_timeout (m : Mat) : solve m ≠ .timeout := by
  unfold solve solveColumn
  nt
  dsimp only
  nt

theorem converter_new_ne_timeout (p : ℤ) : Converter.new p ≠ .timeout := by
  unfold Converter.new
  nt

theorem findVariable_ne_timeout (t : ℤ) : ∀ (l : List (ℤ × ℤ)) (i : ℤ), Converter.findVariable t l i ≠ .timeout := by
  intro l
  induction l with
  | nil => intro i; unfold Converter.findVariable; nt
  | cons a l ih =>
    intro i
    unfold Converter.findVariable
    split_ifs
    · nt
    · exact Res.bind_ne_timeout chk_ne_timeout fun _ => ih _

theorem variableFromIndex_ne_timeout (c : Converter) (n : ℕ) : c.variableFromIndex n ≠ .timeout := by
  unfold Converter.variableFromIndex
  exact Res.bind_ne_timeout chk_ne_timeout fun _ => findVariable_ne_timeout _ _ _

theorem count_ne_timeout (c : Converter) : c.count ≠ .timeout := by
  unfold Converter.count
  nt

theorem powerOmit_ne_timeout (f : Poly) (n N : ℤ) : f.powerOmitHighOrderQ n N ≠ .timeout := by
  unfold Poly.powerOmitHighOrderQ mulAssign Poly.omitHighOrderQ
  nt

theorem delta1_ne_timeout (n : ℤ) : delta1 n ≠ .timeout := by
  unfold delta1
  refine Res.bind_ne_timeout chk_ne_timeout fun _ => foldlM_ne_timeout (fun _ _ => ?_) _ _
  refine Res.bind_ne_timeout (powerOmit_ne_timeout _ _ _) fun _ => Res.bind_ne_timeout (mul_ne_timeout _ _) fun _ => ?_
  exact omit_ne_timeout _ _

theorem delta1Inverse_ne_timeout (n : ℤ) : delta1Inverse n ≠ .timeout := by
  unfold delta1Inverse
  refine Res.bind_ne_timeout (delta1_ne_timeout _) fun _ => Res.bind_ne_timeout chk_ne_timeout fun _ =>
    foldlM_ne_timeout (fun _ _ => ?_) _ _
  exact Res.bind_ne_timeout (powerOmit_ne_timeout _ _ _) fun _ => Res.ok_ne_timeout _

theorem jInvariant1_ne_timeout (n : ℤ) : jInvariant1 n ≠ .timeout := by
  unfold jInvariant1
  refine Res.bind_ne_timeout (delta1Inverse_ne_timeout _) fun _ => Res.bind_ne_timeout (eisenstein4_ne_timeout _) fun _ =>
    Res.bind_ne_timeout (power_ne_timeout _ _) fun _ => Res.bind_ne_timeout (omit_ne_timeout _ _) fun _ =>
    Res.bind_ne_timeout (mul_ne_timeout _ _) fun _ => omit_ne_timeout _ _

theorem jInvariantQ_ne_timeout (n : ℤ) : jInvariantQ n ≠ .timeout := by
  unfold jInvariantQ
  exact Res.bind_ne_timeout chk_ne_timeout fun _ => Res.bind_ne_timeout (jInvariant1_ne_timeout _) fun _ =>
    mul_ne_timeout _ _

theorem generic_ne_timeout (p : ℤ) : subscriptedVariableModularPolynomial p ≠ .timeout := by
  unfold subscriptedVariableModularPolynomial
  nt

theorem polQ_ne_timeout (p : ℤ) : subscriptedVariableModularPolynomialQ p ≠ .timeout := by
  unfold subscriptedVariableModularPolynomialQ
  exact Res.bind_ne_timeout (generic_ne_timeout _) fun _ => Res.bind_ne_timeout chk_ne_timeout fun _ =>
    Res.bind_ne_timeout chk_ne_timeout fun _ => Res.bind_ne_timeout (jInvariantQ_ne_timeout _) fun _ =>
    Res.bind_ne_timeout (toQPower_ne_timeout _ _) fun _ => Res.bind_ne_timeout (evalXPolynomial_ne_timeout _ _) fun _ =>
    Res.bind_ne_timeout (evalYPolynomial_ne_timeout _ _) fun _ => omit_ne_timeout _ _

theorem polList_ne_timeout (p : ℤ) : subscriptedVariableModularPolynomialList p ≠ .timeout := by
  unfold subscriptedVariableModularPolynomialList
  exact Res.bind_ne_timeout (polQ_ne_timeout _) fun _ => Res.bind_ne_timeout chk_ne_timeout fun _ =>
    Res.bind_ne_timeout chk_ne_timeout fun _ => foldlM_ne_timeout (fun _ _ =>
      Res.bind_ne_timeout (toQPowerCoef_ne_timeout _ _) fun _ => Res.ok_ne_timeout _) _ _

theorem modularRow_ne_timeout (c : Converter) (n : ℕ) (f : Poly) : modularRow c n f ≠ .timeout := by
  unfold modularRow
  exact Res.bind_ne_timeout (foldlM_ne_timeout (fun _ _ => Res.bind_ne_timeout (variableFromIndex_ne_timeout _ _) fun _ =>
    Res.bind_ne_timeout (toVariableCoef_ne_timeout _ _) fun _ => Res.ok_ne_timeout _) _ _) fun _ =>
    Res.bind_ne_timeout (toVariableCoef_ne_timeout _ _) fun _ => Res.ok_ne_timeout _

theorem modularAssemble_ne_timeout (c : Converter) (b : Mat) (n : ℕ) (f : Poly) (i : ℕ) :
    modularAssemble c b n f i ≠ .timeout := by
  unfold modularAssemble
  exact Res.bind_ne_timeout (variableFromIndex_ne_timeout _ _) fun _ => Res.ok_ne_timeout _

theorem modularPolynomial_ne_timeout (p : ℤ) : modularPolynomial p ≠ .timeout := by
  unfold modularPolynomial
  exact Res.bind_ne_timeout (polList_ne_timeout _) fun _ => Res.bind_ne_timeout (converter_new_ne_timeout _) fun _ =>
    Res.bind_ne_timeout (count_ne_timeout _) fun _ => Res.bind_ne_timeout (foldlM_ne_timeout (fun _ _ =>
      Res.bind_ne_timeout (modularRow_ne_timeout _ _ _) fun _ => Res.ok_ne_timeout _) _ _) fun _ =>
    Res.bind_ne_timeout (solve_ne_timeout _) fun _ => Res.bind_ne_timeout (foldlM_ne_timeout (fun _ _ =>
      modularAssemble_ne_timeout _ _ _ _ _) _ _) fun _ => Res.bind_ne_timeout chk_ne_timeout fun _ =>
    Res.ok_ne_timeout _

end EC
