import Verif.Model.Release
import Verif.Lemmas.PolyPow

/-! The release-build model agrees with the dev-profile model as long as the latter does not report an overflow. -/

namespace EC

/-- The computation does not panic with an `i32` overflow. -/
def NoOv {α : Type} (x : Res α) : Prop := x ≠ .panic .overflow

namespace NoOv

theorem ok {α : Type} (a : α) : NoOv (Res.ok a) := by simp [NoOv]
theorem panic {α : Type} {w : Panic} (h : w ≠ .overflow) : NoOv (Res.panic w : Res α) := by simpa [NoOv] using h
theorem timeout {α : Type} : NoOv (Res.timeout : Res α) := by simp [NoOv]

theorem bind {α β : Type} {x : Res α} {f : α → Res β} (h : NoOv x) (hf : ∀ a, NoOv (f a)) : NoOv (x >>= f) := by
  cases x with
  | ok a => exact hf a
  | panic w => simpa [NoOv] using h
  | timeout => simp [NoOv]

theorem foldlM {α β : Type} {f : α → β → Res α} (h : ∀ a b, NoOv (f a b)) (l : List β) (a : α) :
    NoOv (l.foldlM f a) := by
  induction l generalizing a with
  | nil => exact ok _
  | cons e t ih => rw [List.foldlM_cons]; exact bind (h a e) ih

theorem forM {β : Type} {f : β → Res Unit} (h : ∀ b, NoOv (f b)) (l : List β) : NoOv (l.forM f) := by
  induction l with
  | nil => exact ok _
  | cons e t ih => exact bind (h e) fun _ => ih

theorem rassert (c : Bool) : NoOv (EC.rassert c) := by cases c <;> simp [NoOv, EC.rassert]
theorem modFloor (a p : Int) : NoOv (EC.modFloor a p) := by unfold EC.modFloor NoOv; split_ifs <;> simp
theorem divFloor (a p : Int) : NoOv (EC.divFloor a p) := by unfold EC.divFloor NoOv; split_ifs <;> simp
theorem wrp (n : Int) : NoOv (EC.wrp n) := ok _

end NoOv

syntax "nov_step" : tactic
/-- Decompose a computation into steps, none of which overflows. -/
macro "nov" : tactic => `(tactic| repeat' (first
      | with_reducible exact NoOv.ok _
      | with_reducible exact NoOv.timeout
      | with_reducible exact NoOv.rassert _
      | with_reducible exact NoOv.modFloor _ _
      | with_reducible exact NoOv.divFloor _ _
      | with_reducible exact NoOv.wrp _
      | nov_step
      | (with_reducible refine NoOv.panic ?_; decide)
      | with_reducible assumption
      | with_reducible refine NoOv.bind ?_ fun _ => ?_
      | with_reducible refine NoOv.foldlM (fun _ _ => ?_) _ _
      | with_reducible refine NoOv.forM (fun _ => ?_) _
      | split))
macro_rules | `(tactic| nov_step) => `(tactic| fail)

theorem nov_powModLoop (p e b r : Int) : NoOv (powModLoop p e b r) := by
  obtain ⟨k, hk⟩ : ∃ k, e.toNat = k := ⟨_, rfl⟩
  induction k using Nat.strong_induction_on generalizing e b r with
  | _ k ih =>
    rw [powModLoop]
    by_cases h : e > 1
    · have hlt : (e.tdiv 2).toNat < k := by rw [Int.tdiv_eq_ediv_of_nonneg (by omega)]; omega
      rw [if_pos h]; nov <;> exact ih _ hlt _ _ _ rfl
    · rw [if_neg h]; nov
theorem nov_powerModulo (a n p : Int) : NoOv (powerModulo a n p) := by
  unfold powerModulo; split_ifs
  · exact NoOv.ok _
  · exact nov_powModLoop _ _ _ _
theorem nov_inverse (a p : Int) : NoOv (inverse a p) := NoOv.bind (NoOv.rassert _) fun _ => nov_powerModulo _ _ _
theorem nov_termModularAssign (t : Term) (p : Int) : NoOv (t.modularAssign p) := by unfold Term.modularAssign; nov
theorem nov_assertBelow (p c : Int) : NoOv (Poly.assertBelow p c) := by unfold Poly.assertBelow; nov
macro_rules | `(tactic| nov_step) => `(tactic| with_reducible first
  | exact nov_powerModulo _ _ _ | exact nov_inverse _ _ | exact nov_termModularAssign _ _ | exact nov_assertBelow _ _)
theorem nov_rem (f : Poly) (p : Int) : NoOv (f.rem p) := by unfold Poly.rem; nov
theorem nov_modAssignLoop (f : Poly) (p : Int) : NoOv (f.modAssignLoop p) := by unfold Poly.modAssignLoop; nov
theorem nov_modularAssign (f : Poly) (p : Int) : NoOv (f.modularAssign p) := by
  unfold Poly.modularAssign
  refine NoOv.bind (nov_modAssignLoop _ _) fun _ => ?_
  dsimp only
  nov
theorem nov_subTermPol (i j k l : Int) : NoOv (subTermPol i j k l) := by
  unfold subTermPol TermBuilder.variableIJ; nov
theorem nov_toQPowerCoef (f : Poly) (p : Int) : NoOv (f.toQPowerCoef p) := by unfold Poly.toQPowerCoef; nov
theorem nov_toVariableCoef (f : Poly) (v : SubVar) : NoOv (f.toVariableCoef v) := by unfold Poly.toVariableCoef; nov
theorem nov_degreeX (f : Poly) : NoOv f.degreeX := by unfold Poly.degreeX; nov
theorem nov_jInvariant (ec : EllipticCurve) : NoOv ec.jInvariant := by unfold EllipticCurve.jInvariant; nov
theorem nov_solveColumn (n : Nat) (s : SolveState) (i : Nat) : NoOv (solveColumn n s i) := by unfold solveColumn; nov
theorem nov_converter (p : Int) : NoOv (Converter.new p) := by unfold Converter.new; nov
macro_rules | `(tactic| nov_step) => `(tactic| with_reducible first
  | exact nov_rem _ _ | exact nov_modularAssign _ _ | exact nov_subTermPol _ _ _ _ | exact nov_toQPowerCoef _ _
  | exact nov_toVariableCoef _ _ | exact nov_degreeX _ | exact nov_jInvariant _ | exact nov_solveColumn _ _ _
  | exact nov_converter _)
theorem nov_seaRoots (p : Int) (g : Poly) (d : Int) (l acc : List Int) : NoOv (seaRoots p g d l acc) := by
  induction l generalizing acc with
  | nil => exact NoOv.ok _
  | cons j t ih => simp only [seaRoots]; nov <;> exact ih _
macro_rules | `(tactic| nov_step) => `(tactic| with_reducible exact nov_seaRoots _ _ _ _ _)

/-- Unless the dev build (first argument) panics with an overflow, the release build does the same; and the release build never
panics with an overflow. -/
def Same {α : Type} (dev rel : Res α) : Prop := (dev ≠ .panic .overflow → rel = dev) ∧ NoOv rel

namespace Same

theorem refl {α : Type} {x : Res α} (h : NoOv x) : Same x x := ⟨fun _ => rfl, h⟩

theorem bind {α β : Type} {x y : Res α} {f g : α → Res β} (h : Same x y) (hf : ∀ a, Same (f a) (g a)) :
    Same (x >>= f) (y >>= g) := by
  refine ⟨?_, NoOv.bind h.2 fun a => (hf a).2⟩
  intro hn
  cases x with
  | ok a =>
    rw [h.1 (by simp)]
    exact (hf a).1 hn
  | panic w =>
    have : w ≠ .overflow := by rintro rfl; exact hn rfl
    rw [h.1 (by simpa using this)]; rfl
  | timeout => rw [h.1 (by simp)]; rfl

theorem ite {α : Type} {c : Prop} [Decidable c] {x y x' y' : Res α} (h : Same x y) (h' : Same x' y') :
    Same (if c then x else x') (if c then y else y') := by
  split_ifs
  · exact h
  · exact h'

theorem ite' {α : Type} {c : Prop} [Decidable c] {x y x' y' : Res α} (h : c → Same x y) (h' : ¬ c → Same x' y') :
    Same (if c then x else x') (if c then y else y') := by
  split_ifs with hc
  · exact h hc
  · exact h' hc

theorem foldlM {α β : Type} {f g : α → β → Res α} (h : ∀ a b, Same (f a b) (g a b)) (l : List β) (a : α) :
    Same (l.foldlM f a) (l.foldlM g a) := by
  induction l generalizing a with
  | nil => exact refl (NoOv.ok _)
  | cons e t ih => rw [List.foldlM_cons, List.foldlM_cons]; exact bind (h a e) ih

theorem wrap32_of {n : Int} (h : InI32 n) : wrap32 n = n := by unfold InI32 at h; unfold wrap32; omega

theorem chk (n : Int) : Same (EC.chk n) (wrp n) := by
  refine ⟨fun h => ?_, NoOv.wrp _⟩
  unfold EC.chk at *
  split_ifs at * with hn
  · unfold wrp; rw [wrap32_of hn]
  · exact absurd rfl h

end Same

syntax "same_step" : tactic
/-- Decompose the pair of computations into steps. -/
macro "same" : tactic => `(tactic| repeat' (first
      | with_reducible assumption
      | with_reducible exact Same.chk _
      | same_step
      | (with_reducible refine Same.refl ?_; nov; done)
      | refine Same.bind ?_ fun _ => ?_
      | refine Same.foldlM (fun _ _ => ?_) _ _
      | refine Same.ite ?_ ?_
      | split))
macro_rules | `(tactic| same_step) => `(tactic| fail)

theorem Monomial.same_evalQ (m : Monomial) (q : Int) : Same (m.evalQ q) (m.evalQW q) := Same.chk _

namespace Term

theorem same_mul (a b : Term) : Same (a.mul b) (a.mulW b) := by unfold mul mulW; same
theorem same_div (a b : Term) : Same (a.div b) (a.divW b) := by unfold div divW; same
theorem same_power (a : Term) (n : Int) : Same (a.power n) (a.powerW n) := by unfold power powerW; same
theorem same_powerModulo (a : Term) (n p : Int) : Same (a.powerModulo n p) (a.powerModuloW n p) := by
  unfold powerModulo powerModuloW; same
theorem same_toFrob (a : Term) (n : Int) : Same (a.toFrob n) (a.toFrobW n) := by unfold toFrob toFrobW; same
theorem same_toYPower (a : Term) (n : Int) : Same (a.toYPower n) (a.toYPowerW n) := by
  unfold toYPower toYPowerW; same
theorem same_toQPower (a : Term) (n : Int) : Same (a.toQPower n) (a.toQPowerW n) := by
  unfold toQPower toQPowerW; same

end Term
macro_rules | `(tactic| same_step) => `(tactic| with_reducible first
  | exact Term.same_mul _ _ | exact Term.same_div _ _ | exact Term.same_power _ _
  | exact Term.same_powerModulo _ _ _ | exact Term.same_toFrob _ _ | exact Term.same_toYPower _ _ | exact Term.same_toQPower _ _)

namespace Poly

theorem same_mul (a b : Poly) : Same (a.mul b) (a.mulW b) := by unfold mul mulW; same
theorem same_div (a b : Poly) : Same (a.div b) (a.divW b) := by
  unfold div divW
  rcases b.entries with _ | ⟨⟨m, c⟩, _ | ⟨_, _⟩⟩ <;> dsimp only <;> same
end Poly
macro_rules | `(tactic| same_step) => `(tactic| with_reducible first
  | exact Poly.same_mul _ _ | exact Poly.same_div _ _)
namespace Poly
theorem same_mulTerm (a : Poly) (b : Term) : Same (a.mulTerm b) (a.mulTermW b) := same_mul _ _
theorem same_termMul (a : Term) (b : Poly) : Same (termMul a b) (termMulW a b) := same_mul _ _
theorem same_mulAssign (a b : Poly) : Same (a.mulAssign b) (a.mulAssignW b) := same_mul _ _
theorem same_divTerm (a : Poly) (b : Term) : Same (a.divTerm b) (a.divTermW b) := same_div _ _
theorem same_termDiv (a : Term) (b : Poly) : Same (termDiv a b) (termDivW a b) := same_div _ _
theorem same_divAssign (a b : Poly) : Same (a.divAssign b) (a.divAssignW b) := same_div _ _
theorem same_divAssignTerm (a : Poly) (b : Term) : Same (a.divAssignTerm b) (a.divAssignTermW b) := same_div _ _
end Poly
macro_rules | `(tactic| same_step) => `(tactic| with_reducible first
  | exact Poly.same_mulTerm _ _ | exact Poly.same_termMul _ _ | exact Poly.same_mulAssign _ _
  | exact Poly.same_divTerm _ _ | exact Poly.same_termDiv _ _ | exact Poly.same_divAssign _ _
  | exact Poly.same_divAssignTerm _ _)
namespace Poly

theorem same_powLoop (e : Int) (b r : Poly) : Same (powLoop e b r) (powLoopW e b r) := by
  obtain ⟨k, hk⟩ : ∃ k, e.toNat = k := ⟨_, rfl⟩
  induction k using Nat.strong_induction_on generalizing e b r with
  | _ k ih =>
    rw [powLoop, powLoopW]
    by_cases h : e > 1
    · have hlt : (e.tdiv 2).toNat < k := by rw [Int.tdiv_eq_ediv_of_nonneg (by omega)]; omega
      rw [if_pos h, if_pos h]; same <;> exact ih _ hlt _ _ _ rfl
    · rw [if_neg h, if_neg h]; same

theorem same_power (f : Poly) (n : Int) : Same (f.power n) (f.powerW n) := by
  unfold power powerW; same; exact same_powLoop _ _ _
theorem same_square (f : Poly) : Same f.square f.squareW := same_power _ _
theorem same_cube (f : Poly) : Same f.cube f.cubeW := same_power _ _

theorem same_powModLoop (p e : Int) (b r : Poly) : Same (powModLoop p e b r) (powModLoopW p e b r) := by
  obtain ⟨k, hk⟩ : ∃ k, e.toNat = k := ⟨_, rfl⟩
  induction k using Nat.strong_induction_on generalizing e b r with
  | _ k ih =>
    rw [powModLoop, powModLoopW]
    by_cases h : e > 1
    · have hlt : (e.tdiv 2).toNat < k := by rw [Int.tdiv_eq_ediv_of_nonneg (by omega)]; omega
      rw [if_pos h, if_pos h]; same <;> exact ih _ hlt _ _ _ rfl
    · rw [if_neg h, if_neg h]; same

theorem same_powerModulo (f : Poly) (n p : Int) : Same (f.powerModulo n p) (f.powerModuloW n p) := by
  unfold powerModulo powerModuloW; same; exact same_powModLoop _ _ _ _

theorem same_omitHighOrderQ (f : Poly) (n : Int) : Same (f.omitHighOrderQ n) (f.omitHighOrderQW n) := by
  unfold omitHighOrderQ omitHighOrderQW; same
end Poly
macro_rules | `(tactic| same_step) => `(tactic| with_reducible first
  | exact Poly.same_power _ _ | exact Poly.same_powerModulo _ _ _ | exact Poly.same_omitHighOrderQ _ _)
namespace Poly
theorem same_powerOmitHighOrderQ (f : Poly) (n order : Int) :
    Same (f.powerOmitHighOrderQ n order) (f.powerOmitHighOrderQW n order) := by
  unfold powerOmitHighOrderQ powerOmitHighOrderQW; same

theorem same_polyModLoop (oh : Term) (g : Poly) (p : Int) (fuel : Nat) (r : Poly) :
    Same (polyModLoop oh g p fuel r) (polyModLoopW oh g p fuel r) := by
  induction fuel generalizing r with
  | zero => exact Same.refl NoOv.timeout
  | succ n ih => simp only [polyModLoop, polyModLoopW]; same <;> exact ih _

theorem same_polynomialModular (fuel : Nat) (f g : Poly) (p : Int) :
    Same (polynomialModular fuel f g p) (polynomialModularW fuel f g p) := by
  unfold polynomialModular polynomialModularW; same; exact same_polyModLoop _ _ _ _ _

theorem same_toMonic (f : Poly) (p : Int) : Same (f.toMonic p) (f.toMonicW p) := by
  unfold toMonic toMonicW; same
end Poly
macro_rules | `(tactic| same_step) => `(tactic| with_reducible first
  | exact Poly.same_powerOmitHighOrderQ _ _ _ | exact Poly.same_polynomialModular _ _ _ _ | exact Poly.same_toMonic _ _)
namespace Poly
theorem same_gcd (fuel : Nat) (f g : Poly) (p : Int) : Same (gcd fuel f g p) (gcdW fuel f g p) := by
  induction fuel generalizing f g with
  | zero => exact Same.refl NoOv.timeout
  | succ n ih => simp only [gcd, gcdW]; same <;> exact ih _ _

theorem same_isGcdOne (fuel : Nat) (f g : Poly) (p : Int) : Same (isGcdOne fuel f g p) (isGcdOneW fuel f g p) := by
  unfold isGcdOne isGcdOneW; same; exact same_gcd _ _ _ _

theorem same_toFrob (f : Poly) (n : Int) : Same (f.toFrob n) (f.toFrobW n) := by unfold toFrob toFrobW; same
theorem same_toYPower (f : Poly) (n : Int) : Same (f.toYPower n) (f.toYPowerW n) := by
  unfold toYPower toYPowerW; same
theorem same_toQPower (f : Poly) (n : Int) : Same (f.toQPower n) (f.toQPowerW n) := by
  unfold toQPower toQPowerW; same
theorem same_reduction (f : Poly) (a b : Int) : Same (f.reduction a b) (f.reductionW a b) := by
  unfold reduction reductionW; same
theorem same_reductionModularAux (a b p : Int) (d : Nat) (f : Poly) :
    Same (reductionModularAux a b p d f) (reductionModularAuxW a b p d f) := by
  induction d generalizing f with
  | zero => exact Same.refl NoOv.timeout
  | succ n ih => simp only [reductionModularAux, reductionModularAuxW]; same <;> exact ih _
theorem same_reductionModular (f : Poly) (a b p : Int) : Same (f.reductionModular a b p) (f.reductionModularW a b p) :=
  same_reductionModularAux _ _ _ _ _
end Poly
macro_rules | `(tactic| same_step) => `(tactic| with_reducible first
  | exact Poly.same_gcd _ _ _ _ | exact Poly.same_isGcdOne _ _ _ _ | exact Poly.same_toFrob _ _ | exact Poly.same_toYPower _ _
  | exact Poly.same_toQPower _ _ | exact Poly.same_reduction _ _ _ | exact Poly.same_reductionModular _ _ _ _)

theorem Monomial.same_evalXPolynomial (m : Monomial) (f : Poly) : Same (m.evalXPolynomial f) (m.evalXPolynomialW f) := by
  unfold Monomial.evalXPolynomial Monomial.evalXPolynomialW; same
theorem Monomial.same_evalYPolynomial (m : Monomial) (f : Poly) : Same (m.evalYPolynomial f) (m.evalYPolynomialW f) := by
  unfold Monomial.evalYPolynomial Monomial.evalYPolynomialW; same
macro_rules | `(tactic| same_step) => `(tactic| with_reducible first
  | exact Monomial.same_evalXPolynomial _ _ | exact Monomial.same_evalYPolynomial _ _)
theorem Term.same_evalXPolynomial (m : Term) (f : Poly) : Same (m.evalXPolynomial f) (m.evalXPolynomialW f) := by
  unfold Term.evalXPolynomial Term.evalXPolynomialW; same
theorem Term.same_evalYPolynomial (m : Term) (f : Poly) : Same (m.evalYPolynomial f) (m.evalYPolynomialW f) := by
  unfold Term.evalYPolynomial Term.evalYPolynomialW; same
theorem Poly.same_evalXPolynomial (g f : Poly) : Same (g.evalXPolynomial f) (g.evalXPolynomialW f) := by
  unfold Poly.evalXPolynomial Poly.evalXPolynomialW; same
theorem Poly.same_evalYPolynomial (g f : Poly) : Same (g.evalYPolynomial f) (g.evalYPolynomialW f) := by
  unfold Poly.evalYPolynomial Poly.evalYPolynomialW; same
macro_rules | `(tactic| same_step) => `(tactic| with_reducible first
  | exact Term.same_evalXPolynomial _ _ | exact Term.same_evalYPolynomial _ _
  | exact Poly.same_evalXPolynomial _ _ | exact Poly.same_evalYPolynomial _ _)

theorem same_psi (a b n : Int) : Same (psi a b n) (psiW a b n) := by
  obtain ⟨k, hk⟩ : ∃ k, n.toNat = k := ⟨_, rfl⟩
  induction k using Nat.strong_induction_on generalizing n with
  | _ k ih =>
    rw [psi, psiW]
    refine Same.bind (Same.refl (by nov)) fun _ => ?_
    refine Same.ite' (fun _ => Same.refl (by nov)) fun h0 => ?_
    refine Same.ite' (fun _ => Same.refl (by nov)) fun h1 => ?_
    refine Same.ite' (fun _ => Same.refl (by nov)) fun h2 => ?_
    refine Same.ite' (fun _ => Same.refl (by nov)) fun h3 => ?_
    refine Same.ite' (fun _ => by same) fun h4 => ?_
    refine Same.ite' (fun _ => Same.refl (by nov)) fun h5 => ?_
    refine Same.ite' (fun h6 => ?_) fun h6 => ?_
    · have e1 : Int.fdiv (n - 1) 2 = (n - 1) / 2 := Int.fdiv_eq_ediv_of_nonneg _ (by omega)
      simp only [e1]
      have i1 := ih ((n - 1) / 2 + 2).toNat (by omega) _ rfl
      have i2 := ih ((n - 1) / 2).toNat (by omega) _ rfl
      have i3 := ih ((n - 1) / 2 - 1).toNat (by omega) _ rfl
      have i4 := ih ((n - 1) / 2 + 1).toNat (by omega) _ rfl
      same
    · have e1 : Int.fdiv n 2 = n / 2 := Int.fdiv_eq_ediv_of_nonneg _ (by omega)
      simp only [e1]
      have i1 := ih (n / 2 + 2).toNat (by omega) _ rfl
      have i2 := ih (n / 2).toNat (by omega) _ rfl
      have i3 := ih (n / 2 - 1).toNat (by omega) _ rfl
      have i4 := ih (n / 2 + 1).toNat (by omega) _ rfl
      have i5 := ih (n / 2 - 2).toNat (by omega) _ rfl
      same

macro_rules | `(tactic| same_step) => `(tactic| with_reducible exact same_psi _ _ _)

theorem same_phi (a b n : Int) : Same (phi a b n) (phiW a b n) := by unfold phi phiW; same
theorem same_omega (a b n : Int) : Same (omega a b n) (omegaW a b n) := by unfold omega omegaW; same
macro_rules | `(tactic| same_step) => `(tactic| with_reducible first | exact same_phi _ _ _ | exact same_omega _ _ _)

theorem same_sigmaDivisor (n k : Int) : Same (sigmaDivisor n k) (sigmaDivisorW n k) := by
  unfold sigmaDivisor sigmaDivisorW; same
macro_rules | `(tactic| same_step) => `(tactic| with_reducible exact same_sigmaDivisor _ _)
theorem same_eisenstein4 (n : Int) : Same (eisenstein4 n) (eisenstein4W n) := by unfold eisenstein4 eisenstein4W; same
theorem same_delta1 (n : Int) : Same (delta1 n) (delta1W n) := by unfold delta1 delta1W; same
macro_rules | `(tactic| same_step) => `(tactic| with_reducible first | exact same_eisenstein4 _ | exact same_delta1 _)
theorem same_delta1Inverse (n : Int) : Same (delta1Inverse n) (delta1InverseW n) := by
  unfold delta1Inverse delta1InverseW; same
macro_rules | `(tactic| same_step) => `(tactic| with_reducible exact same_delta1Inverse _)
theorem same_jInvariant1 (n : Int) : Same (jInvariant1 n) (jInvariant1W n) := by unfold jInvariant1 jInvariant1W; same
macro_rules | `(tactic| same_step) => `(tactic| with_reducible exact same_jInvariant1 _)
theorem same_jInvariantQ (n : Int) : Same (jInvariantQ n) (jInvariantQW n) := by unfold jInvariantQ jInvariantQW; same
macro_rules | `(tactic| same_step) => `(tactic| with_reducible exact same_jInvariantQ _)

namespace Converter

theorem visitsW_of {c : Converter} (h : InI32 (c.p + 1)) : c.visitsW = c.visits := by
  unfold visitsW visits; rw [Same.wrap32_of h]

/-- A computation behind the check of `self.p + 1`. -/
theorem same_chk {α : Type} {c : Converter} {x : Res α} {y : Res α} (hy : NoOv y)
    (h : InI32 (c.p + 1) → Same x y) :
    Same (EC.chk (c.p + 1) >>= fun _ => x) y := by
  by_cases hc : InI32 (c.p + 1)
  · have : EC.chk (c.p + 1) = .ok (c.p + 1) := by unfold EC.chk; rw [if_pos hc]
    rw [this]; exact h hc
  · have : EC.chk (c.p + 1) = .panic .overflow := by unfold EC.chk; rw [if_neg hc]
    rw [this]; exact ⟨fun hn => absurd rfl hn, hy⟩

theorem same_count (c : Converter) : Same c.count c.countW := by
  unfold count countW
  exact same_chk (by nov) fun h => by rw [visitsW_of h]; exact Same.refl (by nov)

theorem same_indexFromVariable (c : Converter) (v : SubVar) : Same (c.indexFromVariable v) (c.indexFromVariableW v) := by
  unfold indexFromVariable indexFromVariableW
  refine Same.ite (Same.refl (by nov)) ?_
  refine same_chk (by cases findIndex v.i v.j c.visitsW 0 <;> dsimp only <;> nov) fun h => ?_
  rw [visitsW_of h]
  cases findIndex v.i v.j c.visits 0 <;> exact Same.refl (by nov)

theorem same_findVariable (t : Int) (l : List (Int × Int)) (k : Int) : Same (findVariable t l k) (findVariableW t l k) := by
  induction l generalizing k with
  | nil => exact Same.refl (by first | exact NoOv.ok _ | exact NoOv.panic (by decide))
  | cons e l ih =>
    obtain ⟨i, j⟩ := e
    simp only [findVariable, findVariableW]
    same
    exact ih _

theorem nov_findVariableW (t : Int) (l : List (Int × Int)) (k : Int) : NoOv (findVariableW t l k) :=
  (same_findVariable t l k).2

theorem same_variableFromIndex (c : Converter) (k : Nat) : Same (c.variableFromIndex k) (c.variableFromIndexW k) := by
  unfold variableFromIndex variableFromIndexW
  exact same_chk (nov_findVariableW _ _ _) fun h => by rw [visitsW_of h]; exact same_findVariable _ _ _

end Converter
macro_rules | `(tactic| same_step) => `(tactic| with_reducible first
  | exact Converter.same_count _ | exact Converter.same_variableFromIndex _ _)

theorem same_subscriptedVariableModularPolynomial (p : Int) :
    Same (subscriptedVariableModularPolynomial p) (subscriptedVariableModularPolynomialW p) := by
  unfold subscriptedVariableModularPolynomial subscriptedVariableModularPolynomialW; same
macro_rules | `(tactic| same_step) => `(tactic| with_reducible exact same_subscriptedVariableModularPolynomial _)
theorem same_subscriptedVariableModularPolynomialQ (p : Int) :
    Same (subscriptedVariableModularPolynomialQ p) (subscriptedVariableModularPolynomialQW p) := by
  unfold subscriptedVariableModularPolynomialQ subscriptedVariableModularPolynomialQW; same
macro_rules | `(tactic| same_step) => `(tactic| with_reducible exact same_subscriptedVariableModularPolynomialQ _)
theorem same_subscriptedVariableModularPolynomialList (p : Int) :
    Same (subscriptedVariableModularPolynomialList p) (subscriptedVariableModularPolynomialListW p) := by
  unfold subscriptedVariableModularPolynomialList subscriptedVariableModularPolynomialListW; same
theorem same_modularRow (c : Converter) (n : Nat) (f : Poly) : Same (modularRow c n f) (modularRowW c n f) := by
  unfold modularRow modularRowW; same
theorem same_modularAssemble (c : Converter) (b : Mat) (n : Nat) (f : Poly) (i : Nat) :
    Same (modularAssemble c b n f i) (modularAssembleW c b n f i) := by
  unfold modularAssemble modularAssembleW; same
macro_rules | `(tactic| same_step) => `(tactic| with_reducible first
  | exact same_subscriptedVariableModularPolynomialList _ | exact same_modularRow _ _ _ | exact same_modularAssemble _ _ _ _ _)
theorem same_solve (a : Mat) : Same (solve a) (solveW a) := by
  unfold solve solveW
  rcases a with _ | ⟨r0, t⟩
  · exact Same.refl (by nov)
  · dsimp only
    refine Same.ite (Same.refl (by nov)) ?_
    refine Same.ite ⟨fun h => absurd rfl h, NoOv.panic (by simp)⟩ ?_
    same
macro_rules | `(tactic| same_step) => `(tactic| with_reducible exact same_solve _)
theorem same_modularPolynomial (p : Int) : Same (modularPolynomial p) (modularPolynomialW p) := by
  unfold modularPolynomial modularPolynomialW; same

theorem same_schoof2 (fuel : Nat) (a b q : Int) : Same (schoof2 fuel a b q) (schoof2W fuel a b q) := by
  unfold schoof2 schoof2W; same
theorem same_schoofNumDen1 (a b q k : Int) : Same (schoofNumDen1 a b q k) (schoofNumDen1W a b q k) := by
  unfold schoofNumDen1 schoofNumDen1W; same
theorem same_schoofXTest (fuel : Nat) (a b q : Int) (f g h : Poly) (j : Int) :
    Same (schoofXTest fuel a b q f g h j) (schoofXTestW fuel a b q f g h j) := by
  unfold schoofXTest schoofXTestW; same
macro_rules | `(tactic| same_step) => `(tactic| with_reducible first
  | exact same_schoof2 _ _ _ _ | exact same_schoofNumDen1 _ _ _ _ | exact same_schoofXTest _ _ _ _ _ _ _ _)
theorem same_schoofFindJ (fuel : Nat) (a b q : Int) (f g h : Poly) (l : List Int) :
    Same (schoofFindJ fuel a b q f g h l) (schoofFindJW fuel a b q f g h l) := by
  induction l with
  | nil => exact Same.refl (by first | exact NoOv.ok _ | exact NoOv.panic (by decide))
  | cons j t ih => simp only [schoofFindJ, schoofFindJW]; same
theorem same_schoofY (fuel : Nat) (a b q l k j : Int) (h : Poly) :
    Same (schoofY fuel a b q l k j h) (schoofYW fuel a b q l k j h) := by
  unfold schoofY schoofYW; same
theorem same_schoofDE (fuel : Nat) (a b q l k : Int) : Same (schoofDE fuel a b q l k) (schoofDEW fuel a b q l k) := by
  unfold schoofDE schoofDEW
  cases (irange 1 l).find? (fun i => Int.fmod (i ^ 2) l = k) <;> dsimp only <;> same
macro_rules | `(tactic| same_step) => `(tactic| with_reducible first
  | exact same_schoofFindJ _ _ _ _ _ _ _ _ | exact same_schoofY _ _ _ _ _ _ _ _ | exact same_schoofDE _ _ _ _ _ _)
theorem same_schoofL (fuel : Nat) (a b q l : Int) : Same (schoofL fuel a b q l) (schoofLW fuel a b q l) := by
  unfold schoofL schoofLW; same
theorem same_schoofLoop (fuel : Nat) (a b q : Int) (l : List Int) (acc : List ModResult) :
    Same (schoofLoop fuel a b q l acc) (schoofLoopW fuel a b q l acc) := by
  induction l generalizing acc with
  | nil => exact Same.refl (by first | exact NoOv.ok _ | exact NoOv.panic (by decide))
  | cons j t ih =>
    simp only [schoofLoop, schoofLoopW]
    refine Same.ite (Same.refl (by nov)) (Same.bind (same_schoofL _ _ _ _ _) fun _ => ih _)
theorem same_schoof (fuel : Nat) (a b q : Int) : Same (schoof fuel a b q) (schoofW fuel a b q) :=
  Same.bind (same_schoof2 _ _ _ _) fun _ => same_schoofLoop _ _ _ _ _ _

theorem same_seaWith (fuel : Nat) (ec : EllipticCurve) (f : Poly) : Same (seaWith fuel ec f) (seaWithW fuel ec f) := by
  unfold seaWith seaWithW; same
theorem same_sea (fuel : Nat) (ec : EllipticCurve) (l : Int) : Same (sea fuel ec l) (seaW fuel ec l) :=
  Same.bind (same_modularPolynomial _) fun _ => same_seaWith _ _ _

end EC
