import Verif.Model.QSeries
import Verif.Model.Solve

/-! Model of `/repo/src/modular_polynomial.rs`. -/

namespace EC

open TermBuilder (new)

/-- `TermBuilder::new().xpow(i).ypow(j).variable_ij(k, l).build().to_pol()`. -/
def subTermPol (i j k l : Int) : Res Poly := do
  let t ← ((new.xpow i).ypow j).variableIJ k l
  .ok t.build.toPol

/-- `subscripted_variable_modular_polynomial(p)`; src/modular_polynomial.rs:13-45. -/
def subscriptedVariableModularPolynomial (p : Int) : Res Poly := do
  rassert (decide (p ≥ 2))
  rassert (isPrime p.toNat)
  let p1 ← chk (p + 1)
  let pol := (new.xpow p1).build.toPol
  let pol := pol.addAssign (new.ypow p1).build.toPol
  let pol ← (irange 0 p1).foldlM (fun pol i => do
    .ok (Poly.addAssign pol (← subTermPol i i i i))) pol
  (irange 0 p1).foldlM (fun pol i =>
    (irange (i + 1) p1).foldlM (fun pol j => do
      let pol := Poly.addAssign pol (← subTermPol i j i j)
      .ok (Poly.addAssign pol (← subTermPol j i i j))) pol) pol

/-- `subscripted_variable_modular_polynomial_q(p)`; src/modular_polynomial.rs:57-67. -/
def subscriptedVariableModularPolynomialQ (p : Int) : Res Poly := do
  let pol ← subscriptedVariableModularPolynomial p
  let jOrder ← chk ((← chk (p * p)) + p)
  let j ← jInvariantQ jOrder
  let jq ← j.toQPower p
  let pol1 ← pol.evalXPolynomial j
  let pol2 ← pol1.evalYPolynomial jq
  pol2.omitHighOrderQ 0

/-- `subscripted_variable_modular_polynomial_list(p)`; src/modular_polynomial.rs:47-55. -/
def subscriptedVariableModularPolynomialList (p : Int) : Res (List Poly) := do
  let polQ ← subscriptedVariableModularPolynomialQ p
  let sq ← chk (p * p)
  let mn ← chk (-sq - p)
  (irange mn 1).foldlM (fun v i => do .ok (v ++ [← polQ.toQPowerCoef i])) []

/-- One row of the coefficient matrix: the coefficients of all variables, then the constant;
src/modular_polynomial.rs:76-87. -/
def modularRow (c : Converter) (n : Nat) (f : Poly) : Res (List Int) := do
  let cs ← (List.range n).foldlM (fun acc col => do
    let v ← c.variableFromIndex col
    .ok (acc ++ [← f.toVariableCoef v])) []
  .ok (cs ++ [← f.toVariableCoef SubVar.new])

/-- Loop body that assembles the result from the solved system;
src/modular_polynomial.rs:93-108. -/
def modularAssemble (c : Converter) (b : Mat) (colCount : Nat) (pol : Poly) (i : Nat) : Res Poly := do
  let v ← c.variableFromIndex i
  let val := Mat.cell b i (colCount - 1)
  let pol := pol.addAssignTerm (((new.coef (-val)).xpow v.i).ypow v.j).build
  .ok (if v.i ≠ v.j then pol.addAssignTerm (((new.coef (-val)).xpow v.j).ypow v.i).build else pol)

/-- `modular_polynomial(p)`; src/modular_polynomial.rs:69-112.  (`b[i]` is in range whenever
`solve` returned: it panics if there are fewer rows than unknowns.) -/
def modularPolynomial (p : Int) : Res Poly := do
  let list ← subscriptedVariableModularPolynomialList p
  let converter ← Converter.new p
  let n ← converter.count
  let colCount := n + 1
  let a ← list.foldlM (fun acc f => do .ok (acc ++ [← modularRow converter n f])) []
  let b ← solve a
  let pol ← (List.range (colCount - 1)).foldlM (modularAssemble converter b colCount) Poly.new
  let p1 ← chk (p + 1)
  let pol := pol.addAssignTerm (new.xpow p1).build
  .ok (pol.addAssignTerm (new.ypow p1).build)

end EC
