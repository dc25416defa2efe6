import Verif.Model.Map

/-! Model of `/repo/src/polynomial.rs` and of the polynomial-valued functions of
`/repo/src/term.rs`.  A `for` loop over the terms is a fold over the entries in iteration
order; `&mut self` methods return the new value.  The `owned/borrowed` variants generated by
`impl_op_ex!` are one definition. -/

namespace EC

/-- `Term::to_pol()`; src/term.rs:190-198. -/
def Term.toPol (t : Term) : Poly :=
  if t.coef = 0 then Poly.new else Poly.new.insert t.monomial t.coef

/-- `Term + Term`; src/term.rs:37-45.  (No removal of a zero sum.) -/
def Term.add (a b : Term) : Poly :=
  let pol := a.toPol
  match pol.get? b.monomial with
  | some av => pol.insert b.monomial (av + b.coef)
  | none => pol.insert b.monomial b.coef

/-- `Term - Term`; src/term.rs:62-64. -/
def Term.sub (a b : Term) : Poly := a.add b.neg

namespace Poly

/-- Loop body shared by `Polynomial + Polynomial` and `+=`; src/polynomial.rs:23-32, :48-57. -/
def addEntry (pol : Poly) (e : Monomial × Int) : Poly :=
  match pol.get? e.1 with
  | some av => if av + e.2 = 0 then pol.remove e.1 else pol.insert e.1 (av + e.2)
  | none => pol.insert e.1 e.2

/-- `Polynomial + Polynomial`; src/polynomial.rs:20-34. -/
def add (a b : Poly) : Poly := b.entries.foldl addEntry a

/-- `Polynomial + Term`; src/polynomial.rs:36-39. -/
def addTerm (a : Poly) (b : Term) : Poly := a.add b.toPol

/-- `Term + Polynomial`; src/polynomial.rs:41-44. -/
def termAdd (a : Term) (b : Poly) : Poly := a.toPol.add b

/-- `Polynomial += Polynomial`; src/polynomial.rs:46-58. -/
def addAssign (a b : Poly) : Poly := b.entries.foldl addEntry a

/-- `Polynomial += Term`; src/polynomial.rs:60-70. -/
def addAssignTerm (a : Poly) (b : Term) : Poly := addEntry a (b.monomial, b.coef)

/-- Unary minus; src/polynomial.rs:101-108. -/
def neg (a : Poly) : Poly := a.entries.foldl (fun pol e => pol.insert e.1 (-e.2)) new

/-- `Polynomial - Polynomial`; src/polynomial.rs:72-75. -/
def sub (a b : Poly) : Poly := a.add b.neg

/-- `Polynomial - Term`; src/polynomial.rs:77-80. -/
def subTerm (a : Poly) (b : Term) : Poly := a.add b.toPol.neg

/-- `Term - Polynomial`; src/polynomial.rs:82-85. -/
def termSub (a : Term) (b : Poly) : Poly := a.toPol.add b.neg

/-- Loop body of `-=`; src/polynomial.rs:89-98. -/
def subEntry (pol : Poly) (e : Monomial × Int) : Poly :=
  match pol.get? e.1 with
  | some av => if av - e.2 = 0 then pol.remove e.1 else pol.insert e.1 (av - e.2)
  | none => pol.insert e.1 (-e.2)

/-- `Polynomial -= Polynomial`; src/polynomial.rs:87-99. -/
def subAssign (a b : Poly) : Poly := b.entries.foldl subEntry a

/-- Accumulation step of `*`; src/polynomial.rs:118-122.  (No removal of a zero sum.) -/
def mulAcc (pol : Poly) (l : Term) : Poly :=
  match pol.get? l.monomial with
  | some lv => pol.insert l.monomial (lv + l.coef)
  | none => pol.insert l.monomial l.coef

/-- `Polynomial * Polynomial`; src/polynomial.rs:110-126. -/
def mul (a b : Poly) : Res Poly :=
  a.entries.foldlM (fun pol ie =>
    b.entries.foldlM (fun pol je => do
      let l ← Term.mul (Term.from' ie.1 ie.2) (Term.from' je.1 je.2)
      .ok (mulAcc pol l)) pol) new

/-- `Polynomial * Term`; src/polynomial.rs:128-131. -/
def mulTerm (a : Poly) (b : Term) : Res Poly := a.mul b.toPol

/-- `Term * Polynomial`; src/polynomial.rs:133-136. -/
def termMul (a : Term) (b : Poly) : Res Poly := a.toPol.mul b

/-- `Polynomial *= Polynomial`; src/polynomial.rs:138-143. -/
def mulAssign (a b : Poly) : Res Poly := a.mul b

/-- `is_zero()`: no stored term; src/polynomial.rs:264-266. -/
def isZero (a : Poly) : Bool := a.len == 0

/-- `Polynomial / Polynomial` (the divisor must have exactly one term); src/polynomial.rs:145-163. -/
def div (a b : Poly) : Res Poly :=
  match b.entries with
  | [] => .panic .explicit
  | [(m, coef)] =>
    a.entries.foldlM (fun pol e => do
      let u ← Term.div (Term.from' e.1 e.2) (Term.from' m coef)
      .ok (pol.insert u.monomial u.coef)) new
  | _ :: _ :: _ => .panic .explicit

/-- `Polynomial / Term`; src/polynomial.rs:165-168. -/
def divTerm (a : Poly) (b : Term) : Res Poly := a.div b.toPol

/-- `Term / Polynomial`; src/polynomial.rs:170-173. -/
def termDiv (a : Term) (b : Poly) : Res Poly := a.toPol.div b

/-- `Polynomial /= Polynomial`; src/polynomial.rs:175-180. -/
def divAssign (a b : Poly) : Res Poly := a.div b

/-- `Polynomial /= Term`; src/polynomial.rs:182-187. -/
def divAssignTerm (a : Poly) (b : Term) : Res Poly := a.div b.toPol

/-- `One::one()`; src/polynomial.rs:269-273. -/
def one : Poly := Term.one.toPol

/-- `Zero::zero()`; src/polynomial.rs:260-262. -/
def zero : Poly := new

/-- The `while e > 1` loop of `power` and the final product; src/polynomial.rs:226-234, :247-255. -/
def powLoop (e : Int) (b r : Poly) : Res Poly :=
  if e > 1 then do
    let r' ← if e % 2 = 1 then r.mulAssign b else .ok r
    let b' ← b.mul b
    powLoop (e.tdiv 2) b' r'
  else r.mul b
termination_by e.toNat
decreasing_by
  rename_i h
  have : e.tdiv 2 = e / 2 := by rw [Int.tdiv_eq_ediv_of_nonneg (by omega)]
  omega

/-- `Polynomial::power(n)` for `i32`, `BigInt`, `&BigInt`; src/polynomial.rs:211-257. -/
def power (self : Poly) (n : Int) : Res Poly := do
  rassert (decide (n ≥ 0))
  if n = 0 then .ok one else powLoop n self one

/-- `square()`; src/polynomial.rs:314-316. -/
def square (self : Poly) : Res Poly := self.power 2

/-- `cube()`; src/polynomial.rs:318-320. -/
def cube (self : Poly) : Res Poly := self.power 3

/-- The check `if !p.is_zero() { assert!(coef < p) }` after a reduction;
src/polynomial.rs:290-292, :299-301, :383-385, :401-403. -/
def assertBelow (p c : Int) : Res Unit := if p ≠ 0 then rassert (decide (c < p)) else .ok ()

/-- `&Polynomial % p` (for `i32` and `&BigInt`); src/polynomial.rs:275-305. -/
def rem (self : Poly) (p : Int) : Res Poly := do
  let pol ← self.entries.foldlM (fun pol e => do
    let c ← modFloor e.2 p
    assertBelow p c
    .ok (if c = 0 then pol else pol.insert e.1 c)) new
  pol.entries.forM (fun e => assertBelow p e.2)
  .ok pol

/-- First loop of `modular_assign`: reduce every coefficient in place and collect the monomials
whose coefficient became zero; src/polynomial.rs:380-390. -/
def modAssignLoop (self : Poly) (p : Int) : Res (Poly × List Monomial) :=
  self.entries.foldlM (fun (acc : Poly × List Monomial) e => do
    let c ← modFloor e.2 p
    assertBelow p c
    .ok (acc.1.insert e.1 c, if c = 0 then acc.2 ++ [e.1] else acc.2)) (self, [])

/-- `modular_assign(p)`; src/polynomial.rs:379-405.  The second loop removes the collected
monomials (removal of an absent key is a no-op), the third re-checks `coef < p`. -/
def modularAssign (self : Poly) (p : Int) : Res Poly := do
  let (pol, del) ← self.modAssignLoop p
  let pol := del.foldl remove pol
  pol.entries.forM (fun e => assertBelow p e.2)
  .ok pol

/-- The loop of `power_modulo` and its final product; src/polynomial.rs:327-338. -/
def powModLoop (p : Int) (e : Int) (b r : Poly) : Res Poly :=
  if e > 1 then do
    let r' ← if e % 2 = 1 then (do
        let t ← r.mulAssign b
        t.modularAssign p)
      else .ok r
    let b' ← b.mulAssign b
    let b' ← b'.modularAssign p
    powModLoop p (e.tdiv 2) b' r'
  else do
    let r' ← r.mulAssign b
    r'.modularAssign p
termination_by e.toNat
decreasing_by
  rename_i h
  have : e.tdiv 2 = e / 2 := by rw [Int.tdiv_eq_ediv_of_nonneg (by omega)]
  omega

/-- `Polynomial::power_modulo(n, p)`; src/polynomial.rs:322-339.  (No special case for
`n = 0`.) -/
def powerModulo (self : Poly) (n p : Int) : Res Poly := do
  rassert (decide (n ≥ 0))
  let b ← self.rem p
  powModLoop p n b one

/-- `has_x()`; src/polynomial.rs:468-476. -/
def hasX (self : Poly) : Bool := self.entries.any (fun e => (Term.from' e.1 e.2).hasX)

/-- `has_y()`; src/polynomial.rs:478-486. -/
def hasY (self : Poly) : Bool := self.entries.any (fun e => (Term.from' e.1 e.2).hasY)

/-- `has_q()`; src/polynomial.rs:488-496. -/
def hasQ (self : Poly) : Bool := self.entries.any (fun e => (Term.from' e.1 e.2).hasQ)

/-- `omit_high_order_q(order)`; src/polynomial.rs:663-674. -/
def omitHighOrderQ (self : Poly) (order : Int) : Res Poly := do
  rassert (!self.hasX)
  rassert (!self.hasY)
  let q ← chk (order + 1)
  .ok (self.splitOff { xpow := 0, ypow := 0, qpow := q, var := SubVar.new })

/-- `power_omit_high_order_q(n, order)`; src/polynomial.rs:341-350. -/
def powerOmitHighOrderQ (self : Poly) (n order : Int) : Res Poly := do
  rassert (!self.hasX)
  rassert (!self.hasY)
  (irange 0 n).foldlM (fun pol _ => do
    let pol ← pol.mulAssign self
    pol.omitHighOrderQ order) one

/-- `highest_term_x()`: the last entry, or the zero term; src/polynomial.rs:407-415. -/
def highestTermX (self : Poly) : Term :=
  match self.entries.getLast? with
  | none => Term.new
  | some (m, coef) => Term.from' m coef

/-- The `loop` of `polynomial_modular`, with fuel for its iterations;
src/polynomial.rs:357-374. -/
def polyModLoop (oh : Term) (other : Poly) (p : Int) : Nat → Poly → Res Poly
  | 0, _ => .timeout
  | fuel + 1, r =>
    let rh := r.highestTermX
    if rh.xpow < oh.xpow then .ok r
    else do
      let inv ← inverse oh.coef p
      let x ← chk (rh.xpow - oh.xpow)
      let q := ((((TermBuilder.new.coef (rh.coef * inv)).xpow x).ypow rh.ypow).qpow rh.qpow).build
      let q ← q.modularAssign p
      let d ← termMul q other
      let d ← d.modularAssign p
      let r := r.subAssign d
      let r ← r.modularAssign p
      polyModLoop oh other p fuel r

/-- `polynomial_modular(other, p)`; src/polynomial.rs:352-377.  The loop may run for ever:
`fuel` bounds its iterations. -/
def polynomialModular (fuel : Nat) (self other : Poly) (p : Int) : Res Poly := do
  rassert (!other.hasY)
  rassert (!other.hasQ)
  let r ← polyModLoop other.highestTermX other p fuel self
  r.modularAssign p

/-- `derivative_x()`; src/polynomial.rs:417-426. -/
def derivativeX (self : Poly) : Res Poly :=
  self.entries.foldlM (fun pol e => do
    let t ← (Term.from' e.1 e.2).derivativeX
    .ok (if t.coef = 0 then pol else pol.insert t.monomial t.coef)) new

/-- `derivative_y()`; src/polynomial.rs:428-437. -/
def derivativeY (self : Poly) : Res Poly :=
  self.entries.foldlM (fun pol e => do
    let t ← (Term.from' e.1 e.2).derivativeY
    .ok (if t.coef = 0 then pol else pol.insert t.monomial t.coef)) new

/-- `to_monic(p)`; src/polynomial.rs:457-466. -/
def toMonic (self : Poly) (p : Int) : Res Poly := do
  if self.isZero then .ok self
  else do
    let s := self.highestTermX
    let inv ← inverse s.coef p
    let pol ← self.mulTerm ((TermBuilder.new.coef inv).build)
    pol.modularAssign p

/-- `gcd(other, p)`; src/polynomial.rs:444-455.  `fuel` bounds the recursion depth and the
iterations of each `polynomial_modular`. -/
def gcd : Nat → Poly → Poly → Int → Res Poly
  | 0, _, _, _ => .timeout
  | fuel + 1, self, other, p =>
    let s := self.highestTermX
    let o := other.highestTermX
    if s.xpow < o.xpow then gcd fuel other self p
    else do
      let r ← polynomialModular fuel self other p
      if r.isZero then other.toMonic p
      else gcd fuel other r p

/-- `is_gcd_one(other, p)`; src/polynomial.rs:439-442. -/
def isGcdOne (fuel : Nat) (self other : Poly) (p : Int) : Res Bool := do
  let m ← gcd fuel self other p
  .ok (!m.isZero)

/-- `to_frob(n)`; src/polynomial.rs:498-508. -/
def toFrob (self : Poly) (n : Int) : Res Poly :=
  self.entries.foldlM (fun pol e => do
    let u ← (Term.from' e.1 e.2).toFrob n
    .ok (pol.insert u.monomial u.coef)) new

/-- `to_y_power(n)`; src/polynomial.rs:510-519. -/
def toYPower (self : Poly) (n : Int) : Res Poly :=
  self.entries.foldlM (fun pol e => do
    let u ← (Term.from' e.1 e.2).toYPower n
    .ok (pol.insert u.monomial u.coef)) new

/-- `to_q_power(n)`; src/polynomial.rs:521-530. -/
def toQPower (self : Poly) (n : Int) : Res Poly :=
  self.entries.foldlM (fun pol e => do
    let u ← (Term.from' e.1 e.2).toQPower n
    .ok (pol.insert u.monomial u.coef)) new

/-- The polynomial `x^3 + a x + b` as built in src/polynomial.rs:543-545, :569-571,
src/elliptic_curve.rs:39-41, :54-56 and src/schoof.rs:26-28. -/
def curvePol (a b : Int) : Poly :=
  ((TermBuilder.new.xpow 3).build.add ((TermBuilder.new.coef a).xpow 1).build).addTerm
    (TermBuilder.new.coef b).build

/-- `reduction(a, b)`; src/polynomial.rs:532-555. -/
def reduction (self : Poly) (a b : Int) : Res Poly :=
  self.entries.foldlM (fun t e =>
    let u := Term.from' e.1 e.2
    if u.ypow ≥ 2 then do
      let y := Int.fdiv u.ypow 2
      let e ← u.toPol.divAssignTerm (TermBuilder.new.ypow (y * 2)).build
      let ee ← (curvePol a b).power y
      let e ← e.mulAssign ee
      .ok (t.addAssign e)
    else .ok (t.addAssignTerm u)) new

/-- `reduction_modular(a, b, p)` with an explicit bound on the recursion depth
(`ee.reduction_modular(..)` in line 573 calls the function again, on a polynomial without `y`);
src/polynomial.rs:557-582. -/
def reductionModularAux (a b p : Int) : Nat → Poly → Res Poly
  | 0, _ => .timeout
  | depth + 1, self => do
    let t ← self.entries.foldlM (fun t e =>
      let u := Term.from' e.1 e.2
      if u.ypow ≥ 2 then do
        let y := Int.fdiv u.ypow 2
        let e ← u.toPol.divAssignTerm (TermBuilder.new.ypow (y * 2)).build
        let ee ← (curvePol a b).powerModulo y p
        let ee ← reductionModularAux a b p depth ee
        let e ← e.mulAssign ee
        .ok (t.addAssign e)
      else .ok (t.addAssignTerm u)) new
    t.modularAssign p

/-- `reduction_modular(a, b, p)`; src/polynomial.rs:557-582.  Depth 2 always suffices
(theorem `reductionModular_depth`). -/
def reductionModular (self : Poly) (a b p : Int) : Res Poly := reductionModularAux a b p 2 self

/-- `eval_xy(x, y)`; src/polynomial.rs:584-591. -/
def evalXY (self : Poly) (x y : Int) : Int :=
  self.entries.foldl (fun sum e => sum + e.1.evalXY x y * e.2) 0

/-- `eval_x(x)`; src/polynomial.rs:593-609. -/
def evalX (self : Poly) (x : Int) : Poly :=
  self.entries.foldl (fun pol e =>
    pol.addAssignTerm { coef := e.2 * EC.power x e.1.xpow, monomial := { e.1 with xpow := 0 } }) new

/-- `eval_y(y)`; src/polynomial.rs:611-627. -/
def evalY (self : Poly) (y : Int) : Poly :=
  self.entries.foldl (fun pol e =>
    pol.addAssignTerm { coef := e.2 * EC.power y e.1.ypow, monomial := { e.1 with ypow := 0 } }) new

/-- `to_scalar()`; src/polynomial.rs:629-649. -/
def toScalar (self : Poly) : Res Int :=
  match self.entries with
  | [] => .ok 0
  | [(m, coef)] =>
    if m.xpow ≠ 0 then .panic .explicit
    else if m.ypow ≠ 0 then .panic .explicit
    else if m.qpow ≠ 0 then .panic .explicit
    else .ok coef
  | _ :: _ :: _ => .panic .explicit

/-- `degree_x()`; src/polynomial.rs:651-661. -/
def degreeX (self : Poly) : Res Int := do
  rassert (!self.hasY)
  rassert (!self.hasQ)
  if self.isZero then .ok 0 else .ok self.highestTermX.xpow

end Poly

/-- `Monomial::eval_x_polynomial(polynomial)`; src/term.rs:125-133. -/
def Monomial.evalXPolynomial (m : Monomial) (f : Poly) : Res Poly := do
  let t := (((TermBuilder.new.ypow m.ypow).qpow m.qpow).var m.var).build.toPol
  let g ← f.power m.xpow
  g.mul t

/-- `Monomial::eval_y_polynomial(polynomial)`; src/term.rs:135-143. -/
def Monomial.evalYPolynomial (m : Monomial) (f : Poly) : Res Poly := do
  let t := (((TermBuilder.new.xpow m.xpow).qpow m.qpow).var m.var).build.toPol
  let g ← f.power m.ypow
  g.mul t

/-- `Term::eval_x_polynomial(polynomial)`; src/term.rs:288-295. -/
def Term.evalXPolynomial (u : Term) (f : Poly) : Res Poly := do
  let s := (TermBuilder.new.coef u.coef).build.toPol
  let t ← u.monomial.evalXPolynomial f
  s.mul t

/-- `Term::eval_y_polynomial(polynomial)`; src/term.rs:297-304. -/
def Term.evalYPolynomial (u : Term) (f : Poly) : Res Poly := do
  let s := (TermBuilder.new.coef u.coef).build.toPol
  let t ← u.monomial.evalYPolynomial f
  s.mul t

namespace Poly

/-- `eval_x_polynomial(polynomial)`; src/polynomial.rs:676-686. -/
def evalXPolynomial (self f : Poly) : Res Poly :=
  self.entries.foldlM (fun pol e => do
    let t := (TermBuilder.new.coef e.2).build.toPol
    let g ← e.1.evalXPolynomial f
    let h ← g.mul t
    .ok (pol.addAssign h)) new

/-- `eval_y_polynomial(polynomial)`; src/polynomial.rs:688-698. -/
def evalYPolynomial (self f : Poly) : Res Poly :=
  self.entries.foldlM (fun pol e => do
    let t := (TermBuilder.new.coef e.2).build.toPol
    let g ← e.1.evalYPolynomial f
    let h ← g.mul t
    .ok (pol.addAssign h)) new

/-- `to_q_power_coef(power)`; src/polynomial.rs:700-717. -/
def toQPowerCoef (self : Poly) (pw : Int) : Res Poly := do
  rassert (!self.hasX)
  rassert (!self.hasY)
  .ok (self.entries.foldl (fun pol e =>
    if e.1.qpow = pw then
      pol.insert { xpow := 0, ypow := 0, qpow := 0, var := e.1.var } e.2
    else pol) new)

/-- `to_variable_coef(variable)`; src/polynomial.rs:719-730. -/
def toVariableCoef (self : Poly) (v : SubVar) : Res Int := do
  rassert (!self.hasX)
  rassert (!self.hasY)
  rassert (!self.hasQ)
  match self.entries.find? (fun e => SubVar.eq e.1.var v) with
  | some e => .ok e.2
  | none => .ok 0

/-- Derived `PartialEq` of `Polynomial`: `BTreeMap` equality, i.e. same length and pairwise equal
keys and values in iteration order; src/polynomial.rs:15. -/
def eq (a b : Poly) : Bool :=
  a.len == b.len &&
    (a.entries.zip b.entries).all (fun e => Monomial.eq e.1.1 e.2.1 && e.1.2 == e.2.2)

end Poly

end EC
