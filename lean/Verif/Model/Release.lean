import Verif.Model.Schoof

/-! Generated by tools/release.py from the other `Model` files: the *release* build, in which `i32` arithmetic wraps
instead of panicking.  Each definition is the one without the suffix `W`, with `chk` (checked) replaced by `wrp` (wrapping);
functions in which no `i32` operation can overflow are shared with the dev-profile model. -/

namespace EC

open TermBuilder (new)

/-- The `i32` with the same low 32 bits as `n`. -/
def wrap32 (n : Int) : Int := (n + 2147483648) % 4294967296 - 2147483648

/-- Result of an `i32` operation in the release profile (overflow checks off): it wraps. -/
def wrp (n : Int) : Res Int := .ok (wrap32 n)

namespace Monomial

/-- Release build: `Monomial::eval_q(q)`, i.e. `q.pow(self.qpow as u32)` on `i32`; src/term.rs:145-147.
A negative exponent is reinterpreted as `u32`.  (`i32::pow` squares only bases it will use, so
an intermediate overflow implies an overflow of the result.) -/
def evalQW (m : Monomial) (q : Int) : Res Int :=
  wrp (q ^ (if m.qpow < 0 then m.qpow + 4294967296 else m.qpow).toNat)

end Monomial

namespace Term

/-- Release build: `Term * Term`; src/term.rs:47-60. -/
def mulW (a b : Term) : Res Term := do
  if !a.var.empty && !b.var.empty then .panic .explicit
  else do
    let x ← wrp (a.xpow + b.xpow)
    let y ← wrp (a.ypow + b.ypow)
    let q ← wrp (a.qpow + b.qpow)
    .ok { coef := a.coef * b.coef,
          monomial := { xpow := x, ypow := y, qpow := q,
                        var := if !a.var.empty then a.var else b.var } }

/-- Release build: `Term / Term`; src/term.rs:66-77. -/
def divW (a b : Term) : Res Term := do
  if !b.var.empty then .panic .explicit
  else do
    let c ← divFloor a.coef b.coef
    let x ← wrp (a.xpow - b.xpow)
    let y ← wrp (a.ypow - b.ypow)
    let q ← wrp (a.qpow - b.qpow)
    .ok ((((((TermBuilder.new.coef c).xpow x).ypow y).qpow q).var a.var).build)

/-- Release build: `Term::power(n)` for `i32` and `BigInt`; src/term.rs:89-118.  `n.to_i32().unwrap()` panics
when `n` is not an `i32`. -/
def powerW (a : Term) (n : Int) : Res Term := do
  if !a.var.empty then .panic .explicit
  else if ¬ InI32 n then .panic .unwrapNone
  else do
    let x ← wrp (a.xpow * n)
    let y ← wrp (a.ypow * n)
    let q ← wrp (a.qpow * n)
    .ok (((((TermBuilder.new.coef (EC.power a.coef n)).xpow x).ypow y).qpow q).build)

/-- Release build: `Term::power_modulo(n, p)`; src/term.rs:206-216. -/
def powerModuloW (a : Term) (n p : Int) : Res Term := do
  if ¬ InI32 n then .panic .unwrapNone
  else do
    let c ← EC.powerModulo a.coef n p
    let x ← wrp (a.xpow * n)
    let y ← wrp (a.ypow * n)
    let q ← wrp (a.qpow * n)
    .ok ((((((TermBuilder.new.coef c).xpow x).ypow y).qpow q).var a.var).build)

/-- Release build: `Term::to_frob(n)`; src/term.rs:218-228. -/
def toFrobW (a : Term) (n : Int) : Res Term := do
  let x ← wrp (a.xpow * n)
  let y ← wrp (a.ypow * n)
  .ok ((((((TermBuilder.new.coef a.coef).xpow x).ypow y).qpow a.qpow).var a.var).build)

/-- Release build: `Term::to_y_power(n)`; src/term.rs:230-239. -/
def toYPowerW (a : Term) (n : Int) : Res Term := do
  let y ← wrp (a.ypow * n)
  .ok ((((((TermBuilder.new.coef a.coef).xpow a.xpow).ypow y).qpow a.qpow).var
    a.var).build)

/-- Release build: `Term::to_q_power(n)`; src/term.rs:241-250. -/
def toQPowerW (a : Term) (n : Int) : Res Term := do
  let q ← wrp (a.qpow * n)
  .ok ((((((TermBuilder.new.coef a.coef).xpow a.xpow).ypow a.ypow).qpow q).var
    a.var).build)

end Term

namespace Poly

/-- Release build: `Polynomial * Polynomial`; src/polynomial.rs:110-126. -/
def mulW (a b : Poly) : Res Poly :=
  a.entries.foldlM (fun pol ie =>
    b.entries.foldlM (fun pol je => do
      let l ← Term.mulW (Term.from' ie.1 ie.2) (Term.from' je.1 je.2)
      .ok (mulAcc pol l)) pol) new

/-- Release build: `Polynomial * Term`; src/polynomial.rs:128-131. -/
def mulTermW (a : Poly) (b : Term) : Res Poly := a.mulW b.toPol

/-- Release build: `Term * Polynomial`; src/polynomial.rs:133-136. -/
def termMulW (a : Term) (b : Poly) : Res Poly := a.toPol.mulW b

/-- Release build: `Polynomial *= Polynomial`; src/polynomial.rs:138-143. -/
def mulAssignW (a b : Poly) : Res Poly := a.mulW b

/-- Release build: `Polynomial / Polynomial` (the divisor must have exactly one term); src/polynomial.rs:145-163. -/
def divW (a b : Poly) : Res Poly :=
  match b.entries with
  | [] => .panic .explicit
  | [(m, coef)] =>
    a.entries.foldlM (fun pol e => do
      let u ← Term.divW (Term.from' e.1 e.2) (Term.from' m coef)
      .ok (pol.insert u.monomial u.coef)) new
  | _ :: _ :: _ => .panic .explicit

/-- Release build: `Polynomial / Term`; src/polynomial.rs:165-168. -/
def divTermW (a : Poly) (b : Term) : Res Poly := a.divW b.toPol

/-- Release build: `Term / Polynomial`; src/polynomial.rs:170-173. -/
def termDivW (a : Term) (b : Poly) : Res Poly := a.toPol.divW b

/-- Release build: `Polynomial /= Polynomial`; src/polynomial.rs:175-180. -/
def divAssignW (a b : Poly) : Res Poly := a.divW b

/-- Release build: `Polynomial /= Term`; src/polynomial.rs:182-187. -/
def divAssignTermW (a : Poly) (b : Term) : Res Poly := a.divW b.toPol

/-- Release build: The `while e > 1` loop of `power` and the final product; src/polynomial.rs:226-234, :247-255. -/
def powLoopW (e : Int) (b r : Poly) : Res Poly :=
  if e > 1 then do
    let r' ← if e % 2 = 1 then r.mulAssignW b else .ok r
    let b' ← b.mulW b
    powLoopW (e.tdiv 2) b' r'
  else r.mulW b
termination_by e.toNat
decreasing_by
  rename_i h
  have : e.tdiv 2 = e / 2 := by rw [Int.tdiv_eq_ediv_of_nonneg (by omega)]
  omega

/-- Release build: `Polynomial::power(n)` for `i32`, `BigInt`, `&BigInt`; src/polynomial.rs:211-257. -/
def powerW (self : Poly) (n : Int) : Res Poly := do
  rassert (decide (n ≥ 0))
  if n = 0 then .ok one else powLoopW n self one

/-- Release build: `square()`; src/polynomial.rs:314-316. -/
def squareW (self : Poly) : Res Poly := self.powerW 2

/-- Release build: `cube()`; src/polynomial.rs:318-320. -/
def cubeW (self : Poly) : Res Poly := self.powerW 3

/-- Release build: The loop of `power_modulo` and its final product; src/polynomial.rs:327-338. -/
def powModLoopW (p : Int) (e : Int) (b r : Poly) : Res Poly :=
  if e > 1 then do
    let r' ← if e % 2 = 1 then (do
        let t ← r.mulAssignW b
        t.modularAssign p)
      else .ok r
    let b' ← b.mulAssignW b
    let b' ← b'.modularAssign p
    powModLoopW p (e.tdiv 2) b' r'
  else do
    let r' ← r.mulAssignW b
    r'.modularAssign p
termination_by e.toNat
decreasing_by
  rename_i h
  have : e.tdiv 2 = e / 2 := by rw [Int.tdiv_eq_ediv_of_nonneg (by omega)]
  omega

/-- Release build: `Polynomial::power_modulo(n, p)`; src/polynomial.rs:322-339.  (No special case for
`n = 0`.) -/
def powerModuloW (self : Poly) (n p : Int) : Res Poly := do
  rassert (decide (n ≥ 0))
  let b ← self.rem p
  powModLoopW p n b one

/-- Release build: `omit_high_order_q(order)`; src/polynomial.rs:663-674. -/
def omitHighOrderQW (self : Poly) (order : Int) : Res Poly := do
  rassert (!self.hasX)
  rassert (!self.hasY)
  let q ← wrp (order + 1)
  .ok (self.splitOff { xpow := 0, ypow := 0, qpow := q, var := SubVar.new })

/-- Release build: `power_omit_high_order_q(n, order)`; src/polynomial.rs:341-350. -/
def powerOmitHighOrderQW (self : Poly) (n order : Int) : Res Poly := do
  rassert (!self.hasX)
  rassert (!self.hasY)
  (irange 0 n).foldlM (fun pol _ => do
    let pol ← pol.mulAssignW self
    pol.omitHighOrderQW order) one

/-- Release build: The `loop` of `polynomial_modular`, with fuel for its iterations;
src/polynomial.rs:357-374. -/
def polyModLoopW (oh : Term) (other : Poly) (p : Int) : Nat → Poly → Res Poly
  | 0, _ => .timeout
  | fuel + 1, r =>
    let rh := r.highestTermX
    if rh.xpow < oh.xpow then .ok r
    else do
      let inv ← inverse oh.coef p
      let x ← wrp (rh.xpow - oh.xpow)
      let q := ((((TermBuilder.new.coef (rh.coef * inv)).xpow x).ypow rh.ypow).qpow rh.qpow).build
      let q ← q.modularAssign p
      let d ← termMulW q other
      let d ← d.modularAssign p
      let r := r.subAssign d
      let r ← r.modularAssign p
      polyModLoopW oh other p fuel r

/-- Release build: `polynomial_modular(other, p)`; src/polynomial.rs:352-377.  The loop may run for ever:
`fuel` bounds its iterations. -/
def polynomialModularW (fuel : Nat) (self other : Poly) (p : Int) : Res Poly := do
  rassert (!other.hasY)
  rassert (!other.hasQ)
  let r ← polyModLoopW other.highestTermX other p fuel self
  r.modularAssign p

/-- Release build: `to_monic(p)`; src/polynomial.rs:457-466. -/
def toMonicW (self : Poly) (p : Int) : Res Poly := do
  if self.isZero then .ok self
  else do
    let s := self.highestTermX
    let inv ← inverse s.coef p
    let pol ← self.mulTermW ((TermBuilder.new.coef inv).build)
    pol.modularAssign p

/-- Release build: `gcd(other, p)`; src/polynomial.rs:444-455.  `fuel` bounds the recursion depth and the
iterations of each `polynomial_modular`. -/
def gcdW : Nat → Poly → Poly → Int → Res Poly
  | 0, _, _, _ => .timeout
  | fuel + 1, self, other, p =>
    let s := self.highestTermX
    let o := other.highestTermX
    if s.xpow < o.xpow then gcdW fuel other self p
    else do
      let r ← polynomialModularW fuel self other p
      if r.isZero then other.toMonicW p
      else gcdW fuel other r p

/-- Release build: `is_gcd_one(other, p)`; src/polynomial.rs:439-442. -/
def isGcdOneW (fuel : Nat) (self other : Poly) (p : Int) : Res Bool := do
  let m ← gcdW fuel self other p
  .ok (!m.isZero)

/-- Release build: `to_frob(n)`; src/polynomial.rs:498-508. -/
def toFrobW (self : Poly) (n : Int) : Res Poly :=
  self.entries.foldlM (fun pol e => do
    let u ← (Term.from' e.1 e.2).toFrobW n
    .ok (pol.insert u.monomial u.coef)) new

/-- Release build: `to_y_power(n)`; src/polynomial.rs:510-519. -/
def toYPowerW (self : Poly) (n : Int) : Res Poly :=
  self.entries.foldlM (fun pol e => do
    let u ← (Term.from' e.1 e.2).toYPowerW n
    .ok (pol.insert u.monomial u.coef)) new

/-- Release build: `to_q_power(n)`; src/polynomial.rs:521-530. -/
def toQPowerW (self : Poly) (n : Int) : Res Poly :=
  self.entries.foldlM (fun pol e => do
    let u ← (Term.from' e.1 e.2).toQPowerW n
    .ok (pol.insert u.monomial u.coef)) new

/-- Release build: `reduction(a, b)`; src/polynomial.rs:532-555. -/
def reductionW (self : Poly) (a b : Int) : Res Poly :=
  self.entries.foldlM (fun t e =>
    let u := Term.from' e.1 e.2
    if u.ypow ≥ 2 then do
      let y := Int.fdiv u.ypow 2
      let e ← u.toPol.divAssignTermW (TermBuilder.new.ypow (y * 2)).build
      let ee ← (curvePol a b).powerW y
      let e ← e.mulAssignW ee
      .ok (t.addAssign e)
    else .ok (t.addAssignTerm u)) new

/-- Release build: `reduction_modular(a, b, p)` with an explicit bound on the recursion depth
(`ee.reduction_modular(..)` in line 573 calls the function again, on a polynomial without `y`);
src/polynomial.rs:557-582. -/
def reductionModularAuxW (a b p : Int) : Nat → Poly → Res Poly
  | 0, _ => .timeout
  | depth + 1, self => do
    let t ← self.entries.foldlM (fun t e =>
      let u := Term.from' e.1 e.2
      if u.ypow ≥ 2 then do
        let y := Int.fdiv u.ypow 2
        let e ← u.toPol.divAssignTermW (TermBuilder.new.ypow (y * 2)).build
        let ee ← (curvePol a b).powerModuloW y p
        let ee ← reductionModularAuxW a b p depth ee
        let e ← e.mulAssignW ee
        .ok (t.addAssign e)
      else .ok (t.addAssignTerm u)) new
    t.modularAssign p

/-- Release build: `reduction_modular(a, b, p)`; src/polynomial.rs:557-582.  Depth 2 always suffices
(theorem `reductionModular_depth`). -/
def reductionModularW (self : Poly) (a b p : Int) : Res Poly := reductionModularAuxW a b p 2 self

end Poly

/-- Release build: `Monomial::eval_x_polynomial(polynomial)`; src/term.rs:125-133. -/
def Monomial.evalXPolynomialW (m : Monomial) (f : Poly) : Res Poly := do
  let t := (((TermBuilder.new.ypow m.ypow).qpow m.qpow).var m.var).build.toPol
  let g ← f.powerW m.xpow
  g.mulW t

/-- Release build: `Monomial::eval_y_polynomial(polynomial)`; src/term.rs:135-143. -/
def Monomial.evalYPolynomialW (m : Monomial) (f : Poly) : Res Poly := do
  let t := (((TermBuilder.new.xpow m.xpow).qpow m.qpow).var m.var).build.toPol
  let g ← f.powerW m.ypow
  g.mulW t

/-- Release build: `Term::eval_x_polynomial(polynomial)`; src/term.rs:288-295. -/
def Term.evalXPolynomialW (u : Term) (f : Poly) : Res Poly := do
  let s := (TermBuilder.new.coef u.coef).build.toPol
  let t ← u.monomial.evalXPolynomialW f
  s.mulW t

/-- Release build: `Term::eval_y_polynomial(polynomial)`; src/term.rs:297-304. -/
def Term.evalYPolynomialW (u : Term) (f : Poly) : Res Poly := do
  let s := (TermBuilder.new.coef u.coef).build.toPol
  let t ← u.monomial.evalYPolynomialW f
  s.mulW t

namespace Poly

/-- Release build: `eval_x_polynomial(polynomial)`; src/polynomial.rs:676-686. -/
def evalXPolynomialW (self f : Poly) : Res Poly :=
  self.entries.foldlM (fun pol e => do
    let t := (TermBuilder.new.coef e.2).build.toPol
    let g ← e.1.evalXPolynomialW f
    let h ← g.mulW t
    .ok (pol.addAssign h)) new

/-- Release build: `eval_y_polynomial(polynomial)`; src/polynomial.rs:688-698. -/
def evalYPolynomialW (self f : Poly) : Res Poly :=
  self.entries.foldlM (fun pol e => do
    let t := (TermBuilder.new.coef e.2).build.toPol
    let g ← e.1.evalYPolynomialW f
    let h ← g.mulW t
    .ok (pol.addAssign h)) new

end Poly

/-- Release build: `psi(a, b, n)`; src/division_polynomial.rs:13-55. -/
def psiW (a b n : Int) : Res Poly := do
  rassert (decide (n ≥ 0))
  if n = 0 then .ok Poly.new
  else if n = 1 then .ok new.build.toPol
  else if n = 2 then .ok ((new.coef 2).ypow 1).build.toPol
  else if n = 3 then
    .ok (((((new.coef 3).xpow 4).build.add ((new.coef (6 * a)).xpow 2).build).addTerm
      ((new.coef (12 * b)).xpow 1).build).addTerm (new.coef (-(power a 2))).build)
  else if n = 4 then
    Poly.termMulW ((new.coef 4).ypow 1).build
      ((((((new.xpow 6).build.add ((new.coef (5 * a)).xpow 4).build).addTerm
        ((new.coef (20 * b)).xpow 3).build).addTerm
        ((new.coef (-5 * power a 2)).xpow 2).build).addTerm
        ((new.coef (-4 * a * b)).xpow 1).build).addTerm
        (new.coef (-8 * power b 2 - power a 3)).build)
  else if n < 0 then .panic .assertion -- unreachable: excluded by the first assertion
  else if Int.fmod n 2 = 1 then do
    let m := Int.fdiv (n - 1) 2
    rassert (decide (m < n))
    let e ← psiW a b (m + 2)
    let f ← (← psiW a b m).powerW 3
    let g ← psiW a b (m - 1)
    let h ← (← psiW a b (m + 1)).powerW 3
    ((← e.mulW f).sub (← g.mulW h)).reductionW a b
  else do
    let m := Int.fdiv n 2
    rassert (decide (m < n))
    let e ← psiW a b (m + 2)
    let f ← (← psiW a b (m - 1)).powerW 2
    let g ← psiW a b (m - 2)
    let h ← (← psiW a b (m + 1)).powerW 2
    let i ← (← psiW a b m).mulW ((← e.mulW f).sub (← g.mulW h))
    let j ← i.divTermW ((new.coef 2).ypow 1).build
    j.reductionW a b
termination_by n.toNat
decreasing_by
  all_goals
    simp only [Int.fdiv_eq_ediv_of_nonneg _ (by omega : (0 : Int) ≤ 2)] at *
    omega

/-- Release build: `phi(a, b, n)`; src/division_polynomial.rs:57-62. -/
def phiW (a b n : Int) : Res Poly := do
  rassert (decide (n ≥ 1))
  let s ← (← psiW a b n).powerW 2
  let t ← Poly.termMulW (new.xpow 1).build s
  let u ← (← psiW a b (← wrp (n + 1))).mulW (← psiW a b (n - 1))
  (t.sub u).reductionW a b

/-- Release build: `omega(a, b, n)`; src/division_polynomial.rs:64-74. -/
def omegaW (a b n : Int) : Res Poly := do
  rassert (decide (n ≥ 1))
  if n = 1 then .ok (new.ypow 1).build.toPol
  else do
    let s ← (← psiW a b (← wrp (n + 2))).mulW (← (← psiW a b (n - 1)).powerW 2)
    let t ← (← psiW a b (n - 2)).mulW (← (← psiW a b (n + 1)).powerW 2)
    let i ← (s.sub t).divTermW ((new.coef 4).ypow 1).build
    i.reductionW a b

/-- Release build: `sigma_divisor(n, power)`; src/divisor.rs:7-21.  `n % i` is truncating, with `i ≥ 1`. -/
def sigmaDivisorW (n pw : Int) : Res Int := do
  if pw < 0 then .ok 0
  else if n < 0 then .ok 0
  else do
    let hi ← wrp (n + 1)
    .ok ((irange 1 hi).foldl (fun sum i => if n.tmod i = 0 then sum + power i pw else sum) 0)

/-- Release build: `eisenstein4(max_q_order)`; src/eisenstein.rs:11-23. -/
def eisenstein4W (maxQOrder : Int) : Res Poly := do
  let hi ← wrp (maxQOrder + 1)
  (irange 1 hi).foldlM (fun pol n => do
    let sigma ← sigmaDivisorW n 3
    let t := ((TermBuilder.new.coef (240 * sigma)).qpow n).build.toPol
    .ok (pol.addAssign t)) Poly.one

/-- Release build: `delta1(order)`; src/delta.rs:7-17. -/
def delta1W (order : Int) : Res Poly := do
  let hi ← wrp (order + 1)
  (irange 1 hi).foldlM (fun pol n => do
    let t := (TermBuilder.new.qpow n).build.toPol
    let u ← (Poly.one.sub t).powerOmitHighOrderQW 24 order
    let pol ← pol.mulAssignW u
    pol.omitHighOrderQW order) Poly.one

/-- Release build: `delta1_inverse(order)`; src/delta.rs:20-28. -/
def delta1InverseW (order : Int) : Res Poly := do
  let d ← delta1W order
  let a := Poly.one.sub d
  let hi ← wrp (order + 1)
  (irange 1 hi).foldlM (fun pol n => do
    let t ← a.powerOmitHighOrderQW n order
    .ok (pol.addAssign t)) Poly.one

/-- Release build: `j_invariant1(order)`; src/j_invariant.rs:9-16. -/
def jInvariant1W (order : Int) : Res Poly := do
  let di ← delta1InverseW order
  let e4 ← (← eisenstein4W order).powerW 3
  let e4 ← e4.omitHighOrderQW order
  let j ← di.mulW e4
  j.omitHighOrderQW order

/-- Release build: `j_invariant(order)`; src/j_invariant.rs:19-26. -/
def jInvariantQW (order : Int) : Res Poly := do
  let j1 ← jInvariant1W (← wrp (order + 1))
  let t := (TermBuilder.new.qpow (-1)).build.toPol
  j1.mulW t

namespace Converter

/-- Release build: The pairs `(i, j)` in the order in which the two `for` nests shared by `count`,
`index_from_variable` and `variable_from_index` visit them: first `0 ≤ i < j ≤ p`, row by row,
then the diagonal; src/subscripted_variable.rs:99-106, :116-131, :137-158.  `self.p + 1` is
evaluated before the first visit, so it overflows first (see `count`, ...). -/
def visitsW (c : Converter) : List (Int × Int) :=
  let p1 := wrap32 (c.p + 1)
  ((irange 0 p1).flatMap (fun i => (irange (i + 1) p1).map (fun j => (i, j))))
  ++ (irange 0 p1).map (fun i => (i, i))

/-- Release build: `count()`; src/subscripted_variable.rs:97-108.  The `u64` counter itself cannot overflow:
there are fewer than `2^62` visits. -/
def countW (c : Converter) : Res Nat :=
  .ok (c.visitsW.foldl (fun index _ => index + 1) 0)

/-- Release build: `index_from_variable(variable)`; src/subscripted_variable.rs:110-133. -/
def indexFromVariableW (c : Converter) (v : SubVar) : Res (Option Nat) := do
  if v.empty then .ok none
  else match findIndex v.i v.j c.visitsW 0 with
    | some k => .ok (some k)
    | none => .panic .explicit

/-- Release build: The search loop of `variable_from_index`: `local_index` is an `i32` counter, incremented
(with overflow check) after each visit that does not match. -/
def findVariableW (target : Int) : List (Int × Int) → Int → Res SubVar
  | [], _ => .panic .explicit
  | (a, b) :: t, localIndex =>
    if localIndex = target then .ok { i := a, j := b, empty := false }
    else do
      let next ← wrp (localIndex + 1)
      findVariableW target t next

/-- Release build: `variable_from_index(index)`; src/subscripted_variable.rs:135-160. -/
def variableFromIndexW (c : Converter) (index : Nat) : Res SubVar :=
  findVariableW (asI32 index) c.visitsW 0

end Converter

/-- Release build: `solve(matrix)`; src/simultaneous_equation.rs:6-80. -/
def solveW (matrix : Mat) : Res Mat := do
  match matrix with
  | [] => .panic .indexOutOfBounds
  | r0 :: _ => do
    let rowCount := matrix.length
    let colCount := r0.length
    if matrix.any (fun r => r.length < colCount) then .panic .indexOutOfBounds
    else if colCount = 0 then .panic .indexOutOfBounds
    else do
      let s0 : SolveState := { a := matrix.map (fun r => r.take colCount), row := List.range rowCount }
      let s ← (List.range (colCount - 1)).foldlM (solveColumn rowCount) s0
      let colPrim := colCount - 1
      let a := (List.range' 1 (colCount - 2)).reverse.foldl (solveBack colPrim s.row) s.a
      .ok ((List.range rowCount).map (fun i => a.getD (s.row.getD i 0) []))

/-- Release build: `subscripted_variable_modular_polynomial(p)`; src/modular_polynomial.rs:13-45. -/
def subscriptedVariableModularPolynomialW (p : Int) : Res Poly := do
  rassert (decide (p ≥ 2))
  rassert (isPrime p.toNat)
  let p1 ← wrp (p + 1)
  let pol := (new.xpow p1).build.toPol
  let pol := pol.addAssign (new.ypow p1).build.toPol
  let pol ← (irange 0 p1).foldlM (fun pol i => do
    .ok (Poly.addAssign pol (← subTermPol i i i i))) pol
  (irange 0 p1).foldlM (fun pol i =>
    (irange (i + 1) p1).foldlM (fun pol j => do
      let pol := Poly.addAssign pol (← subTermPol i j i j)
      .ok (Poly.addAssign pol (← subTermPol j i i j))) pol) pol

/-- Release build: `subscripted_variable_modular_polynomial_q(p)`; src/modular_polynomial.rs:57-67. -/
def subscriptedVariableModularPolynomialQW (p : Int) : Res Poly := do
  let pol ← subscriptedVariableModularPolynomialW p
  let jOrder ← wrp ((← wrp (p * p)) + p)
  let j ← jInvariantQW jOrder
  let jq ← j.toQPowerW p
  let pol1 ← pol.evalXPolynomialW j
  let pol2 ← pol1.evalYPolynomialW jq
  pol2.omitHighOrderQW 0

/-- Release build: `subscripted_variable_modular_polynomial_list(p)`; src/modular_polynomial.rs:47-55. -/
def subscriptedVariableModularPolynomialListW (p : Int) : Res (List Poly) := do
  let polQ ← subscriptedVariableModularPolynomialQW p
  let sq ← wrp (p * p)
  let mn ← wrp (-sq - p)
  (irange mn 1).foldlM (fun v i => do .ok (v ++ [← polQ.toQPowerCoef i])) []

/-- Release build: One row of the coefficient matrix: the coefficients of all variables, then the constant;
src/modular_polynomial.rs:76-87. -/
def modularRowW (c : Converter) (n : Nat) (f : Poly) : Res (List Int) := do
  let cs ← (List.range n).foldlM (fun acc col => do
    let v ← c.variableFromIndexW col
    .ok (acc ++ [← f.toVariableCoef v])) []
  .ok (cs ++ [← f.toVariableCoef SubVar.new])

/-- Release build: Loop body that assembles the result from the solved system;
src/modular_polynomial.rs:93-108. -/
def modularAssembleW (c : Converter) (b : Mat) (colCount : Nat) (pol : Poly) (i : Nat) : Res Poly := do
  let v ← c.variableFromIndexW i
  let val := Mat.cell b i (colCount - 1)
  let pol := pol.addAssignTerm (((new.coef (-val)).xpow v.i).ypow v.j).build
  .ok (if v.i ≠ v.j then pol.addAssignTerm (((new.coef (-val)).xpow v.j).ypow v.i).build else pol)

/-- Release build: `modular_polynomial(p)`; src/modular_polynomial.rs:69-112.  (`b[i]` is in range whenever
`solve` returned: it panics if there are fewer rows than unknowns.) -/
def modularPolynomialW (p : Int) : Res Poly := do
  let list ← subscriptedVariableModularPolynomialListW p
  let converter ← Converter.new p
  let n ← converter.countW
  let colCount := n + 1
  let a ← list.foldlM (fun acc f => do .ok (acc ++ [← modularRowW converter n f])) []
  let b ← solveW a
  let pol ← (List.range (colCount - 1)).foldlM (modularAssembleW converter b colCount) Poly.new
  let p1 ← wrp (p + 1)
  let pol := pol.addAssignTerm (new.xpow p1).build
  .ok (pol.addAssignTerm (new.ypow p1).build)

/-- Release build: `l = 2` step of `schoof`; src/schoof.rs:23-37. -/
def schoof2W (fuel : Nat) (a b q : Int) : Res ModResult := do
  let polL2 := (new.xpow q).build.sub (new.xpow 1).build
  let polStandard := Poly.curvePol a b
  let one ← polStandard.isGcdOneW fuel polL2 q
  .ok { l := 2, r := if one then 1 else 0 }

/-- Release build: The polynomials `num1` and `den1`; src/schoof.rs:52-84. -/
def schoofNumDen1W (a b q ql : Int) : Res (Poly × Poly) := do
  let nn1 ← (← omegaW a b ql).reductionModularW a b q
  let q2 ← wrp (q ^ 2)
  let nn2 ← Poly.termMulW (new.ypow q2).build (← (← psiW a b ql).powerW 3)
  let nn2 ← nn2.reductionModularW a b q
  let n1 ← (← (nn1.sub nn2).powerW 2).modularAssign q
  let n2 := ((← phiW a b ql).add
    (← Poly.termMulW (new.xpow q2).build (← (← psiW a b ql).powerW 2))).neg
  let n3 ← ((← phiW a b ql).sub
    (← Poly.termMulW (new.xpow q2).build (← (← psiW a b ql).powerW 2))).powerW 2
  let num1 ← (n1.add (← n2.mulW n3)).modularAssign q
  let num1 ← num1.reductionModularW a b q
  let den1 ← (← (← psiW a b ql).powerW 2).mulW (← ((← phiW a b ql).sub
    (← Poly.termMulW (new.xpow q2).build (← (← psiW a b ql).powerW 2))).powerW 2)
  let den1 ← den1.reductionModularW a b q
  .ok (num1, den1)

/-- Release build: The test for one `j` of the loop over `j`: is the polynomial zero modulo `psi_l`?;
src/schoof.rs:92-108. -/
def schoofXTestW (fuel : Nat) (a b q : Int) (num1 den1 psiL : Poly) (j : Int) : Res Bool := do
  let num2 ← (← (← phiW a b j).toFrobW q).reductionModularW a b q
  let den2 ← (← (← psiW a b j).toFrobW q).powerW 2
  let p1 ← ((← num1.mulW den2).sub (← num2.mulW den1)).modularAssign q
  let p1 ← p1.reductionModularW a b q
  let p1 ← p1.polynomialModularW fuel psiL q
  let p1 ← p1.modularAssign q
  .ok p1.isZero

/-- Release build: The loop over `j`: the first `j` for which the test succeeds; src/schoof.rs:91-114. -/
def schoofFindJW (fuel : Nat) (a b q : Int) (num1 den1 psiL : Poly) : List Int → Res (Option Int)
  | [] => .ok none
  | j :: t => do
    if ← schoofXTestW fuel a b q num1 den1 psiL j then .ok (some j)
    else schoofFindJW fuel a b q num1 den1 psiL t

/-- Release build: Case (iii), `x` found; src/schoof.rs:115-180. -/
def schoofYW (fuel : Nat) (a b q l ql jj : Int) (psiL : Poly) : Res ModResult := do
  let q2 ← wrp (q ^ 2)
  let g ← (new.ypow q2).build.toPol.reductionModularW a b q
  let omg ← (← omegaW a b ql).modularAssign q
  let d := omg.sub (← g.mulW (← (← psiW a b ql).powerW 3))
  let d ← d.reductionModularW a b q
  let e ← ((← phiW a b ql).neg.add
    (← Poly.termMulW ((new.coef 2).xpow q2).build (← (← psiW a b ql).powerW 2))).modularAssign q
  let e ← e.reductionModularW a b q
  let f ← ((← phiW a b ql).sub
    (← Poly.termMulW (new.xpow q2).build (← (← psiW a b ql).powerW 2))).modularAssign q
  let f ← f.reductionModularW a b q
  let num3 := (← d.mulW ((← e.mulW (← f.powerW 2)).sub (← d.powerW 2))).sub
    (← (← g.mulW (← (← psiW a b ql).powerW 3)).mulW (← f.powerW 3))
  let num3 ← num3.reductionModularW a b q
  let num3 ← num3.mulAssignW (← psiW a b ql)
  let num3 ← num3.reductionModularW a b q
  let den3 ← (← (← (← psiW a b ql).powerW 3).mulW (← f.powerW 3)).mulW (← psiW a b ql)
  let den3 ← den3.reductionModularW a b q
  let num4 ← (← (← omegaW a b jj).toFrobW q).reductionModularW a b q
  let den4 ← (← (← psiW a b jj).toFrobW q).powerW 3
  let den4 ← den4.reductionModularW a b q
  let p7 ← ((← num3.mulW den4).sub (← num4.mulW den3)).modularAssign q
  let p8 ← p7.reductionModularW a b q
  let p9 ← if p8.hasY then p8.divTermW (new.ypow 1).build else .ok p8
  let p9 ← p9.modularAssign q
  let p9 ← p9.polynomialModularW fuel psiL q
  let jj := if !p9.isZero then -jj else jj
  let jj := if jj < 0 then jj + l else jj
  .ok { l := l, r := jj }

/-- Release build: Cases (d) and (e), `x` not found; src/schoof.rs:181-233.  Line 203 builds the modulus with
`q` in the place of the coefficient `a`, and line 214 uses `a` as an exponent; both are modelled
as written. -/
def schoofDEW (fuel : Nat) (a b q l ql : Int) : Res ModResult := do
  match (irange 1 l).find? (fun i => Int.fmod (i ^ 2) l = ql) with
  | none => .ok { l := l, r := 0 }
  | some w => do
    let p12 := (← Poly.termMulW (new.xpow q).build (← (← psiW a b w).powerW 2)).sub (← phiW a b w)
    let p12 ← p12.modularAssign q
    let p13 ← p12.reductionModularW a b q
    let p14 ← (← psiW q b l).rem q
    let p15 ← p13.polynomialModularW fuel p14 q
    if !p15.isZero then .ok { l := l, r := 0 }
    else do
      if ¬ InI32 a then .panic .unwrapNone
      else do
        let p16 ← ((← Poly.termMulW (new.ypow a).build (← (← psiW a b w).powerW 3)).sub
          (← omegaW a b w)).divTermW (new.ypow 1).build
        let p16 ← p16.modularAssign q
        let p17 ← p16.reductionModularW a b q
        let one ← p17.isGcdOneW fuel (← psiW a b l) q
        let ww := if one then -2 * w else 2 * w
        let ww := if ww < 0 then ww + l else ww
        .ok { l := l, r := ww }

/-- Release build: One iteration of the loop over `l`; src/schoof.rs:42-234. -/
def schoofLW (fuel : Nat) (a b q l : Int) : Res ModResult := do
  let ql := Int.fmod q l
  let jmax := (l - 1).tdiv 2
  let (num1, den1) ← schoofNumDen1W a b q ql
  let psiL ← (← psiW a b l).rem q
  match ← schoofFindJW fuel a b q num1 den1 psiL (irange 1 (jmax + 1)) with
  | some jj => schoofYW fuel a b q l ql jj psiL
  | none => schoofDEW fuel a b q l ql

/-- Release build: The loop over `l ∈ {3, 5}` with its `if l >= q break`; src/schoof.rs:42-47. -/
def schoofLoopW (fuel : Nat) (a b q : Int) : List Int → List ModResult → Res (List ModResult)
  | [], acc => .ok acc
  | l :: t, acc =>
    if l ≥ q then .ok acc
    else do
      let r ← schoofLW fuel a b q l
      schoofLoopW fuel a b q t (acc ++ [r])

/-- Release build: `schoof(a, b, q)`; src/schoof.rs:17-236. -/
def schoofW (fuel : Nat) (a b q : Int) : Res (List ModResult) := do
  let r2 ← schoof2W fuel a b q
  schoofLoopW fuel a b q [3, 5] [r2]

/-- Release build: `sea(ec, l)` after the modular polynomial has been computed;
src/schoof_elkies_atkins.rs:24-55. -/
def seaWithW (fuel : Nat) (ec : EllipticCurve) (mpol : Poly) : Res SEAResult := do
  let mpol ← mpol.modularAssign ec.p
  let mpol := mpol.evalY (← ec.jInvariant)
  let mpol ← mpol.modularAssign ec.p
  if ¬ InI32 ec.p then .panic .unwrapNone
  else do
    let pol := (new.xpow ec.p).build.sub (new.xpow 1).build
    let g ← pol.gcdW fuel mpol ec.p
    let degree ← g.degreeX
    let isElkies := decide (degree > 0)
    let roots ← if isElkies then seaRoots ec.p g degree (irange 0 ec.p) [] else .ok []
    .ok { gcd := g, degreeOfGcd := degree, isElkiesPrime := isElkies, isogenyJInvariants := roots }

/-- Release build: `sea(ec, l)`; src/schoof_elkies_atkins.rs:20-56. -/
def seaW (fuel : Nat) (ec : EllipticCurve) (l : Int) : Res SEAResult := do
  let mpol ← modularPolynomialW l
  seaWithW fuel ec mpol

end EC
