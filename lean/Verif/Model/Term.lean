import Verif.Model.BigInt
import Verif.Model.SubscriptedVariable

/-! Model of the data types and of the term-level functions of `/repo/src/term.rs`, and of
`/repo/src/term_builder.rs`.  Functions of term.rs that need polynomials (`+`, `-`, `to_pol`,
`eval_x_polynomial`, `eval_y_polynomial`) are in `Verif.Model.Polynomial`.
Exponents are `i32`: they are `Int` here, and every arithmetic operation on them goes through
`chk`. -/

namespace EC

/-- `Monomial`; src/term.rs:22-29. -/
structure Monomial where
  xpow : Int
  ypow : Int
  qpow : Int
  var : SubVar
  deriving DecidableEq, Repr

/-- `Term`; src/term.rs:15-20. -/
structure Term where
  coef : Int
  monomial : Monomial
  deriving DecidableEq, Repr

namespace Monomial

/-- Derived `PartialEq` of `Monomial` (the variable is compared with its own `eq`);
src/term.rs:23. -/
def eq (a b : Monomial) : Bool :=
  a.xpow == b.xpow && a.ypow == b.ypow && a.qpow == b.qpow && SubVar.eq a.var b.var

/-- `Ord::cmp` of `Monomial`; src/term.rs:339-363. -/
def cmp (a b : Monomial) : Ordering :=
  if a.xpow < b.xpow then .lt
  else if a.xpow > b.xpow then .gt
  else if a.ypow < b.ypow then .lt
  else if a.ypow > b.ypow then .gt
  else if a.qpow < b.qpow then .lt
  else if a.qpow > b.qpow then .gt
  else if SubVar.cmp a.var b.var = .lt then .lt
  else if SubVar.cmp a.var b.var = .gt then .gt
  else .eq

/-- `Monomial::eval_xy(x, y)`; src/term.rs:121-123. -/
def evalXY (m : Monomial) (x y : Int) : Int := power x m.xpow * power y m.ypow

/-- `Monomial::eval_q(q)`, i.e. `q.pow(self.qpow as u32)` on `i32`; src/term.rs:145-147.
A negative exponent is reinterpreted as `u32`.  (`i32::pow` squares only bases it will use, so
an intermediate overflow implies an overflow of the result.) -/
def evalQ (m : Monomial) (q : Int) : Res Int :=
  chk (q ^ (if m.qpow < 0 then m.qpow + 4294967296 else m.qpow).toNat)

end Monomial

/-- `TermBuilder`; src/term_builder.rs:9-16. -/
structure TermBuilder where
  coef_ : Int
  xpow_ : Int
  ypow_ : Int
  qpow_ : Int
  variable_ : SubVar
  deriving DecidableEq, Repr

namespace TermBuilder

/-- `TermBuilder::new()`; src/term_builder.rs:45-50. -/
def new : TermBuilder := { coef_ := 1, xpow_ := 0, ypow_ := 0, qpow_ := 0, variable_ := SubVar.new }

/-- `coef(c)`, for `i32`, `BigInt` and `&BigInt`; src/term_builder.rs:23-42. -/
def coef (t : TermBuilder) (c : Int) : TermBuilder := { t with coef_ := c }

/-- `xpow(n)`; src/term_builder.rs:52-55. -/
def xpow (t : TermBuilder) (n : Int) : TermBuilder := { t with xpow_ := n }

/-- `ypow(n)`; src/term_builder.rs:57-60. -/
def ypow (t : TermBuilder) (n : Int) : TermBuilder := { t with ypow_ := n }

/-- `qpow(n)`; src/term_builder.rs:62-65. -/
def qpow (t : TermBuilder) (n : Int) : TermBuilder := { t with qpow_ := n }

/-- `variable(v)`; src/term_builder.rs:67-70. -/
def var (t : TermBuilder) (v : SubVar) : TermBuilder := { t with variable_ := v }

/-- `variable_ij(i, j)`; src/term_builder.rs:72-79. -/
def variableIJ (t : TermBuilder) (i j : Int) : Res TermBuilder := do
  rassert (decide (i ≥ 0))
  rassert (decide (j ≥ 0))
  .ok { t with variable_ := { i := i, j := j, empty := false } }

/-- `build()`; src/term_builder.rs:81-91. -/
def build (t : TermBuilder) : Term :=
  { coef := t.coef_,
    monomial := { xpow := t.xpow_, ypow := t.ypow_, qpow := t.qpow_, var := t.variable_ } }

end TermBuilder

namespace Term

/-- `Term::from(monomial, coef)`; src/term.rs:151-156. -/
def from' (m : Monomial) (c : Int) : Term := { coef := c, monomial := m }

/-- `xpow()`; src/term.rs:158-160. -/
def xpow (t : Term) : Int := t.monomial.xpow

/-- `ypow()`; src/term.rs:162-164. -/
def ypow (t : Term) : Int := t.monomial.ypow

/-- `qpow()`; src/term.rs:166-168. -/
def qpow (t : Term) : Int := t.monomial.qpow

/-- `variable()`; src/term.rs:170-172. -/
def var (t : Term) : SubVar := t.monomial.var

/-- `Term::new()` (the zero term); src/term.rs:174-188. -/
def new : Term :=
  { coef := 0, monomial := { xpow := 0, ypow := 0, qpow := 0, var := SubVar.new } }

/-- `One::one()` for `Term`; src/term.rs:31-35. -/
def one : Term := TermBuilder.new.build

/-- `Term * Term`; src/term.rs:47-60. -/
def mul (a b : Term) : Res Term := do
  if !a.var.empty && !b.var.empty then .panic .explicit
  else do
    let x ← chk (a.xpow + b.xpow)
    let y ← chk (a.ypow + b.ypow)
    let q ← chk (a.qpow + b.qpow)
    .ok { coef := a.coef * b.coef,
          monomial := { xpow := x, ypow := y, qpow := q,
                        var := if !a.var.empty then a.var else b.var } }

/-- `Term / Term`; src/term.rs:66-77. -/
def div (a b : Term) : Res Term := do
  if !b.var.empty then .panic .explicit
  else do
    let c ← divFloor a.coef b.coef
    let x ← chk (a.xpow - b.xpow)
    let y ← chk (a.ypow - b.ypow)
    let q ← chk (a.qpow - b.qpow)
    .ok ((((((TermBuilder.new.coef c).xpow x).ypow y).qpow q).var a.var).build)

/-- `-Term`; src/term.rs:79-87. -/
def neg (a : Term) : Term :=
  ((((((TermBuilder.new.coef (-a.coef)).xpow a.xpow).ypow a.ypow).qpow a.qpow).var
    a.var).build)

/-- `Term::power(n)` for `i32` and `BigInt`; src/term.rs:89-118.  `n.to_i32().unwrap()` panics
when `n` is not an `i32`. -/
def power (a : Term) (n : Int) : Res Term := do
  if !a.var.empty then .panic .explicit
  else if ¬ InI32 n then .panic .unwrapNone
  else do
    let x ← chk (a.xpow * n)
    let y ← chk (a.ypow * n)
    let q ← chk (a.qpow * n)
    .ok (((((TermBuilder.new.coef (EC.power a.coef n)).xpow x).ypow y).qpow q).build)

/-- `is_equal_order(other)`; src/term.rs:200-204. -/
def isEqualOrder (a b : Term) : Bool :=
  a.xpow == b.xpow && a.ypow == b.ypow && a.qpow == b.qpow

/-- `Term::power_modulo(n, p)`; src/term.rs:206-216. -/
def powerModulo (a : Term) (n p : Int) : Res Term := do
  if ¬ InI32 n then .panic .unwrapNone
  else do
    let c ← EC.powerModulo a.coef n p
    let x ← chk (a.xpow * n)
    let y ← chk (a.ypow * n)
    let q ← chk (a.qpow * n)
    .ok ((((((TermBuilder.new.coef c).xpow x).ypow y).qpow q).var a.var).build)

/-- `Term::to_frob(n)`; src/term.rs:218-228. -/
def toFrob (a : Term) (n : Int) : Res Term := do
  let x ← chk (a.xpow * n)
  let y ← chk (a.ypow * n)
  .ok ((((((TermBuilder.new.coef a.coef).xpow x).ypow y).qpow a.qpow).var a.var).build)

/-- `Term::to_y_power(n)`; src/term.rs:230-239. -/
def toYPower (a : Term) (n : Int) : Res Term := do
  let y ← chk (a.ypow * n)
  .ok ((((((TermBuilder.new.coef a.coef).xpow a.xpow).ypow y).qpow a.qpow).var
    a.var).build)

/-- `Term::to_q_power(n)`; src/term.rs:241-250. -/
def toQPower (a : Term) (n : Int) : Res Term := do
  let q ← chk (a.qpow * n)
  .ok ((((((TermBuilder.new.coef a.coef).xpow a.xpow).ypow a.ypow).qpow q).var
    a.var).build)

/-- `Term::modulo(n)`; src/term.rs:252-265. -/
def modulo (a : Term) (n : Int) : Res Term :=
  if n = 0 then .panic .explicit
  else .ok ((((((TermBuilder.new.coef (Int.fmod a.coef n)).xpow a.xpow).ypow a.ypow).qpow
    a.qpow).var a.var).build)

/-- `Term::modular_assign(n)`; src/term.rs:267-274. -/
def modularAssign (a : Term) (n : Int) : Res Term :=
  if n = 0 then .panic .explicit else .ok { a with coef := Int.fmod a.coef n }

/-- `has_x()`; src/term.rs:276-278. -/
def hasX (a : Term) : Bool := a.xpow != 0

/-- `has_y()`; src/term.rs:280-282. -/
def hasY (a : Term) : Bool := a.ypow != 0

/-- `has_q()`; src/term.rs:284-286. -/
def hasQ (a : Term) : Bool := a.qpow != 0

/-- `Term::derivative_x()`; src/term.rs:306-317. -/
def derivativeX (a : Term) : Res Term := do
  rassert (decide (a.xpow ≥ 0))
  if a.xpow > 0 then
    .ok { coef := a.coef * a.xpow, monomial := { a.monomial with xpow := a.xpow - 1 } }
  else .ok ((TermBuilder.new.coef 0).build)

/-- `Term::derivative_y()`; src/term.rs:319-330. -/
def derivativeY (a : Term) : Res Term := do
  rassert (decide (a.ypow ≥ 0))
  if a.ypow > 0 then
    .ok { coef := a.coef * a.ypow, monomial := { a.monomial with ypow := a.ypow - 1 } }
  else .ok ((TermBuilder.new.coef 0).build)

/-- `Ord::cmp` of `Term` (compares monomials only); src/term.rs:333-337. -/
def cmp (a b : Term) : Ordering := Monomial.cmp a.monomial b.monomial

/-- Derived `PartialEq` of `Term`; src/term.rs:16. -/
def eq (a b : Term) : Bool := a.coef == b.coef && Monomial.eq a.monomial b.monomial

end Term

end EC
