import Verif.Model.Polynomial

/-! Model of `/repo/src/elliptic_curve.rs` (except `Display`, see `Verif.Model.Display`).
`println!` is in Model/Output.lean. -/

namespace EC

/-- `ECPoint`; src/elliptic_curve.rs:27-33. -/
structure ECPoint where
  x : Int
  y : Int
  z : Int
  deriving DecidableEq, Repr

namespace ECPoint

/-- `ECPoint::infinity()`; src/elliptic_curve.rs:264-270. -/
def infinity : ECPoint := { x := 0, y := 1, z := 0 }

/-- `is_infinity()`; src/elliptic_curve.rs:271-273. -/
def isInfinity (P : ECPoint) : Bool := P.z == 0

end ECPoint

/-- `EllipticCurve`; src/elliptic_curve.rs:15-25. -/
structure EllipticCurve where
  a : Int
  b : Int
  p : Int
  pol : Poly
  points : List ECPoint
  deriving DecidableEq

namespace EllipticCurve

/-- `new_raw(a, b, p)`; src/elliptic_curve.rs:53-65. -/
def newRaw (a b p : Int) : EllipticCurve :=
  { a := a, b := b, p := p, pol := Poly.curvePol a b, points := [] }

/-- `j_invariant()`; src/elliptic_curve.rs:67-72. -/
def jInvariant (ec : EllipticCurve) : Res Int := do
  let n := 4 * power ec.a 3
  let d := n + 27 * power ec.b 2
  let inv ← inverse d ec.p
  modFloor (1728 * n * inv) ec.p

/-- `is_on_curve(ecpoint)`; src/elliptic_curve.rs:74-85. -/
def isOnCurve (ec : EllipticCurve) (P : ECPoint) : Res Bool := do
  if P.isInfinity then .ok true
  else do
    let c := ec.pol.evalXY P.x P.y
    let cc ← modFloor c ec.p
    let d := power P.y 2
    let dd ← modFloor d ec.p
    let r ← modFloor (cc - dd) ec.p
    .ok (r == 0)

/-- `canonicalize(point)`; src/elliptic_curve.rs:87-93. -/
def canonicalize (ec : EllipticCurve) (P : ECPoint) : Res ECPoint := do
  let x ← modFloor P.x ec.p
  let y ← modFloor P.y ec.p
  let z ← modFloor P.z ec.p
  .ok { x := x, y := y, z := z }

/-- `plus(point1, point2)`; src/elliptic_curve.rs:95-135.  Line 106 returns
`(point1.x, point2.y, point2.z)` when `point2` is infinity; it is modelled as written. -/
def plus (ec : EllipticCurve) (P1 P2 : ECPoint) : Res ECPoint := do
  rassert (← ec.isOnCurve P1)
  rassert (← ec.isOnCurve P2)
  if P1.isInfinity then .ok { x := P2.x, y := P2.y, z := P2.z }
  else if P2.isInfinity then .ok { x := P1.x, y := P2.y, z := P2.z }
  else do
    let p1 ← ec.canonicalize P1
    let p2 ← ec.canonicalize P2
    let x1 := p1.x
    let x2 := p2.x
    let y1 := p1.y
    let y2 := p2.y
    if x1 ≠ x2 then do
      let m := (y2 - y1) * (← inverse (x2 - x1) ec.p)
      let x3 := power m 2 - x1 - x2
      let y3 := m * (x1 - x3) - y1
      .ok { x := ← modFloor x3 ec.p, y := ← modFloor y3 ec.p, z := 1 }
    else if y1 ≠ y2 ∨ y1 = 0 then .ok ECPoint.infinity
    else do
      let m := (3 * power x1 2 + ec.a) * (← inverse (2 * y1) ec.p)
      let x3 := power m 2 - 2 * x1
      let y3 := m * (x1 - x3) - y1
      .ok { x := ← modFloor x3 ec.p, y := ← modFloor y3 ec.p, z := 1 }

/-- `negate(point)`; src/elliptic_curve.rs:137-146. -/
def negate (ec : EllipticCurve) (P : ECPoint) : Res ECPoint := do
  if P.isInfinity then .ok P
  else do
    let y ← modFloor (-P.y) ec.p
    .ok { x := P.x, y := y, z := P.z }

/-- Inner loop of `create_points`: the first `y` in the range whose square is `xpol`, if any;
src/elliptic_curve.rs:155-167. -/
def findY (ec : EllipticCurve) (xpol : Int) : List Int → Res (Option Int)
  | [] => .ok none
  | y :: t => do
    let ypol ← modFloor (power y 2) ec.p
    if ypol = xpol then .ok (some y) else findY ec xpol t

/-- Body of the outer loop of `create_points` for one `x`: the points pushed;
src/elliptic_curve.rs:151-167. -/
def pointsAt (ec : EllipticCurve) (x : Int) : Res (List ECPoint) := do
  let xpol ← modFloor (power x 3 + ec.a * x + ec.b) ec.p
  match ← ec.findY xpol (irange 0 ec.p) with
  | none => .ok []
  | some y => do
    let point : ECPoint := { x := x, y := y, z := 1 }
    let minusPoint ← ec.negate point
    .ok (if minusPoint ≠ point then [point, minusPoint] else [point])

/-- `create_points()`; src/elliptic_curve.rs:148-170.  Appends to the existing points. -/
def createPoints (ec : EllipticCurve) : Res EllipticCurve := do
  let pts ← (irange 0 ec.p).foldlM (fun acc x => do .ok (acc ++ (← ec.pointsAt x))) ec.points
  .ok { ec with points := pts ++ [ECPoint.infinity] }

/-- `EllipticCurve::new(a, b, p)`; src/elliptic_curve.rs:36-51. -/
def new (a b p : Int) : Res EllipticCurve := do
  rassert (decide (p ≥ 2))
  if p ≥ 18446744073709551616 then .panic .unwrapNone
  else do
    rassert (isPrime p.toNat)
    (newRaw a b p).createPoints

/-- `points()`; src/elliptic_curve.rs:172-175 is the field itself; `cardinality()`;
src/elliptic_curve.rs:177-180. -/
def cardinality (ec : EllipticCurve) : Nat := ec.points.length

/-- The `while e > 1` loop of `multiply_scalar` and the final sum; src/elliptic_curve.rs:195-203. -/
def mulLoop (ec : EllipticCurve) (e : Int) (b r : ECPoint) : Res ECPoint :=
  if e > 1 then do
    let r' ← if e % 2 = 1 then ec.plus r b else .ok r
    let b' ← ec.plus b b
    mulLoop ec (e.tdiv 2) b' r'
  else ec.plus r b
termination_by e.toNat
decreasing_by
  rename_i h
  have : e.tdiv 2 = e / 2 := by rw [Int.tdiv_eq_ediv_of_nonneg (by omega)]
  omega

/-- `multiply_scalar(point, n)` for `n > 0`; src/elliptic_curve.rs:189-203. -/
def mulPos (ec : EllipticCurve) (P : ECPoint) (n : Int) : Res ECPoint :=
  if n = 1 then .ok P else ec.mulLoop n P ECPoint.infinity

/-- `multiply_scalar(point, n)`; src/elliptic_curve.rs:182-204.  For negative `n` the code calls
itself with `-n` (which is positive) and adds the result to infinity. -/
def multiplyScalar (ec : EllipticCurve) (P : ECPoint) (n : Int) : Res ECPoint :=
  if n = 0 then .ok ECPoint.infinity
  else if n < 0 then do
    let minusNP ← ec.mulPos P (-n)
    ec.plus ECPoint.infinity minusNP
  else ec.mulPos P n

/-- The `loop` of `point_order`; src/elliptic_curve.rs:213-219. -/
def orderLoop (ec : EllipticCurve) (P : ECPoint) : Nat → ECPoint → Int → Res Int
  | 0, _, _ => .timeout
  | fuel + 1, r, x => do
    let r' ← ec.plus P r
    if r'.isInfinity then .ok x else orderLoop ec P fuel r' (x + 1)

/-- `point_order(point)`; src/elliptic_curve.rs:206-220. -/
def pointOrder (fuel : Nat) (ec : EllipticCurve) (P : ECPoint) : Res Int :=
  if P.isInfinity then .ok 1 else ec.orderLoop P fuel P 2

/-- `division_points(order)`; src/elliptic_curve.rs:222-230. -/
def divisionPoints (ec : EllipticCurve) (order : Int) : Res (List ECPoint) :=
  ec.points.foldlM (fun vec P => do
    let R ← ec.multiplyScalar P order
    .ok (if R = ECPoint.infinity then vec ++ [P] else vec)) []

/-- Loop body of `isogeny`; src/elliptic_curve.rs:238-247. -/
def isogenyStep (ec : EllipticCurve) (isOdd : Bool) (vw : Int × Int) (P : ECPoint) :
    Res (Int × Int) := do
  if P.isInfinity then .ok vw
  else do
    let gpx ← divFloor (3 * power P.x 2 + ec.a) ec.p
    let gpy ← divFloor (-2 * P.y) ec.p
    let up ← divFloor (power gpy 2) ec.p
    let vp := if isOdd then gpx else gpx * 2
    .ok (vw.1 + vp, vw.2 + (up + P.x * vp))

/-- `isogeny(order)`; src/elliptic_curve.rs:232-253. -/
def isogeny (ec : EllipticCurve) (order : Int) : Res EllipticCurve := do
  let points ← ec.divisionPoints order
  let (v, w) ← points.foldlM (ec.isogenyStep (order % 2 = 1)) (0, 0)
  let v ← divFloor v ec.p
  let w ← divFloor w ec.p
  let a ← divFloor (ec.a - 5 * v) ec.p
  let b ← divFloor (ec.b - 7 * w) ec.p
  EllipticCurve.new a b ec.p

end EllipticCurve

/-! `/repo/src/secp256k1.rs`. -/

/-- `Secp256k1`; src/secp256k1.rs:15-19. -/
structure Secp256k1 where
  ec : EllipticCurve
  g : ECPoint

/-- `Secp256k1::new()`; src/secp256k1.rs:21-43. -/
def Secp256k1.new : Secp256k1 :=
  let p := power 2 256 - power 2 32 - 977
  let a := 0
  let b := 7
  let ec := EllipticCurve.newRaw a b p
  let gx := 5 * power 10 ((12 * 3 + 2) * 2)
    + 50662630222773436695787188951685343262 * power 10 (12 * 3 + 2)
    + 50603453777594175500187360389116729240
  let gy := 3 * power 10 ((12 * 3 + 2) * 2)
    + 26705100207588169780830851305070431844 * power 10 (12 * 3 + 2)
    + 71273380659243275938904335757337482424
  { ec := ec, g := { x := gx, y := gy, z := 1 } }

end EC
