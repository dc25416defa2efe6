import Verif.Model.Display
import Verif.Model.Schoof
import Verif.Model.ModularPolynomial

/-! Model of what the library prints: the three functions of `/repo/src` that call `println!` outside tests
(`chinese_remainder`, `EllipticCurve::plus`, `schoof`), the callers of `plus`, and `examples/hello_world.rs`.  A printed line is a `List Char`; the lines of a call are kept
also when the call panics afterwards. -/

namespace EC

/-- A printed line. -/
abbrev Line := List Char

/-- A call that prints: the lines printed so far, and the outcome. -/
structure Out (α : Type) where
  lines : List Line
  res : Res α

namespace Out

/-- Sequencing: the lines are kept in order; a panic or time-out aborts the rest of the computation. -/
def bind {α β : Type} (x : Out α) (f : α → Out β) : Out β :=
  match x.res with
  | .ok a => ⟨x.lines ++ (f a).lines, (f a).res⟩
  | .panic w => ⟨x.lines, .panic w⟩
  | .timeout => ⟨x.lines, .timeout⟩

instance : Monad Out where
  pure a := ⟨[], .ok a⟩
  bind := Out.bind

/-- A computation that prints nothing. -/
def lift {α : Type} (r : Res α) : Out α := ⟨[], r⟩

end Out

/-- `println!`. -/
def println (s : Line) : Out Unit := ⟨[s], .ok ()⟩

/-- The line `"r:{} l:{}"`; src/bigint.rs:132. -/
def crtLine (m : ModResult) : Line := "r:".toList ++ intStr m.r ++ " l:".toList ++ intStr m.l

/-- The loop of `chinese_remainder` with its `println!`; src/bigint.rs:128-133. -/
def chineseRemainderLoopOut : List ModResult → ModResult → Out ModResult
  | [], acc => pure acc
  | res :: t, acc => do
    let acc := crtStep acc res
    println (crtLine acc)
    chineseRemainderLoopOut t acc

/-- `chinese_remainder(mod_result)` with its output; src/bigint.rs:125-136. -/
def chineseRemainderOut (rs : List ModResult) : Out ModResult :=
  chineseRemainderLoopOut rs { l := 1, r := 1 }

/-- `plus(point1, point2)` with its output; src/elliptic_curve.rs:96-103 (the rest of the function, lines 103-130,
prints nothing and is `EllipticCurve.plus`). -/
def EllipticCurve.plusOut (ec : EllipticCurve) (P Q : ECPoint) : Out ECPoint := do
  let on ← Out.lift (ec.isOnCurve P)
  if !on then do
    println P.display
    Out.lift (.panic .assertion)
  else Out.lift (ec.plus P Q)

/-- The `while e > 1` loop of `multiply_scalar` and the final sum, with their output; src/elliptic_curve.rs:195-203. -/
def EllipticCurve.mulLoopOut (ec : EllipticCurve) (e : Int) (b r : ECPoint) : Out ECPoint :=
  if e > 1 then do
    let r' ← if e % 2 = 1 then ec.plusOut r b else pure r
    let b' ← ec.plusOut b b
    mulLoopOut ec (e.tdiv 2) b' r'
  else ec.plusOut r b
termination_by e.toNat
decreasing_by
  rename_i h
  have : e.tdiv 2 = e / 2 := by rw [Int.tdiv_eq_ediv_of_nonneg (by omega)]
  omega

/-- `multiply_scalar(point, n)` for `n > 0`, with its output; src/elliptic_curve.rs:189-203. -/
def EllipticCurve.mulPosOut (ec : EllipticCurve) (P : ECPoint) (n : Int) : Out ECPoint :=
  if n = 1 then pure P else ec.mulLoopOut n P ECPoint.infinity

/-- `multiply_scalar(point, n)` with its output; src/elliptic_curve.rs:182-204. -/
def EllipticCurve.multiplyScalarOut (ec : EllipticCurve) (P : ECPoint) (n : Int) : Out ECPoint :=
  if n = 0 then pure ECPoint.infinity
  else if n < 0 then do
    let minusNP ← ec.mulPosOut P (-n)
    ec.plusOut ECPoint.infinity minusNP
  else ec.mulPosOut P n

/-- The `loop` of `point_order` with its output; src/elliptic_curve.rs:213-219. -/
def EllipticCurve.orderLoopOut (ec : EllipticCurve) (P : ECPoint) : Nat → ECPoint → Int → Out Int
  | 0, _, _ => Out.lift .timeout
  | fuel + 1, r, x => do
    let r' ← ec.plusOut P r
    if r'.isInfinity then pure x else orderLoopOut ec P fuel r' (x + 1)

/-- `point_order(point)` with its output; src/elliptic_curve.rs:206-220. -/
def EllipticCurve.pointOrderOut (fuel : Nat) (ec : EllipticCurve) (P : ECPoint) : Out Int :=
  if P.isInfinity then pure 1 else ec.orderLoopOut P fuel P 2

/-- The loop of `division_points` with its output; src/elliptic_curve.rs:224-228. -/
def EllipticCurve.divisionLoopOut (ec : EllipticCurve) (order : Int) : List ECPoint → List ECPoint → Out (List ECPoint)
  | [], vec => pure vec
  | P :: t, vec => do
    let R ← ec.multiplyScalarOut P order
    divisionLoopOut ec order t (if R = ECPoint.infinity then vec ++ [P] else vec)

/-- `division_points(order)` with its output; src/elliptic_curve.rs:222-230. -/
def EllipticCurve.divisionPointsOut (ec : EllipticCurve) (order : Int) : Out (List ECPoint) :=
  ec.divisionLoopOut order ec.points []

/-- `isogeny(order)` with its output; src/elliptic_curve.rs:232-253.  After `division_points` (line 233) nothing is
printed. -/
def EllipticCurve.isogenyOut (ec : EllipticCurve) (order : Int) : Out EllipticCurve := do
  let points ← ec.divisionPointsOut order
  Out.lift (do
    let (v, w) ← points.foldlM (ec.isogenyStep (order % 2 = 1)) (0, 0)
    let v ← divFloor v ec.p
    let w ← divFloor w ec.p
    let a ← divFloor (ec.a - 5 * v) ec.p
    let b ← divFloor (ec.b - 7 * w) ec.p
    EllipticCurve.new a b ec.p)

open TermBuilder (new)

/-- The polynomial tested and printed in the loop over `j`; src/schoof.rs:94-105. -/
def schoofXPol (fuel : Nat) (a b q : Int) (num1 den1 psiL : Poly) (j : Int) : Res Poly := do
  let num2 ← (← (← phi a b j).toFrob q).reductionModular a b q
  let den2 ← (← (← psi a b j).toFrob q).power 2
  let p1 ← ((← num1.mul den2).sub (← num2.mul den1)).modularAssign q
  let p1 ← p1.reductionModular a b q
  let p1 ← p1.polynomialModular fuel psiL q
  p1.modularAssign q

/-- The line `"{} pol % psi({}):{}"` of lines 106 and 171; src/schoof.rs:106, :171. -/
def polLine (n : Int) (l : Int) (p : Poly) : Line :=
  intStr n ++ " pol % psi(".toList ++ intStr l ++ "):".toList ++ p.display

/-- The loop over `j` with its output; src/schoof.rs:91-114. -/
def schoofFindJOut (fuel : Nat) (a b q l : Int) (num1 den1 psiL : Poly) : List Int → Out (Option Int)
  | [] => pure none
  | j :: t => do
    println ("92 j:".toList ++ intStr j)
    let p1 ← Out.lift (schoofXPol fuel a b q num1 den1 psiL j)
    println (polLine 106 l p1)
    if p1.isZero then pure (some j)
    else schoofFindJOut fuel a b q l num1 den1 psiL t

/-- The polynomial of case (iii) that decides the sign; src/schoof.rs:118-170. -/
def schoofYPol (fuel : Nat) (a b q ql jj : Int) (psiL : Poly) : Res Poly := do
  let q2 ← chk (q ^ 2)
  let g ← (new.ypow q2).build.toPol.reductionModular a b q
  let omg ← (← omega a b ql).modularAssign q
  let d := omg.sub (← g.mul (← (← psi a b ql).power 3))
  let d ← d.reductionModular a b q
  let e ← ((← phi a b ql).neg.add
    (← Poly.termMul ((new.coef 2).xpow q2).build (← (← psi a b ql).power 2))).modularAssign q
  let e ← e.reductionModular a b q
  let f ← ((← phi a b ql).sub
    (← Poly.termMul (new.xpow q2).build (← (← psi a b ql).power 2))).modularAssign q
  let f ← f.reductionModular a b q
  let num3 := (← d.mul ((← e.mul (← f.power 2)).sub (← d.power 2))).sub
    (← (← g.mul (← (← psi a b ql).power 3)).mul (← f.power 3))
  let num3 ← num3.reductionModular a b q
  let num3 ← num3.mulAssign (← psi a b ql)
  let num3 ← num3.reductionModular a b q
  let den3 ← (← (← (← psi a b ql).power 3).mul (← f.power 3)).mul (← psi a b ql)
  let den3 ← den3.reductionModular a b q
  let num4 ← (← (← omega a b jj).toFrob q).reductionModular a b q
  let den4 ← (← (← psi a b jj).toFrob q).power 3
  let den4 ← den4.reductionModular a b q
  let p7 ← ((← num3.mul den4).sub (← num4.mul den3)).modularAssign q
  let p8 ← p7.reductionModular a b q
  let p9 ← if p8.hasY then p8.divTerm (new.ypow 1).build else .ok p8
  let p9 ← p9.modularAssign q
  p9.polynomialModular fuel psiL q

/-- Case (iii) with its output; src/schoof.rs:115-180. -/
def schoofYOut (fuel : Nat) (a b q l ql jj : Int) (psiL : Poly) : Out ModResult := do
  println "x found".toList
  let p9 ← Out.lift (schoofYPol fuel a b q ql jj psiL)
  println (polLine 171 l p9)
  let jj := if !p9.isZero then -jj else jj
  let jj := if jj < 0 then jj + l else jj
  println ("(iii) y  a = ".toList ++ intStr jj ++ " mod ".toList ++ intStr l)
  pure { l := l, r := jj }

/-- Cases (d) and (e) with their output; src/schoof.rs:181-233. -/
def schoofDEOut (fuel : Nat) (a b q l ql : Int) : Out ModResult := do
  println "x not found".toList
  match (irange 1 l).find? (fun i => Int.fmod (i ^ 2) l = ql) with
  | none => do
    println "(d)  a = 0 mod l because of w not found (d)".toList
    pure { l := l, r := 0 }
  | some w => do
    let p15 ← Out.lift (do
      let p12 := (← Poly.termMul (new.xpow q).build (← (← psi a b w).power 2)).sub (← phi a b w)
      let p12 ← p12.modularAssign q
      let p13 ← p12.reductionModular a b q
      let p14 ← (← psi q b l).rem q
      p13.polynomialModular fuel p14 q)
    if !p15.isZero then do
      println ("(e) y  a = 0 mod ".toList ++ intStr l)
      pure { l := l, r := 0 }
    else do
      let one ← Out.lift (if ¬ InI32 a then .panic .unwrapNone else do
        let p16 ← ((← Poly.termMul (new.ypow a).build (← (← psi a b w).power 3)).sub
          (← omega a b w)).divTerm (new.ypow 1).build
        let p16 ← p16.modularAssign q
        let p17 ← p16.reductionModular a b q
        p17.isGcdOne fuel (← psi a b l) q)
      let ww := if one then -2 * w else 2 * w
      let ww := if ww < 0 then ww + l else ww
      println ("(e) y  a = ".toList ++ intStr ww ++ " mod ".toList ++ intStr l)
      pure { l := l, r := ww }

/-- One iteration of the loop over `l` with its output; src/schoof.rs:48-234. -/
def schoofLOut (fuel : Nat) (a b q l : Int) : Out ModResult := do
  let ql := Int.fmod q l
  println ("q:".toList ++ intStr q ++ " l:".toList ++ intStr l ++ " ql:".toList ++ intStr ql)
  let jmax := (l - 1).tdiv 2
  println ("j:[1, ".toList ++ intStr jmax ++ "]".toList)
  let nd ← Out.lift (schoofNumDen1 a b q ql)
  let psiL ← Out.lift (do (← psi a b l).rem q)
  println ("87 psi(".toList ++ intStr l ++ "):".toList ++ psiL.display)
  match ← schoofFindJOut fuel a b q l nd.1 nd.2 psiL (irange 1 (jmax + 1)) with
  | some jj => schoofYOut fuel a b q l ql jj psiL
  | none => schoofDEOut fuel a b q l ql

/-- The loop over `l` with its output; src/schoof.rs:42-47. -/
def schoofLoopOut (fuel : Nat) (a b q : Int) : List Int → List ModResult → Out (List ModResult)
  | [], acc => pure acc
  | l :: t, acc => do
    println ("43 l:".toList ++ intStr l)
    if l ≥ q then pure acc
    else do
      let r ← schoofLOut fuel a b q l
      schoofLoopOut fuel a b q t (acc ++ [r])

/-- `schoof(a, b, q)` with its output; src/schoof.rs:17-236. -/
def schoofOut (fuel : Nat) (a b q : Int) : Out (List ModResult) := do
  println "24 l:2".toList
  let r2 ← Out.lift (schoof2 fuel a b q)
  println ("a = ".toList ++ intStr r2.r ++ " mod 2".toList)
  schoofLoopOut fuel a b q [3, 5] [r2]

/-- `main()` of the example program; examples/hello_world.rs:4-8. -/
def helloWorld : Out Unit := do
  println (← Out.lift (modularPolynomial 2)).display
  println (← Out.lift (modularPolynomial 3)).display
  println (← Out.lift (modularPolynomial 5)).display

end EC
