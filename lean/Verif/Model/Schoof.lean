import Verif.Model.DivisionPolynomial
import Verif.Model.EllipticCurve
import Verif.Model.ModularPolynomial

/-! Model of `/repo/src/schoof.rs` and `/repo/src/schoof_elkies_atkins.rs`.  `println!` is in
Model/Output.lean.  `fuel` is passed to every `polynomial_modular` and `gcd`. -/

namespace EC

open TermBuilder (new)

/-- `l = 2` step of `schoof`; src/schoof.rs:23-37. -/
def schoof2 (fuel : Nat) (a b q : Int) : Res ModResult := do
  let polL2 := (new.xpow q).build.sub (new.xpow 1).build
  let polStandard := Poly.curvePol a b
  let one ← polStandard.isGcdOne fuel polL2 q
  .ok { l := 2, r := if one then 1 else 0 }

/-- The polynomials `num1` and `den1`; src/schoof.rs:52-84. -/
def schoofNumDen1 (a b q ql : Int) : Res (Poly × Poly) := do
  let nn1 ← (← omega a b ql).reductionModular a b q
  let q2 ← chk (q ^ 2)
  let nn2 ← Poly.termMul (new.ypow q2).build (← (← psi a b ql).power 3)
  let nn2 ← nn2.reductionModular a b q
  let n1 ← (← (nn1.sub nn2).power 2).modularAssign q
  let n2 := ((← phi a b ql).add
    (← Poly.termMul (new.xpow q2).build (← (← psi a b ql).power 2))).neg
  let n3 ← ((← phi a b ql).sub
    (← Poly.termMul (new.xpow q2).build (← (← psi a b ql).power 2))).power 2
  let num1 ← (n1.add (← n2.mul n3)).modularAssign q
  let num1 ← num1.reductionModular a b q
  let den1 ← (← (← psi a b ql).power 2).mul (← ((← phi a b ql).sub
    (← Poly.termMul (new.xpow q2).build (← (← psi a b ql).power 2))).power 2)
  let den1 ← den1.reductionModular a b q
  .ok (num1, den1)

/-- The test for one `j` of the loop over `j`: is the polynomial zero modulo `psi_l`?;
src/schoof.rs:92-108. -/
def schoofXTest (fuel : Nat) (a b q : Int) (num1 den1 psiL : Poly) (j : Int) : Res Bool := do
  let num2 ← (← (← phi a b j).toFrob q).reductionModular a b q
  let den2 ← (← (← psi a b j).toFrob q).power 2
  let p1 ← ((← num1.mul den2).sub (← num2.mul den1)).modularAssign q
  let p1 ← p1.reductionModular a b q
  let p1 ← p1.polynomialModular fuel psiL q
  let p1 ← p1.modularAssign q
  .ok p1.isZero

/-- The loop over `j`: the first `j` for which the test succeeds; src/schoof.rs:91-114. -/
def schoofFindJ (fuel : Nat) (a b q : Int) (num1 den1 psiL : Poly) : List Int → Res (Option Int)
  | [] => .ok none
  | j :: t => do
    if ← schoofXTest fuel a b q num1 den1 psiL j then .ok (some j)
    else schoofFindJ fuel a b q num1 den1 psiL t

/-- Case (iii), `x` found; src/schoof.rs:115-180. -/
def schoofY (fuel : Nat) (a b q l ql jj : Int) (psiL : Poly) : Res ModResult := do
  let q2 ← chk (q ^ 2)
  let g ← (new.ypow q2).build.toPol.reductionModular a b q
  let omg ← (← omega a b ql).modularAssign q
  let d := omg.sub (← g.mul (← (← psi a b ql).power 3))
  let d ← d.reductionModular a b q
  let e ← ((← phi a b ql).neg.add
    (← Poly.termMul ((new.coef 2).xpow q2).build (← (← psi a b ql).power 2))).modularAssign q
  let e ← e.reductionModular a b q
  let f ← ((← phi a b ql).sub
    (← Poly.termMul (new.xpow q2).build (← (← psi a b ql).power 2))).modularAssign q
  let f ← f.reductionModular a b q
  let num3 := (← d.mul ((← e.mul (← f.power 2)).sub (← d.power 2))).sub
    (← (← g.mul (← (← psi a b ql).power 3)).mul (← f.power 3))
  let num3 ← num3.reductionModular a b q
  let num3 ← num3.mulAssign (← psi a b ql)
  let num3 ← num3.reductionModular a b q
  let den3 ← (← (← (← psi a b ql).power 3).mul (← f.power 3)).mul (← psi a b ql)
  let den3 ← den3.reductionModular a b q
  let num4 ← (← (← omega a b jj).toFrob q).reductionModular a b q
  let den4 ← (← (← psi a b jj).toFrob q).power 3
  let den4 ← den4.reductionModular a b q
  let p7 ← ((← num3.mul den4).sub (← num4.mul den3)).modularAssign q
  let p8 ← p7.reductionModular a b q
  let p9 ← if p8.hasY then p8.divTerm (new.ypow 1).build else .ok p8
  let p9 ← p9.modularAssign q
  let p9 ← p9.polynomialModular fuel psiL q
  let jj := if !p9.isZero then -jj else jj
  let jj := if jj < 0 then jj + l else jj
  .ok { l := l, r := jj }

/-- Cases (d) and (e), `x` not found; src/schoof.rs:181-233.  Line 203 builds the modulus with
`q` in the place of the coefficient `a`, and line 214 uses `a` as an exponent; both are modelled
as written. -/
def schoofDE (fuel : Nat) (a b q l ql : Int) : Res ModResult := do
  match (irange 1 l).find? (fun i => Int.fmod (i ^ 2) l = ql) with
  | none => .ok { l := l, r := 0 }
  | some w => do
    let p12 := (← Poly.termMul (new.xpow q).build (← (← psi a b w).power 2)).sub (← phi a b w)
    let p12 ← p12.modularAssign q
    let p13 ← p12.reductionModular a b q
    let p14 ← (← psi q b l).rem q
    let p15 ← p13.polynomialModular fuel p14 q
    if !p15.isZero then .ok { l := l, r := 0 }
    else do
      if ¬ InI32 a then .panic .unwrapNone
      else do
        let p16 ← ((← Poly.termMul (new.ypow a).build (← (← psi a b w).power 3)).sub
          (← omega a b w)).divTerm (new.ypow 1).build
        let p16 ← p16.modularAssign q
        let p17 ← p16.reductionModular a b q
        let one ← p17.isGcdOne fuel (← psi a b l) q
        let ww := if one then -2 * w else 2 * w
        let ww := if ww < 0 then ww + l else ww
        .ok { l := l, r := ww }

/-- One iteration of the loop over `l`; src/schoof.rs:42-234. -/
def schoofL (fuel : Nat) (a b q l : Int) : Res ModResult := do
  let ql := Int.fmod q l
  let jmax := (l - 1).tdiv 2
  let (num1, den1) ← schoofNumDen1 a b q ql
  let psiL ← (← psi a b l).rem q
  match ← schoofFindJ fuel a b q num1 den1 psiL (irange 1 (jmax + 1)) with
  | some jj => schoofY fuel a b q l ql jj psiL
  | none => schoofDE fuel a b q l ql

/-- The loop over `l ∈ {3, 5}` with its `if l >= q break`; src/schoof.rs:42-47. -/
def schoofLoop (fuel : Nat) (a b q : Int) : List Int → List ModResult → Res (List ModResult)
  | [], acc => .ok acc
  | l :: t, acc =>
    if l ≥ q then .ok acc
    else do
      let r ← schoofL fuel a b q l
      schoofLoop fuel a b q t (acc ++ [r])

/-- `schoof(a, b, q)`; src/schoof.rs:17-236. -/
def schoof (fuel : Nat) (a b q : Int) : Res (List ModResult) := do
  let r2 ← schoof2 fuel a b q
  schoofLoop fuel a b q [3, 5] [r2]

/-- `SEAResult`; src/schoof_elkies_atkins.rs:13-18. -/
structure SEAResult where
  gcd : Poly
  degreeOfGcd : Int
  isElkiesPrime : Bool
  isogenyJInvariants : List Int

/-- The search loop for the roots; src/schoof_elkies_atkins.rs:37-48. -/
def seaRoots (p : Int) (g : Poly) (degree : Int) : List Int → List Int → Res (List Int)
  | [], acc => .ok acc
  | j :: t, acc => do
    let tmp ← (g.evalX j).modularAssign p
    if tmp.isZero then
      let acc := acc ++ [j]
      if degree = acc.length ∨ acc.length = 2 then .ok acc else seaRoots p g degree t acc
    else seaRoots p g degree t acc

/-- `sea(ec, l)` after the modular polynomial has been computed;
src/schoof_elkies_atkins.rs:24-55. -/
def seaWith (fuel : Nat) (ec : EllipticCurve) (mpol : Poly) : Res SEAResult := do
  let mpol ← mpol.modularAssign ec.p
  let mpol := mpol.evalY (← ec.jInvariant)
  let mpol ← mpol.modularAssign ec.p
  if ¬ InI32 ec.p then .panic .unwrapNone
  else do
    let pol := (new.xpow ec.p).build.sub (new.xpow 1).build
    let g ← pol.gcd fuel mpol ec.p
    let degree ← g.degreeX
    let isElkies := decide (degree > 0)
    let roots ← if isElkies then seaRoots ec.p g degree (irange 0 ec.p) [] else .ok []
    .ok { gcd := g, degreeOfGcd := degree, isElkiesPrime := isElkies, isogenyJInvariants := roots }

/-- `sea(ec, l)`; src/schoof_elkies_atkins.rs:20-56. -/
def sea (fuel : Nat) (ec : EllipticCurve) (l : Int) : Res SEAResult := do
  let mpol ← modularPolynomial l
  seaWith fuel ec mpol

end EC
