import Verif.Props.ModularTerms
import Verif.Props.Schoof

/-! The repository's own unit tests, run on the model by the kernel.

This file proves no property: each `example` is one assertion of a `#[test]` function of `/repo/src`, with the model's
functions in place of the library's.  It is evidence that the model was read off the source faithfully (the trusted step of
DESIGN.md).  `Shows r ["ab", "cd"]` says that `r` returns the text `abcd`; long texts are cut into pieces only because the
kernel reads short string literals faster.

Left out: `lcm_test` (about the external operator only), tests without assertions (`elliptic_curve_test4`, `_test5`,
`isogeny_test3`), the commented-out `elliptic_curve_test1`, `secp256k1_test2` (a random search), and what is too large for
the kernel: `sea_test2`, `isogeny_test2`, omega at 4 and 5, the generic modular polynomials after substitution of q-series.
`modular_polynomial` at 2, 3 and 5 is C99_example_program in Props/ModularTerms.lean.  The last two examples are about the
two tests of `schoof`, which the library itself cannot pass: x^3+2x+1 has no root modulo 7 or 19, so `schoof` does not
return there (C17, C53). -/

namespace EC

/-- `r` returns the text made of the pieces `ss` (the macro `assert_eq_str!`; src/assert_eq_str.rs:2-11). -/
def Shows (r : Res (List Char)) (ss : List String) : Bool :=
  match r with
  | .ok t => decide (t = ss.flatMap String.toList)
  | _ => false

/-- The text of an integer result. -/
def Res.str (r : Res Int) : Res (List Char) := do .ok (intStr (← r))

/-- The text of a polynomial result. -/
def Res.pol (r : Res Poly) : Res (List Char) := do .ok (← r).display

/-- A point with coordinates `x`, `y`. -/
private def pt (x y : Int) : ECPoint := { x := x, y := y, z := 1 }

open TermBuilder (new)

/-! ### src/bigint.rs -/

example : Shows (Res.str (.ok (power 2 3))) ["8"] = true := by decide +kernel
example : Shows (Res.str (powerModulo 3 2 5)) ["4"] = true := by decide +kernel
example : Shows (Res.str (powerModulo 3 3 5)) ["2"] = true := by decide +kernel
example : Shows (Res.str (powerModulo 3 4 5)) ["1"] = true := by decide +kernel
example : Shows (Res.str (inverse 1 19)) ["1"] = true := by decide +kernel
example : Shows (Res.str (inverse 2 19)) ["10"] = true := by decide +kernel
example : Shows (Res.str (inverse 3 19)) ["13"] = true := by decide +kernel
example : Shows (Res.str (inverse 4 19)) ["5"] = true := by decide +kernel
example : Int.tdiv 7 2 = 3 := by decide +kernel
example : Int.tdiv 7 (-2) = (-3) := by decide +kernel
example : Int.tdiv (-7) 2 = (-3) := by decide +kernel
example : Int.tdiv (-7) (-2) = 3 := by decide +kernel
example : Int.tmod 7 3 = 1 := by decide +kernel
example : Int.tmod 7 (-3) = 1 := by decide +kernel
example : Int.tmod (-7) 3 = (-1) := by decide +kernel
example : Int.tmod (-7) (-3) = (-1) := by decide +kernel
example : divFloor 7 2 = .ok 3 := by decide +kernel
example : divFloor 7 (-2) = .ok (-4) := by decide +kernel
example : divFloor (-7) 2 = .ok (-4) := by decide +kernel
example : divFloor (-7) (-2) = .ok 3 := by decide +kernel
example : modFloor 7 3 = .ok 1 := by decide +kernel
example : modFloor 7 (-3) = .ok (-2) := by decide +kernel
example : modFloor (-7) 3 = .ok 2 := by decide +kernel
example : modFloor (-7) (-3) = .ok (-1) := by decide +kernel
example : extendedGcd 8 11 = (1, -4, 3) := by decide +kernel
example : extendedGcd 11 8 = (1, 3, -4) := by decide +kernel
example : chineseRemainder [{ l := 3, r := 2 }, { l := 5, r := 3 }, { l := 7, r := 2 }] = { l := 3 * 5 * 7, r := 23 - 3 * 5 * 7 } := by decide +kernel

/-! ### src/divisor.rs -/

example : Shows ((sigmaDivisor 1 0).str) ["1"] = true := by decide +kernel
example : Shows ((sigmaDivisor 2 0).str) ["2"] = true := by decide +kernel
example : Shows ((sigmaDivisor 3 0).str) ["2"] = true := by decide +kernel
example : Shows ((sigmaDivisor 4 0).str) ["3"] = true := by decide +kernel
example : Shows ((sigmaDivisor 5 0).str) ["2"] = true := by decide +kernel
example : Shows ((sigmaDivisor 6 0).str) ["4"] = true := by decide +kernel
example : Shows ((sigmaDivisor 7 0).str) ["2"] = true := by decide +kernel
example : Shows ((sigmaDivisor 8 0).str) ["4"] = true := by decide +kernel
example : Shows ((sigmaDivisor 9 0).str) ["3"] = true := by decide +kernel
example : Shows ((sigmaDivisor 10 0).str) ["4"] = true := by decide +kernel
example : Shows ((sigmaDivisor 11 0).str) ["2"] = true := by decide +kernel
example : Shows ((sigmaDivisor 12 0).str) ["6"] = true := by decide +kernel
example : Shows ((sigmaDivisor 13 0).str) ["2"] = true := by decide +kernel
example : Shows ((sigmaDivisor 1 1).str) ["1"] = true := by decide +kernel
example : Shows ((sigmaDivisor 2 1).str) ["3"] = true := by decide +kernel
example : Shows ((sigmaDivisor 3 1).str) ["4"] = true := by decide +kernel
example : Shows ((sigmaDivisor 4 1).str) ["7"] = true := by decide +kernel
example : Shows ((sigmaDivisor 5 1).str) ["6"] = true := by decide +kernel
example : Shows ((sigmaDivisor 6 1).str) ["12"] = true := by decide +kernel
example : Shows ((sigmaDivisor 7 1).str) ["8"] = true := by decide +kernel
example : Shows ((sigmaDivisor 8 1).str) ["15"] = true := by decide +kernel
example : Shows ((sigmaDivisor 9 1).str) ["13"] = true := by decide +kernel
example : Shows ((sigmaDivisor 10 1).str) ["18"] = true := by decide +kernel
example : Shows ((sigmaDivisor 11 1).str) ["12"] = true := by decide +kernel
example : Shows ((sigmaDivisor 12 1).str) ["28"] = true := by decide +kernel
example : Shows ((sigmaDivisor 13 1).str) ["14"] = true := by decide +kernel
example : Shows ((sigmaDivisor 1 3).str) ["1"] = true := by decide +kernel
example : Shows ((sigmaDivisor 2 3).str) ["9"] = true := by decide +kernel
example : Shows ((sigmaDivisor 3 3).str) ["28"] = true := by decide +kernel
example : Shows ((sigmaDivisor 4 3).str) ["73"] = true := by decide +kernel
example : Shows ((sigmaDivisor 5 3).str) ["126"] = true := by decide +kernel
example : Shows ((sigmaDivisor 6 3).str) ["252"] = true := by decide +kernel
example : Shows ((sigmaDivisor 7 3).str) ["344"] = true := by decide +kernel
example : Shows ((sigmaDivisor 8 3).str) ["585"] = true := by decide +kernel
example : Shows ((sigmaDivisor 9 3).str) ["757"] = true := by decide +kernel
example : Shows ((sigmaDivisor 10 3).str) ["1134"] = true := by decide +kernel
example : Shows ((sigmaDivisor 11 3).str) ["1332"] = true := by decide +kernel
example : Shows ((sigmaDivisor 12 3).str) ["2044"] = true := by decide +kernel
example : Shows ((sigmaDivisor 13 3).str) ["2198"] = true := by decide +kernel

/-! ### src/eisenstein.rs, src/delta.rs, src/j_invariant.rs -/

example : Shows ((eisenstein4 3).pol) ["6720 q^3 + 2160 q^2 + 240 q + 1"] = true := by decide +kernel
example : Shows ((eisenstein4 4).pol) ["17520 q^4 + 6720 q^3 + 2160 q^2 + 240 q ", "+ 1"] = true := by decide +kernel
example : Shows ((eisenstein4 5).pol) ["30240 q^5 + 17520 q^4 + 6720 q^3 + 2160 ", "q^2 + 240 q + 1"] = true := by decide +kernel
example : Shows ((eisenstein4 6).pol) ["60480 q^6 + 30240 q^5 + 17520 q^4 + ", "6720 q^3 + 2160 q^2 + 240 q + 1"] = true := by decide +kernel
example : Shows (Res.pol (do (← eisenstein4 2).power 3)) ["10077696000 q^6 + 3359232000 q^5 + ", "387244800 q^4 + 16934400 q^3 + 179280 ", "q^2 + 720 q + 1"] = true := by decide +kernel
example : Shows (Res.pol (do (← eisenstein4 3).power 3)) ["303464448000 q^9 + 292626432000 q^8 + ", "126572544000 q^7 + 31115059200 q^6 + ",
      "4607539200 q^5 + 396921600 q^4 + ", "16954560 q^3 + 179280 q^2 + 720 q + 1"] = true := by decide +kernel
example : Shows (Res.pol (do (← eisenstein4 4).power 3)) ["5377771008000 q^12 + 6188120064000 q^11 ", "+ 4362564096000 q^10 + 2050306560000 ",
      "q^9 + 708308755200 q^8 + 181773158400 ", "q^7 + 34369574400 q^6 + 4632768000 q^5 ",
      "+ 396974160 q^4 + 16954560 q^3 + 179280 ", "q^2 + 720 q + 1"] = true := by decide +kernel
example : Shows ((delta1 1).pol) ["- 24 q + 1"] = true := by decide +kernel
example : Shows ((delta1 2).pol) ["252 q^2 - 24 q + 1"] = true := by decide +kernel
example : Shows ((delta1 3).pol) ["- 1472 q^3 + 252 q^2 - 24 q + 1"] = true := by decide +kernel
example : Shows ((delta1Inverse 1).pol) ["24 q + 1"] = true := by decide +kernel
example : Shows ((delta1Inverse 2).pol) ["324 q^2 + 24 q + 1"] = true := by decide +kernel
example : Shows ((delta1Inverse 3).pol) ["3200 q^3 + 324 q^2 + 24 q + 1"] = true := by decide +kernel
example : Shows ((jInvariant1 2).pol) ["196884 q^2 + 744 q + 1"] = true := by decide +kernel
example : Shows ((jInvariant1 3).pol) ["21493760 q^3 + 196884 q^2 + 744 q + 1"] = true := by decide +kernel
example : Shows ((jInvariant1 4).pol) ["864299970 q^4 + 21493760 q^3 + 196884 ", "q^2 + 744 q + 1"] = true := by decide +kernel
example : Shows ((jInvariant1 5).pol) ["20245856256 q^5 + 864299970 q^4 + ", "21493760 q^3 + 196884 q^2 + 744 q + 1"] = true := by decide +kernel
example : Shows ((jInvariant1 6).pol) ["333202640600 q^6 + 20245856256 q^5 + ", "864299970 q^4 + 21493760 q^3 + 196884 ", "q^2 + 744 q + 1"] = true := by decide +kernel
example : Shows ((jInvariantQ 2).pol) ["21493760 q^2 + 196884 q + 744 + q^-1"] = true := by decide +kernel
example : Shows ((jInvariantQ 3).pol) ["864299970 q^3 + 21493760 q^2 + 196884 q ", "+ 744 + q^-1"] = true := by decide +kernel
example : Shows ((jInvariantQ 4).pol) ["20245856256 q^4 + 864299970 q^3 + ", "21493760 q^2 + 196884 q + 744 + q^-1"] = true := by decide +kernel
example : Shows ((jInvariantQ 5).pol) ["333202640600 q^5 + 20245856256 q^4 + ", "864299970 q^3 + 21493760 q^2 + 196884 q ", "+ 744 + q^-1"] = true := by decide +kernel
example : Shows ((jInvariantQ 6).pol) ["4252023300096 q^6 + 333202640600 q^5 + ", "20245856256 q^4 + 864299970 q^3 + ",
      "21493760 q^2 + 196884 q + 744 + q^-1"] = true := by decide +kernel

/-! ### src/polynomial.rs -/

example : Shows (Res.pol (.ok Poly.one)) ["1"] = true := by decide +kernel

private def u1 : Term := ((new.xpow 4).ypow 2).build
private def u2 : Term := (((new.coef 3).xpow 2).ypow 4).build
private def p1 : Poly := u1.add u2
private def p4 : Poly := u1.toPol.add u2.toPol
example : Shows (.ok u1.display) ["x^4 y^2"] = true := by decide +kernel
example : Shows (.ok u2.display) ["3 x^2 y^4"] = true := by decide +kernel
example : Shows (.ok p1.display) ["x^4 y^2 + 3 x^2 y^4"] = true := by decide +kernel
example : Shows (.ok p4.display) ["x^4 y^2 + 3 x^2 y^4"] = true := by decide +kernel
example : Shows (do .ok (← u1.mul u1).display) ["x^8 y^4"] = true := by decide +kernel
example : Shows (Res.pol (p1.mul p4)) ["x^8 y^4 + 6 x^6 y^6 + 9 x^4 y^8"] = true := by decide +kernel
example : Shows (.ok p1.neg.display) ["- x^4 y^2 - 3 x^2 y^4"] = true := by decide +kernel
example : Shows (.ok (p1.sub u1.toPol).display) ["3 x^2 y^4"] = true := by decide +kernel
example : Shows (Res.pol (do let p5 ← p1.mul p4; .ok (p5.sub p5))) ["0"] = true := by decide +kernel
example : Shows (do .ok (← u2.power 3).display) ["27 x^6 y^12"] = true := by decide +kernel

private def u33 : Term := (((new.coef 37).xpow 2).ypow 4).build
private def p36 : Poly := u33.add (((new.coef 35).xpow 3).ypow 5).build
example : Shows (do .ok (← u33.modulo 24).display) ["13 x^2 y^4"] = true := by decide +kernel
example : Shows (Res.pol (p36.rem 6)) ["5 x^3 y^5 + x^2 y^4"] = true := by decide +kernel
example : Shows (Res.pol (p36.rem 5)) ["2 x^2 y^4"] = true := by decide +kernel
example : Shows (Res.pol (do (← p36.rem 5).power 2)) ["4 x^4 y^8"] = true := by decide +kernel
example : Shows (Res.pol (do (← p36.rem 5).power 3)) ["8 x^6 y^12"] = true := by decide +kernel
example : Shows (Res.pol (do (← p36.rem 6).power 2)) ["25 x^6 y^10 + 10 x^5 y^9 + x^4 y^8"] = true := by decide +kernel
example : Shows (Res.pol (((new.xpow 1).ypow 3).build.toPol.reduction 2 7)) ["x^4 y + 2 x^2 y + 7 x y"] = true := by
  decide +kernel
example : Shows (.ok ((new.coef 2).xpow 3).build.toPol.highestTermX.display) ["2 x^3"] = true := by decide +kernel

private def p47 : Poly := ((new.coef 3).xpow 4).build.add ((new.coef 2).xpow 1).build
private def p48 : Poly := ((new.coef 2).xpow 2).build.add (new.coef 3).build
example : Shows (.ok p47.display) ["3 x^4 + 2 x"] = true := by decide +kernel
example : Shows (.ok p48.display) ["2 x^2 + 3"] = true := by decide +kernel
example : Shows (Res.pol (p47.polynomialModular 10 p48 19)) ["2 x + 2"] = true := by decide +kernel
example : Shows (Res.pol (p47.mulAssign p48)) ["6 x^6 + 9 x^4 + 4 x^3 + 6 x"] = true := by decide +kernel
example : Shows (.ok ((((new.coef 6).xpow 6).build.add ((new.coef 12).xpow 4).build).subAssign
    ((new.coef 2).xpow 6).build.toPol).display) ["4 x^6 + 12 x^4"] = true := by decide +kernel
example : Shows (Res.pol ((((new.coef 6).xpow 6).build.add ((new.coef 12).xpow 4).build).divAssign
    ((new.coef 3).xpow 2).build.toPol)) ["2 x^4 + 4 x^2"] = true := by decide +kernel
example : Shows (.ok (new.xpow (-4)).build.toPol.display) ["x^-4"] = true := by decide +kernel
example : Shows (.ok (((new.coef 3).xpow (-4)).build.toPol.add ((new.coef 4).xpow (-1)).build.toPol).display)
    ["4 x^-1 + 3 x^-4"] = true := by decide +kernel

private def qpol1 : Poly := ((new.coef 2).qpow (-1)).build.toPol.add ((new.coef 3).qpow 2).build.toPol
private def qpol2 : Poly := ((new.coef (-3)).qpow (-1)).build.toPol.add ((new.coef 2).qpow 2).build.toPol
private def m12 : Monomial := { xpow := 2, ypow := 3, qpow := 4, var := { i := 1, j := 2, empty := false } }
example : Shows (.ok qpol1.display) ["3 q^2 + 2 q^-1"] = true := by decide +kernel
example : Shows (Res.pol (m12.evalXPolynomial qpol1)) ["9 y^3 q^8 c_1_2 + 12 y^3 q^5 c_1_2 ", "+ 4 y^3 q^2 c_1_2"] = true := by
  decide +kernel
example : Shows (.ok qpol2.display) ["2 q^2 - 3 q^-1"] = true := by decide +kernel
example : Shows (Res.pol (m12.evalYPolynomial qpol2)) ["8 x^2 q^10 c_1_2 - 36 x^2 q^7 c_1_2 ",
    "+ 54 x^2 q^4 c_1_2 - 27 x^2 q c_1_2"] = true := by decide +kernel
private def pol2 : Poly :=
  (((((new.coef 2).xpow 2).ypow 3).qpow 4).var { i := 1, j := 2, empty := false }).build.add
    (((((new.coef 3).xpow 1).ypow 1).qpow 4).var { i := 0, j := 0, empty := false }).build
example : Shows (Res.pol (pol2.evalYPolynomial qpol2)) ["16 x^2 q^10 c_1_2 - 72 x^2 q^7 c_1_2 ",
    "+ 108 x^2 q^4 c_1_2 - 54 x^2 q c_1_2 ", "+ 6 x q^6 c_0_0 - 9 x q^3 c_0_0"] = true := by decide +kernel
example : Shows (Res.pol ((new.qpow (-1)).build.toPol.power 0)) ["1"] = true := by decide +kernel
private def pol3 : Poly := (new.xpow 3).build.add (new.ypow 3).build
example : Shows (.ok pol3.display) ["x^3 + y^3"] = true := by decide +kernel
example : Shows (Res.pol (pol3.evalXPolynomial (new.qpow (-1)).build.toPol)) ["y^3 + q^-3"] = true := by decide +kernel
private def pol4 : Poly :=
  (pol3.addTerm (((new.coef (-1)).xpow 2).ypow 2).build).addTerm (((new.coef (-1)).xpow 1).ypow 1).build
example : Shows (.ok pol4.display) ["x^3 - x^2 y^2 - x y + y^3"] = true := by decide +kernel
example : Shows (Res.pol (pol4.evalXPolynomial (new.qpow (-1)).build.toPol)) ["y^3 - y^2 q^-2 - y q^-1 + q^-3"] = true := by
  decide +kernel
example : Shows (Res.pol (do
    let p1 ← pol4.evalXPolynomial (new.qpow (-1)).build.toPol
    p1.evalYPolynomial (new.qpow (-2)).build.toPol)) ["0"] = true := by decide +kernel
example : Shows (Res.pol ((new.build.add (new.qpow 1).build).powerOmitHighOrderQ 24 1)) ["24 q + 1"] = true := by
  decide +kernel

/-- `isogeny_test` of src/polynomial.rs: the map of a 2-isogeny satisfies the equation of the image curve. -/
example : Shows (Res.pol (do
    let p := ((new.xpow 2).build.add ((new.coef 301).xpow 1).build).addTerm (new.coef 527).build
    let q := (new.xpow 1).build.add (new.coef 301).build
    let r := ((new.xpow 2).build.add ((new.coef 602).xpow 1).build).addTerm (new.coef 1942).build
    let s := ((new.xpow 2).build.add ((new.coef 602).xpow 1).build).addTerm (new.coef 466).build
    let t1 ← (← Poly.termMul (new.ypow 2).build (← r.power 2)).mul (← q.power 3)
    let t2 ← (← p.power 3).mul (← s.power 2)
    let t3 ← (← (← Poly.termMul (new.coef 500).build p).mul (← s.power 2)).mul (← q.power 2)
    let t4 ← (← Poly.termMul (new.coef 1005).build (← s.power 2)).mul (← q.power 3)
    (((t1.sub t2).sub t3).sub t4).reductionModular 1132 278 2003)) ["0"] = true := by decide +kernel

private def pd : Poly := ((((new.coef 4).xpow 6).ypow 3).qpow 3).build.add (((new.coef 2).xpow 5).ypow 2).build
example : Shows (.ok pd.display) ["4 x^6 y^3 q^3 + 2 x^5 y^2"] = true := by decide +kernel
example : Shows (Res.pol pd.derivativeX) ["24 x^5 y^3 q^3 + 10 x^4 y^2"] = true := by decide +kernel
example : Shows (Res.pol pd.derivativeY) ["12 x^6 y^2 q^3 + 4 x^5 y"] = true := by decide +kernel

/-! ### src/term.rs, src/subscripted_variable.rs -/

example : Shows (.ok Term.new.display) ["0"] = true := by decide +kernel
example : Shows (.ok ({ Term.new with coef := 3 } : Term).display) ["3"] = true := by decide +kernel
example : Shows (do .ok (← Term.mul { Term.new with coef := 4 } { Term.new with coef := 3 }).display) ["12"] = true := by
  decide +kernel
example : Shows (do .ok (← ((new.coef 20).xpow 1).build.modulo 19).display) ["x"] = true := by decide +kernel
example : Shows (.ok (((new.coef 1).xpow 4).ypow 2).build.neg.display) ["- x^4 y^2"] = true := by decide +kernel

example : Shows (Res.pol (do .ok (← new.variableIJ 2 3).build.toPol)) ["c_2_3"] = true := by decide +kernel
example : Shows (Res.pol (do .ok (← (new.coef 45).variableIJ 7 8).build.toPol)) ["45 c_7_8"] = true := by decide +kernel
example : Shows (Res.pol (do .ok ((← (new.coef 671).variableIJ 19 21).xpow 5).build.toPol)) ["671 x^5 c_19_21"] = true := by
  decide +kernel
example : Shows (Res.pol (do
    let t1 := (← new.variableIJ 2 3).build.toPol
    let t2 := (← (new.coef 45).variableIJ 7 8).build.toPol
    let t3 := ((← (new.coef 671).variableIJ 19 21).xpow 5).build.toPol
    .ok ((t1.add t2).add t3))) ["671 x^5 c_19_21 + 45 c_7_8 + c_2_3"] = true := by decide +kernel
example : (do (← Converter.new 3).count) = .ok 10 := by decide +kernel
example : Shows (do .ok (← (← Converter.new 3).variableFromIndex 0).display) ["c_0_1"] = true := by decide +kernel
example : Shows (do .ok (← (← Converter.new 3).variableFromIndex 1).display) ["c_0_2"] = true := by decide +kernel
example : Shows (do .ok (← (← Converter.new 3).variableFromIndex 2).display) ["c_0_3"] = true := by decide +kernel
example : Shows (do .ok (← (← Converter.new 3).variableFromIndex 3).display) ["c_1_2"] = true := by decide +kernel
example : Shows (do .ok (← (← Converter.new 3).variableFromIndex 4).display) ["c_1_3"] = true := by decide +kernel
example : Shows (do .ok (← (← Converter.new 3).variableFromIndex 5).display) ["c_2_3"] = true := by decide +kernel
example : Shows (do .ok (← (← Converter.new 3).variableFromIndex 6).display) ["c_0_0"] = true := by decide +kernel
example : Shows (do .ok (← (← Converter.new 3).variableFromIndex 7).display) ["c_1_1"] = true := by decide +kernel
example : Shows (do .ok (← (← Converter.new 3).variableFromIndex 8).display) ["c_2_2"] = true := by decide +kernel
example : Shows (do .ok (← (← Converter.new 3).variableFromIndex 9).display) ["c_3_3"] = true := by decide +kernel
example : (do (← Converter.new 3).indexFromVariable { i := 2, j := 3, empty := false }) = .ok (some 5) := by decide +kernel

/-! ### src/division_polynomial.rs -/

example : Shows ((psi 1 1 0).pol) ["0"] = true := by decide +kernel
example : Shows ((psi 1 1 1).pol) ["1"] = true := by decide +kernel
example : Shows ((psi 1 1 2).pol) ["2 y"] = true := by decide +kernel
example : Shows ((psi 1 1 3).pol) ["3 x^4 + 6 x^2 + 12 x - 1"] = true := by decide +kernel
example : Shows ((psi 1 1 4).pol) ["4 x^6 y + 20 x^4 y + 80 x^3 y - 20 x^2 ", "y - 16 x y - 36 y"] = true := by decide +kernel
example : Shows ((psi 1 1 5).pol) ["5 x^12 + 62 x^10 + 380 x^9 - 105 x^8 + ", "240 x^7 - 540 x^6 - 696 x^5 - 2045 x^4 ",
      "- 1680 x^3 - 290 x^2 - 740 x - 287"] = true := by decide +kernel
example : Shows ((phi 1 1 1).pol) ["x"] = true := by decide +kernel
example : Shows ((phi 1 1 2).pol) ["x^4 - 2 x^2 - 8 x + 1"] = true := by decide +kernel
example : Shows ((phi 1 1 3).pol) ["x^9 - 12 x^7 - 96 x^6 + 30 x^5 - 24 x^4 ", "+ 84 x^3 + 48 x^2 + 105 x + 72"] = true := by decide +kernel
example : Shows ((omega 1 1 1).pol) ["y"] = true := by decide +kernel
example : Shows ((omega 1 1 2).pol) ["x^6 + 5 x^4 + 20 x^3 - 5 x^2 - 4 x - 9"] = true := by decide +kernel
example : Shows ((omega 1 1 3).pol) ["x^12 y + 22 x^10 y + 220 x^9 y - 165 ", "x^8 y - 528 x^7 y - 1868 x^6 y + 264 ",
      "x^5 y - 1145 x^4 y - 400 x^3 y - 714 ", "x^2 y - 1028 x y - 611 y"] = true := by decide +kernel

/-! ### src/elliptic_curve.rs -/

example : Shows (do (← EllipticCurve.new 1 1 5).display) ["F_5: y^2 = x^3 + x + 1, ", "cardinality:9, j:2"] = true := by
  decide +kernel
example : (do .ok ((← EllipticCurve.new 1 1 5).points.map ECPoint.display)) = (.ok (["(0, 1)", "(0, 4)", "(2, 1)", "(2, 4)",
    "(3, 1)", "(3, 4)", "(4, 2)", "(4, 3)", "O"].map String.toList) : Res _) := by decide +kernel
example : (do
    let ec ← EllipticCurve.new 1 1 5
    ec.points.mapM (ec.pointOrder 10)) = .ok [9, 9, 3, 3, 9, 9, 9, 9, 1] := by decide +kernel
example : Shows (do .ok (displayPoints (← (← EllipticCurve.new 1 1 19).divisionPoints 2))) ["O"] = true := by decide +kernel
example : Shows (do .ok (displayPoints (← (← EllipticCurve.new 1 1 19).divisionPoints 3))) ["(2, 7), (2, 12), O"] = true := by
  decide +kernel
example : Shows (do .ok (displayPoints (← (← EllipticCurve.new 1 1 19).divisionPoints 7)))
    ["(10, 2), (10, 17), (14, 2), (14, 17), ", "(15, 3), (15, 16), O"] = true := by decide +kernel

/-! ### src/modular_polynomial.rs -/

example : Shows ((subscriptedVariableModularPolynomial 2).pol) ["x^3 + x^2 y^2 c_2_2 + x^2 y c_1_2 + x^2 ", "c_0_2 + x y^2 c_1_2 + x y c_1_1 + x ",
      "c_0_1 + y^3 + y^2 c_0_2 + y c_0_1 + ", "c_0_0"] = true := by decide +kernel
example : Shows ((subscriptedVariableModularPolynomial 3).pol) ["x^4 + x^3 y^3 c_3_3 + x^3 y^2 c_2_3 + ", "x^3 y c_1_3 + x^3 c_0_3 + x^2 y^3 c_2_3 ",
      "+ x^2 y^2 c_2_2 + x^2 y c_1_2 + x^2 ", "c_0_2 + x y^3 c_1_3 + x y^2 c_1_2 + x y ",
      "c_1_1 + x c_0_1 + y^4 + y^3 c_0_3 + y^2 ", "c_0_2 + y c_0_1 + c_0_0"] = true := by decide +kernel

/-! ### src/schoof_elkies_atkins.rs, src/secp256k1.rs, src/schoof.rs -/

/-- `sea_test1`, with the literal `lit3`, which is `==` to `modular_polynomial(3)` (`modular3`), in place of the call. -/
example : (do
    let ec ← EllipticCurve.new 1 7 23
    let r ← seaWith 50 ec lit3
    .ok (r.gcd.display, r.degreeOfGcd, r.isElkiesPrime, r.isogenyJInvariants)) =
      (.ok ("x^2 + 4 x + 3".toList, 2, true, [20, 22]) : Res _) := by decide +kernel

example : Secp256k1.new.ec.isOnCurve Secp256k1.new.g = .ok true := by decide +kernel
example : Secp256k1.new.ec.multiplyScalar Secp256k1.new.g 1 = .ok (pt
    55066263022277343669578718895168534326250603453777594175500187360389116729240
    32670510020758816978083085130507043184471273380659243275938904335757337482424) := by decide +kernel
example : Secp256k1.new.ec.multiplyScalar Secp256k1.new.g 2 = .ok (pt
    89565891926547004231252920425935692360644145829622209833684329913297188986597
    12158399299693830322967808612713398636155367887041628176798871954788371653930) := by decide +kernel
example : Secp256k1.new.ec.multiplyScalar Secp256k1.new.g 3 = .ok (pt
    112711660439710606056748659173929673102114977341539408544630613555209775888121
    25583027980570883691656905877401976406448868254816295069919888960541586679410) := by decide +kernel

/-- The `#[ignore]`d `schoof_test7` expects `[(2, 1), (3, 0), (5, 3)]`; the call does not return. -/
example : Diverges (fun fuel => schoof fuel 2 1 7) :=
  C53_odd_trace_diverges 2 1 7 (by show Nat.Prime 7; norm_num) (by norm_num)
    (by
      have : ∀ x : ZMod 7, x ^ 3 + ((2 : ℤ) : ZMod 7) * x + ((1 : ℤ) : ZMod 7) ≠ 0 := by decide +kernel
      exact this)

/-- The `#[ignore]`d `schoof_test19` expects `[(2, 1), (3, 2), (5, 3)]`; the call does not return. -/
example : Diverges (fun fuel => schoof fuel 2 1 19) :=
  C53_odd_trace_diverges 2 1 19 (by show Nat.Prime 19; norm_num) (by norm_num)
    (by
      have : ∀ x : ZMod 19, x ^ 3 + ((2 : ℤ) : ZMod 19) * x + ((1 : ℤ) : ZMod 19) ≠ 0 := by decide +kernel
      exact this)


end EC
