import Verif.Model.BigInt
import Verif.Model.DivisionPolynomial

/-! `extended_gcd`, `psi` and `gcd` with a limit on the depth of their recursion, for statements about how deeply they
nest. -/

namespace EC

open TermBuilder (new)

/-- `extended_gcd` with a limit on the depth of the recursion: `none` if more than `d` nested calls are needed;
src/bigint.rs:103-111. -/
def extendedGcdDepth : Nat → Int → Int → Option (Int × Int × Int)
  | 0, _, _ => none
  | d + 1, a, b =>
    if a = 0 then some (b, 0, 1)
    else
      (extendedGcdDepth d (b.tmod a) a).map fun t => (t.1, t.2.2 - b.tdiv a * t.2.1, t.2.1)

/-- `psi` with a limit on the depth of the recursion: `timeout` if more than `d` nested calls are needed;
src/division_polynomial.rs:13-55. -/
def psiDepth (a b : Int) : Nat → Int → Res Poly
  | 0, _ => .timeout
  | d + 1, n => do
    rassert (decide (n ≥ 0))
    if n = 0 then .ok Poly.new
    else if n = 1 then .ok new.build.toPol
    else if n = 2 then .ok ((new.coef 2).ypow 1).build.toPol
    else if n = 3 then
      .ok (((((new.coef 3).xpow 4).build.add ((new.coef (6 * a)).xpow 2).build).addTerm
        ((new.coef (12 * b)).xpow 1).build).addTerm (new.coef (-(power a 2))).build)
    else if n = 4 then
      Poly.termMul ((new.coef 4).ypow 1).build
        ((((((new.xpow 6).build.add ((new.coef (5 * a)).xpow 4).build).addTerm
          ((new.coef (20 * b)).xpow 3).build).addTerm
          ((new.coef (-5 * power a 2)).xpow 2).build).addTerm
          ((new.coef (-4 * a * b)).xpow 1).build).addTerm
          (new.coef (-8 * power b 2 - power a 3)).build)
    else if n < 0 then .panic .assertion -- unreachable: excluded by the first assertion
    else if Int.fmod n 2 = 1 then do
      let m := Int.fdiv (n - 1) 2
      rassert (decide (m < n))
      let e ← psiDepth a b d (m + 2)
      let f ← (← psiDepth a b d m).power 3
      let g ← psiDepth a b d (m - 1)
      let h ← (← psiDepth a b d (m + 1)).power 3
      ((← e.mul f).sub (← g.mul h)).reduction a b
    else do
      let m := Int.fdiv n 2
      rassert (decide (m < n))
      let e ← psiDepth a b d (m + 2)
      let f ← (← psiDepth a b d (m - 1)).power 2
      let g ← psiDepth a b d (m - 2)
      let h ← (← psiDepth a b d (m + 1)).power 2
      let i ← (← psiDepth a b d m).mul ((← e.mul f).sub (← g.mul h))
      let j ← i.divTerm ((new.coef 2).ypow 1).build
      j.reduction a b

/-- `gcd(other, p)` with a limit on the depth of the recursion, apart from the bound `fuel` on the turns of each loop of
`polynomial_modular`: `none` if more than `d` nested calls are needed, `some .timeout` if a loop needs more turns;
src/polynomial.rs:444-455. -/
def Poly.gcdDepth (fuel : Nat) : Nat → Poly → Poly → Int → Option (Res Poly)
  | 0, _, _, _ => none
  | d + 1, self, other, p =>
    let s := self.highestTermX
    let o := other.highestTermX
    if s.xpow < o.xpow then gcdDepth fuel d other self p
    else match polynomialModular fuel self other p with
      | .ok r => if r.isZero then some (other.toMonic p) else gcdDepth fuel d other r p
      | .panic w => some (.panic w)
      | .timeout => some .timeout

end EC
