import Verif.Model.Polynomial

/-! Model of `/repo/src/division_polynomial.rs`. -/

namespace EC

open TermBuilder (new)

/-- `psi(a, b, n)`; src/division_polynomial.rs:13-55. -/
def psi (a b n : Int) : Res Poly := do
  rassert (decide (n ≥ 0))
  if n = 0 then .ok Poly.new
  else if n = 1 then .ok new.build.toPol
  else if n = 2 then .ok ((new.coef 2).ypow 1).build.toPol
  else if n = 3 then
    .ok (((((new.coef 3).xpow 4).build.add ((new.coef (6 * a)).xpow 2).build).addTerm
      ((new.coef (12 * b)).xpow 1).build).addTerm (new.coef (-(power a 2))).build)
  else if n = 4 then
    Poly.termMul ((new.coef 4).ypow 1).build
      ((((((new.xpow 6).build.add ((new.coef (5 * a)).xpow 4).build).addTerm
        ((new.coef (20 * b)).xpow 3).build).addTerm
        ((new.coef (-5 * power a 2)).xpow 2).build).addTerm
        ((new.coef (-4 * a * b)).xpow 1).build).addTerm
        (new.coef (-8 * power b 2 - power a 3)).build)
  else if n < 0 then .panic .assertion -- unreachable: excluded by the first assertion
  else if Int.fmod n 2 = 1 then do
    let m := Int.fdiv (n - 1) 2
    rassert (decide (m < n))
    let e ← psi a b (m + 2)
    let f ← (← psi a b m).power 3
    let g ← psi a b (m - 1)
    let h ← (← psi a b (m + 1)).power 3
    ((← e.mul f).sub (← g.mul h)).reduction a b
  else do
    let m := Int.fdiv n 2
    rassert (decide (m < n))
    let e ← psi a b (m + 2)
    let f ← (← psi a b (m - 1)).power 2
    let g ← psi a b (m - 2)
    let h ← (← psi a b (m + 1)).power 2
    let i ← (← psi a b m).mul ((← e.mul f).sub (← g.mul h))
    let j ← i.divTerm ((new.coef 2).ypow 1).build
    j.reduction a b
termination_by n.toNat
decreasing_by
  all_goals
    simp only [Int.fdiv_eq_ediv_of_nonneg _ (by omega : (0 : Int) ≤ 2)] at *
    omega

/-- `phi(a, b, n)`; src/division_polynomial.rs:57-62. -/
def phi (a b n : Int) : Res Poly := do
  rassert (decide (n ≥ 1))
  let s ← (← psi a b n).power 2
  let t ← Poly.termMul (new.xpow 1).build s
  let u ← (← psi a b (← chk (n + 1))).mul (← psi a b (n - 1))
  (t.sub u).reduction a b

/-- `omega(a, b, n)`; src/division_polynomial.rs:64-74. -/
def omega (a b n : Int) : Res Poly := do
  rassert (decide (n ≥ 1))
  if n = 1 then .ok (new.ypow 1).build.toPol
  else do
    let s ← (← psi a b (← chk (n + 2))).mul (← (← psi a b (n - 1)).power 2)
    let t ← (← psi a b (n - 2)).mul (← (← psi a b (n + 1)).power 2)
    let i ← (s.sub t).divTerm ((new.coef 4).ypow 1).build
    i.reduction a b

end EC
