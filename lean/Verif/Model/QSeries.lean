import Verif.Model.Polynomial

/-! Model of `/repo/src/divisor.rs`, `/repo/src/eisenstein.rs`, `/repo/src/delta.rs` and
`/repo/src/j_invariant.rs`. -/

namespace EC

/-- `sigma_divisor(n, power)`; src/divisor.rs:7-21.  `n % i` is truncating, with `i ≥ 1`. -/
def sigmaDivisor (n pw : Int) : Res Int := do
  if pw < 0 then .ok 0
  else if n < 0 then .ok 0
  else do
    let hi ← chk (n + 1)
    .ok ((irange 1 hi).foldl (fun sum i => if n.tmod i = 0 then sum + power i pw else sum) 0)

/-- `eisenstein4(max_q_order)`; src/eisenstein.rs:11-23. -/
def eisenstein4 (maxQOrder : Int) : Res Poly := do
  let hi ← chk (maxQOrder + 1)
  (irange 1 hi).foldlM (fun pol n => do
    let sigma ← sigmaDivisor n 3
    let t := ((TermBuilder.new.coef (240 * sigma)).qpow n).build.toPol
    .ok (pol.addAssign t)) Poly.one

/-- `delta1(order)`; src/delta.rs:7-17. -/
def delta1 (order : Int) : Res Poly := do
  let hi ← chk (order + 1)
  (irange 1 hi).foldlM (fun pol n => do
    let t := (TermBuilder.new.qpow n).build.toPol
    let u ← (Poly.one.sub t).powerOmitHighOrderQ 24 order
    let pol ← pol.mulAssign u
    pol.omitHighOrderQ order) Poly.one

/-- `delta1_inverse(order)`; src/delta.rs:20-28. -/
def delta1Inverse (order : Int) : Res Poly := do
  let d ← delta1 order
  let a := Poly.one.sub d
  let hi ← chk (order + 1)
  (irange 1 hi).foldlM (fun pol n => do
    let t ← a.powerOmitHighOrderQ n order
    .ok (pol.addAssign t)) Poly.one

/-- `j_invariant1(order)`; src/j_invariant.rs:9-16. -/
def jInvariant1 (order : Int) : Res Poly := do
  let di ← delta1Inverse order
  let e4 ← (← eisenstein4 order).power 3
  let e4 ← e4.omitHighOrderQ order
  let j ← di.mul e4
  j.omitHighOrderQ order

/-- `j_invariant(order)`; src/j_invariant.rs:19-26. -/
def jInvariantQ (order : Int) : Res Poly := do
  let j1 ← jInvariant1 (← chk (order + 1))
  let t := (TermBuilder.new.qpow (-1)).build.toPol
  j1.mul t

end EC
