import Verif.Model.Basic

/-! Model of `/repo/src/bigint.rs`.  `BigInt` is Lean's `Int`. -/

namespace EC

/-- The `while e > 1` loop of `Power::power`, src/bigint.rs:36-44 and :56-64 (the `&BigInt` and
the `i32` version have the same body): returns the final `r * b`.  `e /= 2` is truncating
division. -/
def powLoop (e b r : Int) : Int :=
  if e > 1 then
    powLoop (e.tdiv 2) (b * b) (if e % 2 = 1 then r * b else r)
  else r * b
termination_by e.toNat
decreasing_by
  rename_i h
  have : e.tdiv 2 = e / 2 := by rw [Int.tdiv_eq_ediv_of_nonneg (by omega)]
  omega

/-- `BigInt::power(n)` for `n : i32`, `BigInt`, `&BigInt`; src/bigint.rs:22-66. -/
def power (self n : Int) : Int :=
  if n = 0 then 1 else powLoop n self 1

/-- The `while e > 1` loop of `PowerModulo::power_modulo` and its final reduction,
src/bigint.rs:76-85. -/
def powModLoop (p e b r : Int) : Res Int :=
  if e > 1 then do
    let r' ← if e % 2 = 1 then modFloor (r * b) p else .ok r
    let b' ← modFloor (b * b) p
    powModLoop p (e.tdiv 2) b' r'
  else modFloor (r * b) p
termination_by e.toNat
decreasing_by
  rename_i h
  have : e.tdiv 2 = e / 2 := by rw [Int.tdiv_eq_ediv_of_nonneg (by omega)]
  omega

/-- `BigInt::power_modulo(n, p)`; src/bigint.rs:68-87.  Note the early return of `1` for
`n = 0`, before any reduction mod `p`. -/
def powerModulo (self n p : Int) : Res Int :=
  if n = 0 then .ok 1 else powModLoop p n self 1

/-- `BigInt::inverse(p)`; src/bigint.rs:89-94. -/
def inverse (self p : Int) : Res Int := do
  rassert (decide (p ≥ 2))
  powerModulo self (p - 2) p

/-- `extended_gcd(a, b)`; src/bigint.rs:103-111.  `%` and `/` truncate. -/
def extendedGcd (a b : Int) : Int × Int × Int :=
  if a = 0 then (b, 0, 1)
  else
    let r := b.tmod a
    let q := b.tdiv a
    let (g, x, y) := extendedGcd r a
    (g, y - q * x, x)
termination_by a.natAbs
decreasing_by
  rename_i h
  rw [Int.natAbs_tmod]
  exact Nat.mod_lt _ (by omega)

/-- `ModResult { l, r }`: "x (mod l) = r"; src/bigint.rs:114-118. -/
structure ModResult where
  l : Int
  r : Int
  deriving DecidableEq, Repr

/-- One iteration of the loop of `chinese_remainder`; src/bigint.rs:128-133. -/
def crtStep (acc res : ModResult) : ModResult :=
  let p := (extendedGcd acc.l res.l).2.1
  { l := acc.l * res.l, r := acc.r + (res.r - acc.r) * acc.l * p }

/-- `chinese_remainder(mod_result)`; src/bigint.rs:125-136.  The `println!` is in Model/Output.lean. -/
def chineseRemainder (rs : List ModResult) : ModResult :=
  rs.foldl crtStep { l := 1, r := 1 }

end EC
