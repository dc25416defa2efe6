/-
Model prelude: outcomes of a Rust call, checked `i32` arithmetic and the two
integer-division conventions of `num-integer` / `num-bigint`.

Nothing in this file models a function of the repository itself; it fixes how
Rust-level effects (panic, endless loop, overflow) are represented.
-/

namespace EC

/-- Why a Rust call panicked. -/
inductive Panic where
  /-- an `assert!` failed -/
  | assertion
  /-- `i32` arithmetic left the `i32` range (dev/test profile: overflow checks on) -/
  | overflow
  /-- division or `mod_floor` by zero inside `num-bigint` -/
  | divByZero
  /-- `unwrap()` on `None` -/
  | unwrapNone
  /-- slice or `Vec` index out of bounds -/
  | indexOutOfBounds
  /-- an explicit `panic!` -/
  | explicit
  deriving DecidableEq, Repr

/-- Outcome of a Rust call: it returns, it panics, or (for the functions whose loops may
run for ever) the fuel the model was given is used up. -/
inductive Res (α : Type) where
  | ok (a : α)
  | panic (why : Panic)
  | timeout
  deriving DecidableEq, Repr

namespace Res

/-- Sequencing: a panic or time-out aborts the rest of the computation. -/
def bind {α β : Type} (x : Res α) (f : α → Res β) : Res β :=
  match x with
  | ok a => f a
  | panic w => panic w
  | timeout => timeout

instance : Monad Res where
  pure := Res.ok
  bind := Res.bind

/-- Did the call return normally? -/
def isOk {α : Type} : Res α → Bool
  | ok _ => true
  | _ => false

end Res

/-- `assert!(c)`. -/
def rassert (c : Bool) : Res Unit := if c then .ok () else .panic .assertion

/-- The values of Rust's `i32`. -/
def InI32 (n : Int) : Prop := -2147483648 ≤ n ∧ n ≤ 2147483647

instance (n : Int) : Decidable (InI32 n) := by unfold InI32; infer_instance

/-- Result of an `i32` operation whose exact mathematical result is `n`: with overflow checks
(dev and test profile) an out-of-range result panics. -/
def chk (n : Int) : Res Int := if InI32 n then .ok n else .panic .overflow

/-- `Integer::mod_floor` of `num-bigint`: remainder with the sign of the divisor; panics on a
zero divisor. -/
def modFloor (a p : Int) : Res Int := if p = 0 then .panic .divByZero else .ok (Int.fmod a p)

/-- `Integer::div_floor` of `num-bigint`: quotient rounded to minus infinity; panics on a
zero divisor. -/
def divFloor (a p : Int) : Res Int := if p = 0 then .panic .divByZero else .ok (Int.fdiv a p)

/-- A call with a fuel argument returns `v` (for every large enough fuel). -/
def Returns {α : Type} (f : Nat → Res α) (v : α) : Prop := ∃ N, ∀ fuel, N ≤ fuel → f fuel = .ok v

/-- A call with a fuel argument never returns and never panics: it loops for ever. -/
def Diverges {α : Type} (f : Nat → Res α) : Prop := ∀ fuel, f fuel = .timeout

end EC
