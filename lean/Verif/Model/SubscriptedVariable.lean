import Verif.Model.Basic
import Mathlib.Data.Nat.Prime.Defs
import Mathlib.Tactic.NormNum.Prime

/-! Model of `/repo/src/subscripted_variable.rs`. -/

namespace EC

/-- `SubscriptedVariable`; src/subscripted_variable.rs:7-12. -/
structure SubVar where
  i : Int
  j : Int
  empty : Bool
  deriving DecidableEq, Repr

namespace SubVar

/-- `SubscriptedVariable::new()` and `default()`; src/subscripted_variable.rs:14-24. -/
def new : SubVar := { i := 0, j := 0, empty := true }

/-- `PartialEq::eq`; src/subscripted_variable.rs:26-36. -/
def eq (a b : SubVar) : Bool :=
  if a.empty ≠ b.empty then false
  else if a.empty && b.empty then true
  else a.i == b.i && a.j == b.j

/-- `Ord::cmp`; src/subscripted_variable.rs:39-62. -/
def cmp (a b : SubVar) : Ordering :=
  if a.empty && b.empty then .eq
  else if a.empty && !b.empty then .lt
  else if !a.empty && b.empty then .gt
  else if a.i < b.i then .lt
  else if a.i > b.i then .gt
  else if a.j < b.j then .lt
  else if a.j > b.j then .gt
  else .eq

end SubVar

/-- `num_iter::range(lo, hi)` over integers: `lo, lo+1, ..., hi-1`. -/
def irange (lo hi : Int) : List Int := (List.range (hi - lo).toNat).map (fun (k : Nat) => lo + (k : Int))

/-- The external `primes::is_prime(n)` is modelled by mathematical primality (trusted base).
Decidable by trial division. -/
def isPrime (n : Nat) : Bool := decide (Nat.Prime n)

/-- `SubscriptedVariableConverter { p }`; src/subscripted_variable.rs:80-83. -/
structure Converter where
  p : Int
  deriving DecidableEq, Repr

namespace Converter

/-- `SubscriptedVariableConverter::new(p)`; src/subscripted_variable.rs:86-95. -/
def new (p : Int) : Res Converter := do
  rassert (decide (p ≥ 2))
  if isPrime p.toNat then .ok { p := p } else .panic .explicit

/-- The pairs `(i, j)` in the order in which the two `for` nests shared by `count`,
`index_from_variable` and `variable_from_index` visit them: first `0 ≤ i < j ≤ p`, row by row,
then the diagonal; src/subscripted_variable.rs:99-106, :116-131, :137-158.  `self.p + 1` is
evaluated before the first visit, so it overflows first (see `count`, ...). -/
def visits (c : Converter) : List (Int × Int) :=
  ((irange 0 (c.p + 1)).flatMap (fun i => (irange (i + 1) (c.p + 1)).map (fun j => (i, j))))
  ++ (irange 0 (c.p + 1)).map (fun i => (i, i))

/-- `count()`; src/subscripted_variable.rs:97-108.  The `u64` counter itself cannot overflow:
there are fewer than `2^62` visits. -/
def count (c : Converter) : Res Nat := do
  let _ ← chk (c.p + 1)
  .ok (c.visits.foldl (fun index _ => index + 1) 0)

/-- The search loop of `index_from_variable`: first visited position equal to `(i, j)`,
counting from `index`. -/
def findIndex (i j : Int) : List (Int × Int) → Nat → Option Nat
  | [], _ => none
  | (a, b) :: t, index => if i = a ∧ j = b then some index else findIndex i j t (index + 1)

/-- `index_from_variable(variable)`; src/subscripted_variable.rs:110-133. -/
def indexFromVariable (c : Converter) (v : SubVar) : Res (Option Nat) := do
  if v.empty then .ok none
  else do
    let _ ← chk (c.p + 1)
    match findIndex v.i v.j c.visits 0 with
    | some k => .ok (some k)
    | none => .panic .explicit

/-- `index as i32` for a `u64` `index`: keep the low 32 bits, two's complement. -/
def asI32 (index : Nat) : Int :=
  let w : Int := (index % 4294967296 : Nat)
  if w ≥ 2147483648 then w - 4294967296 else w

/-- The search loop of `variable_from_index`: `local_index` is an `i32` counter, incremented
(with overflow check) after each visit that does not match. -/
def findVariable (target : Int) : List (Int × Int) → Int → Res SubVar
  | [], _ => .panic .explicit
  | (a, b) :: t, localIndex =>
    if localIndex = target then .ok { i := a, j := b, empty := false }
    else do
      let next ← chk (localIndex + 1)
      findVariable target t next

/-- `variable_from_index(index)`; src/subscripted_variable.rs:135-160. -/
def variableFromIndex (c : Converter) (index : Nat) : Res SubVar := do
  let _ ← chk (c.p + 1)
  findVariable (asI32 index) c.visits 0

end Converter

end EC
