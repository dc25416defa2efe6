import Verif.Spec.Maps
import Init.Data.Nat.ToString

/-! Specification vocabulary: what a printed text denotes.

A text is read as ordinary mathematical notation: tokens are separated by blanks, juxtaposed tokens
are multiplied, the tokens `+` and `-` separate the summands.  Nothing of the model's `Display`
functions is used here. -/

namespace EC

/-- Decimal natural number. -/
def readNat (s : List Char) : ℕ := Nat.ofDigitChars 10 s 0

/-- Decimal integer with an optional leading `-`. -/
def readInt : List Char → ℤ
  | '-' :: r => -(readNat r : ℤ)
  | r => readNat r

/-- Exponent: nothing means 1, `^n` means `n`. -/
def readExp : List Char → ℤ
  | '^' :: r => readInt r
  | _ => 1

/-- The subscripted variable `c_i_j` as a ring element. -/
noncomputable def varElem (i j : ℤ) : LRing := AddMonoidAlgebra.single (0, 0, 0, Finsupp.single (i, j) 1) 1

/-- The ring element a factor denotes: `x^n`, `y^n`, `q^n`, `c_i_j` or a natural number. -/
noncomputable def readFactor : List Char → LRing
  | 'x' :: r => mono (readExp r) 0 0
  | 'y' :: r => mono 0 (readExp r) 0
  | 'q' :: r => mono 0 0 (readExp r)
  | 'c' :: '_' :: r => match r.splitOn '_' with
    | [i, j] => varElem (readInt i) (readInt j)
    | _ => 0
  | r => (readNat r : LRing)

/-- Reading from right to left: the sum of the summands already complete, and the product of the
factors of the summand being read. -/
noncomputable def readStep (t : List Char) (acc : LRing × Option LRing) : LRing × Option LRing :=
  if t = ['+'] then (acc.1 + acc.2.getD 0, none)
  else if t = ['-'] then (acc.1 - acc.2.getD 0, none)
  else (acc.1, some (readFactor t * acc.2.getD 1))

/-- The ring element a text denotes. -/
noncomputable def readText (s : List Char) : LRing :=
  let r := (s.splitOn ' ').foldr readStep (0, none)
  r.1 + r.2.getD 0

end EC
