import Verif.Model.EllipticCurve

/-! Model of the `Display` implementations: src/subscripted_variable.rs:70-78,
src/term.rs:377-509, src/polynomial.rs:189-209, src/elliptic_curve.rs:276-291 and :314-329.
Text is a `List Char`; `BigInt::to_string` / `i32::to_string` are decimal with a leading `-`. -/

namespace EC

/-- Decimal digits of a natural number, most significant first (external: `to_string`). -/
def natDigits (n : Nat) : List Char := Nat.toDigits 10 n

/-- `to_string()` of an integer (external). -/
def intStr (n : Int) : List Char :=
  if n < 0 then '-' :: natDigits n.natAbs else natDigits n.natAbs

/-- `str::trim_end()`; only blanks occur at the end of the texts built here. -/
def trimEnd (s : List Char) : List Char := (s.reverse.dropWhile (· == ' ')).reverse

/-- `Display for SubscriptedVariable`; src/subscripted_variable.rs:70-78. -/
def SubVar.display (v : SubVar) : List Char :=
  if v.empty then [] else ['c', '_'] ++ intStr v.i ++ ['_'] ++ intStr v.j

/-- One power `x`, `x^n` followed by a blank, nothing for exponent 0; src/term.rs:390-398 and its
copies. -/
def powStr (name : Char) (n : Int) : List Char :=
  if n = 0 then [] else (if n = 1 then [name] else [name, '^'] ++ intStr n) ++ [' ']

/-- The part of a term's text after the coefficient, before `trim_end`; src/term.rs:390-419,
:434-463 and :476-505. -/
def Monomial.display (m : Monomial) : List Char :=
  powStr 'x' m.xpow ++ powStr 'y' m.ypow ++ powStr 'q' m.qpow ++
    (if m.var.empty then [] else m.var.display)

/-- `Display for Term`; src/term.rs:377-509. -/
def Term.display (t : Term) : List Char :=
  if t.coef = 1 then
    if t.xpow = 0 ∧ t.ypow = 0 ∧ t.qpow = 0 then
      if t.var.empty then ['1'] else t.var.display
    else trimEnd t.monomial.display
  else if t.coef = -1 then
    if t.xpow = 0 ∧ t.ypow = 0 ∧ t.qpow = 0 then
      if t.var.empty then ['-', ' ', '1'] else ['-', ' '] ++ t.var.display
    else trimEnd (['-', ' '] ++ t.monomial.display)
  else
    trimEnd ((if t.coef ≥ 0 then intStr t.coef else ['-', ' '] ++ intStr (t.coef * -1)) ++ [' '] ++
      t.monomial.display)

/-- Loop body of `Display for Polynomial`: `st` is the text so far, `i` the term counter;
src/polynomial.rs:197-206. -/
def Poly.displayStep (acc : List Char × Nat) (e : Monomial × Int) : List Char × Nat :=
  let st := if e.2 > 0 ∧ acc.2 ≠ 0 then acc.1 ++ ['+', ' '] else acc.1
  let st := if e.2 ≠ 0 then st ++ (Term.from' e.1 e.2).display ++ [' '] else st
  (st, acc.2 + 1)

/-- `Display for Polynomial`; src/polynomial.rs:189-209. -/
def Poly.display (P : Poly) : List Char :=
  if P.isZero then ['0']
  else trimEnd (P.entries.reverse.foldl Poly.displayStep ([], 0)).1

/-- `Display for ECPoint`; src/elliptic_curve.rs:283-291. -/
def ECPoint.display (P : ECPoint) : List Char :=
  if P.isInfinity then ['O']
  else ['('] ++ intStr P.x ++ [',', ' '] ++ intStr P.y ++ [')']

/-- `Display for ECPointVec`: the points separated by `", "`; src/elliptic_curve.rs:314-329. -/
def displayPoints (v : List ECPoint) : List Char :=
  (v.foldl (fun (acc : List Char × Bool) P =>
    (acc.1 ++ (if acc.2 then [] else [',', ' ']) ++ P.display, false)) ([], true)).1

/-- `Display for EllipticCurve`; src/elliptic_curve.rs:276-281. -/
def EllipticCurve.display (ec : EllipticCurve) : Res (List Char) := do
  let j ← ec.jInvariant
  .ok ("F_".toList ++ intStr ec.p ++ ": y^2 = ".toList ++ ec.pol.display ++ ", cardinality:".toList
    ++ natDigits ec.cardinality ++ ", j:".toList ++ intStr j)

end EC
