import Verif.Model.Term
import Mathlib.Order.WithBot
import Mathlib.Data.Prod.Lex
import Mathlib.Order.Lex

/-! Specification of the intended orders (C07): lexicographic ranks in linearly ordered types of Mathlib. -/

namespace EC

/-- Rank of a subscripted variable: the empty variable is least, then lexicographic in `(i, j)`. -/
def SubVar.rank (v : SubVar) : WithBot (ℤ ×ₗ ℤ) := if v.empty then ⊥ else ((toLex (v.i, v.j) : ℤ ×ₗ ℤ) : WithBot _)

/-- Rank of a monomial: lexicographic in the exponents of `x`, `y`, `q`, then the variable. -/
def Monomial.rank (m : Monomial) : ℤ ×ₗ ℤ ×ₗ ℤ ×ₗ WithBot (ℤ ×ₗ ℤ) :=
  toLex (m.xpow, toLex (m.ypow, toLex (m.qpow, m.var.rank)))

end EC
