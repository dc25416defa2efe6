import Verif.Model.Term

/-! `PartialOrd` of the three ordered types, the comparison operators Rust derives from it, and the derived
`Default` values. -/

namespace EC

/-- Rust's provided method `PartialOrd::lt`, used by the operator `<`: `partial_cmp` is `Some(Less)`.
(Standard library, not in the repository; `<` on variables is used at src/term.rs:356.) -/
def pcLt (o : Option Ordering) : Bool := o == some .lt

/-- `PartialOrd::gt` (`>`): `partial_cmp` is `Some(Greater)`.  (Standard library; used at src/term.rs:358.) -/
def pcGt (o : Option Ordering) : Bool := o == some .gt

/-- `PartialOrd::le` (`<=`): `partial_cmp` is `Some(Less | Equal)`.  (Standard library.) -/
def pcLe (o : Option Ordering) : Bool := o == some .lt || o == some .eq

/-- `PartialOrd::ge` (`>=`): `partial_cmp` is `Some(Greater | Equal)`.  (Standard library.) -/
def pcGe (o : Option Ordering) : Bool := o == some .gt || o == some .eq

/-- `PartialOrd::partial_cmp` of `SubscriptedVariable`; src/subscripted_variable.rs:64-68. -/
def SubVar.partialCmp (a b : SubVar) : Option Ordering := some (SubVar.cmp a b)

/-- `PartialOrd::partial_cmp` of `Monomial`; src/term.rs:365-369. -/
def Monomial.partialCmp (a b : Monomial) : Option Ordering := some (Monomial.cmp a b)

/-- `PartialOrd::partial_cmp` of `Term`; src/term.rs:371-375. -/
def Term.partialCmp (a b : Term) : Option Ordering := some (Term.cmp a b)

/-- `Default` of `SubscriptedVariable`; src/subscripted_variable.rs:20-24. -/
def SubVar.default : SubVar := ⟨0, 0, true⟩

/-- Derived `Default` of `Monomial`: every field's default; src/term.rs:23. -/
def Monomial.default : Monomial := ⟨0, 0, 0, SubVar.default⟩

/-- Derived `Default` of `Term`: every field's default, so the coefficient is 0; src/term.rs:16. -/
def Term.default : Term := ⟨0, Monomial.default⟩

end EC
