import Verif.Props.RingLaws

/-! Property C09: the constants as `is_zero` and `==` see them. -/

namespace EC
open Poly

/-- C09: `zero()`, `new()` and the polynomial of the zero term are the same object, on which `is_zero` answers true; on
`one()` it answers false, and `one()` and `zero()` are not `==`. -/
theorem C09_constants : Poly.zero = Poly.new ∧ Term.new.toPol = Poly.zero ∧ Poly.zero.isZero = true ∧
    Poly.one.isZero = false ∧ Poly.zero.eq Poly.new = true ∧ Poly.one.eq Poly.zero = false ∧
    ∀ a : Poly, a.isZero = true → a.eq Poly.zero = true := by
  refine ⟨rfl, rfl, by decide +kernel, by decide +kernel, by decide +kernel, by decide +kernel, fun a h => ?_⟩
  have h1 : a.entries = [] := by simpa [Poly.isZero, Poly.len] using h
  unfold Poly.eq Poly.len
  rw [h1]
  rfl

end EC
