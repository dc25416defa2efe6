import Verif.Model.Basic

/-! Helpers of the witness files.  A witness applies a theorem to concrete inputs, so that Lean checks that those
inputs meet all its hypotheses together. -/

namespace EC

/-- The value of a call that returned. -/
def Res.out {α : Type} : (r : Res α) → r.isOk = true → α
  | .ok x, _ => x

theorem Res.eq_out {α : Type} : (r : Res α) → (h : r.isOk = true) → r = .ok (r.out h)
  | .ok _, _ => rfl

end EC
