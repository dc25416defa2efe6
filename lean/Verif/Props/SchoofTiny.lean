import Verif.Props.PolyDivAny
import Verif.Props.Schoof
import Verif.Props.AnyModulus
import Verif.Lemmas.NoTimeout

/-! C62 for `q < 2`: `schoof` takes any `i32` as the size of the field. -/

namespace EC
open Poly

/-- **C62.**  For every `q < 2` (zero and negative values included) and all `a`, `b`, `schoof` panics (an assertion fails). -/
theorem C62_tiny (a b q : ℤ) (hq : q < 2) (fuel : ℕ) (hf : 2 ≤ fuel) : schoof fuel a b q = .panic .assertion := by
  obtain ⟨n, rfl⟩ : ∃ n, fuel = n + 2 := ⟨fuel - 2, by omega⟩
  set g : Poly := (TermBuilder.new.xpow q).build.sub (TermBuilder.new.xpow 1).build with hg
  have h1 : g.All (fun k => k.x ≤ 1) := by
    rw [hg]
    unfold Term.sub
    refine all_termAdd (fun _ => ?_) ?_
    · show q ≤ 1
      omega
    · show (1 : ℤ) ≤ 1
      exact le_rfl
  have h2 : g.highestTermX.xpow ≤ 1 := by
    by_cases h0 : g.entries = []
    · rw [highestTermX_of_nil h0]; simp [Term.new, Term.xpow]
    · obtain ⟨e, he, h, -⟩ := highestTermX_of_ne h0
      rw [h]
      exact h1 e he
  have h3 : (curvePol a b).highestTermX.xpow = 3 := by
    rw [highest_xpow (curvePol_isX a b), (curvePol_deg a b).1]; rfl
  have hw := C15_small_modulus hq (curvePol a b) g (by omega) n
  have h4 : Poly.gcd (n + 2) (curvePol a b) g q = .panic .assertion := by
    rw [Poly.gcd]
    rw [if_neg (by omega), hw]
    rfl
  unfold schoof schoof2 isGcdOne
  rw [← hg]
  simp only [h4, Res.panic_bind]

example : schoof 2 1 1 1 = .panic .assertion := by decide +kernel
example : schoof 2 1 1 (-3) = .panic .assertion := by decide +kernel

/-- **C55.**  On a curve made with a modulus below 2, `sea` panics for every `l`. -/
theorem C55_small_modulus (ec : EllipticCurve) (hp : ec.p < 2) (l : ℤ) (fuel : ℕ) : ∃ w, sea fuel ec l = .panic w := by
  obtain ⟨w, hw⟩ := (C50_any_modulus (ec := ec)).2.1 (by omega)
  unfold sea seaWith
  rw [hw]
  cases hm : modularPolynomial l with
  | panic w' => exact ⟨w', rfl⟩
  | timeout => exact absurd hm (modularPolynomial_ne_timeout l)
  | ok Φ =>
    simp only [Res.ok_bind]
    cases hm' : Φ.modularAssign ec.p with
    | panic w' => exact ⟨w', rfl⟩
    | timeout => exact absurd hm' (modularAssign_ne_timeout _ _)
    | ok Φ' => exact ⟨w, rfl⟩

example : (EllipticCurve.newRaw 1 1 1).p < 2 := by decide

end EC
