import Verif.Lemmas.ModularDomain
import Verif.Lemmas.NoTimeout
import Verif.Props.ModularExists

/-! C77: for which arguments `j_invariant1`, `j_invariant` and `modular_polynomial` return.

With overflow checks, i.e. in the build profile the model describes, a product of `q`-polynomials panics when an
exponent leaves `i32`. -/

namespace EC

open Poly

/-- A computation without fuel that does not return panics. -/
theorem panics_of {α : Type} {x : Res α} (h1 : x ≠ .timeout) (h2 : ∀ a, x ≠ .ok a) : ∃ w, x = .panic w := by
  cases x with
  | ok a => exact absurd rfl (h2 a)
  | panic w => exact ⟨w, rfl⟩
  | timeout => exact absurd rfl h1

/-- **C77.**  For an order `N ≥ 0`, `j_invariant1(N)` returns exactly if `3 N` is an `i32`; otherwise it panics. -/
theorem C77_j_invariant1 (N : ℤ) (hN : 0 ≤ N) :
    ((∃ f, jInvariant1 N = .ok f) ↔ 3 * N ≤ 2147483647) ∧
    (¬ 3 * N ≤ 2147483647 → ∃ w, jInvariant1 N = .panic w) := by
  have h : (∃ f, jInvariant1 N = .ok f) ↔ 3 * N ≤ 2147483647 :=
    ⟨fun ⟨f, hf⟩ => (jInvariant1_bound hN hf).1, fun hb => (C36_j_invariant1 N hN hb).imp fun f hf => hf.1⟩
  exact ⟨h, fun hb => panics_of (jInvariant1_ne_timeout N) fun f hf => hb (h.1 ⟨f, hf⟩)⟩

/-- **C77.**  For an order `N ≥ -1`, `j_invariant(N)` returns exactly if `3 (N + 1)` is an `i32`; otherwise it
panics. -/
theorem C77_j_invariant (N : ℤ) (hN : -1 ≤ N) :
    ((∃ f, jInvariantQ N = .ok f) ↔ 3 * (N + 1) ≤ 2147483647) ∧
    (¬ 3 * (N + 1) ≤ 2147483647 → ∃ w, jInvariantQ N = .panic w) := by
  have h : (∃ f, jInvariantQ N = .ok f) ↔ 3 * (N + 1) ≤ 2147483647 :=
    ⟨fun ⟨f, hf⟩ => (jInvariantQ_bound hN hf).1, fun hb => (C36_j_invariant N hN hb).imp fun f hf => hf.1⟩
  exact ⟨h, fun hb => panics_of (jInvariantQ_ne_timeout N) fun f hf => hb (h.1 ⟨f, hf⟩)⟩

theorem modularPolynomial_bound {p : ℤ} {f : Poly} (h : modularPolynomial p = .ok f) :
    p.toNat.Prime ∧ 2 ≤ p ∧ p ≤ 214 := by
  obtain ⟨hp, h2, _⟩ := modularPolynomial_prime h
  refine ⟨hp, h2, ?_⟩
  unfold modularPolynomial at h
  obtain ⟨l, hl, _⟩ := Res.bind_eq_ok.1 h
  unfold subscriptedVariableModularPolynomialList at hl
  obtain ⟨Q, hQ, _⟩ := Res.bind_eq_ok.1 hl
  rw [← Int.toNat_of_nonneg (show 0 ≤ p by omega)] at hQ
  have := polQ_bound hp hQ
  omega

/-- **C77.**  `modular_polynomial(p)` returns exactly for the primes `p ≤ 214` (that is, `p ≤ 211`), and panics for
every other argument. -/
theorem C77_modular_polynomial (p : ℤ) :
    ((∃ f, modularPolynomial p = .ok f) ↔ ∃ n : ℕ, p = n ∧ n.Prime ∧ n ≤ 214) ∧
    ((¬ ∃ n : ℕ, p = n ∧ n.Prime ∧ n ≤ 214) → ∃ w, modularPolynomial p = .panic w) := by
  have h : (∃ f, modularPolynomial p = .ok f) ↔ ∃ n : ℕ, p = n ∧ n.Prime ∧ n ≤ 214 := by
    constructor
    · rintro ⟨f, hf⟩
      obtain ⟨h1, h2, h3⟩ := modularPolynomial_bound hf
      exact ⟨p.toNat, by omega, h1, by omega⟩
    · rintro ⟨n, rfl, hn, hb⟩
      exact C40_returns n hn hb
  exact ⟨h, fun hb => panics_of (modularPolynomial_ne_timeout p) fun f hf => hb (h.1 ⟨f, hf⟩)⟩

/-- **C77.**  Whenever `modular_polynomial(p)` returns, the result is the classical modular polynomial: it has
the shape of C39 and vanishes at `(j(q), j(q^p))`. -/
theorem C77_whenever_returns (p : ℤ) (f : Poly) (h : modularPolynomial p = .ok f) :
    ∃ (n : ℕ) (hn : n.Prime) (c : ℕ → ℕ → ℤ), p = n ∧ f.val = modularShape n c ∧
      modularAt n c jLaurent (qPow n hn.pos jLaurent) = 0 := by
  obtain ⟨n, rfl, hn, hb⟩ := (C77_modular_polynomial p).1.1 ⟨f, h⟩
  obtain ⟨g, c, hg, h1, h2⟩ := C75_modular_polynomial n hn hb
  cases h.symm.trans hg
  exact ⟨n, hn, c, rfl, h1, h2⟩

/-- The largest prime that works, the first one that does not, and a composite number. -/
example : (∃ f, modularPolynomial 211 = .ok f) ∧ (∃ w, modularPolynomial 223 = .panic w) ∧
    (∃ w, modularPolynomial 4 = .panic w) := by
  refine ⟨(C77_modular_polynomial 211).1.2 ⟨211, rfl, by norm_num, by norm_num⟩,
    (C77_modular_polynomial 223).2 ?_, (C77_modular_polynomial 4).2 ?_⟩
  · rintro ⟨n, h1, _, h2⟩; omega
  · rintro ⟨n, h1, h2, _⟩
    have : n = 4 := by omega
    subst this
    exact absurd h2 (by norm_num)

example : (∃ f, jInvariantQ 715827881 = .ok f) ∧ (∃ w, jInvariantQ 715827882 = .panic w) :=
  ⟨(C77_j_invariant _ (by norm_num)).1.2 (by norm_num), (C77_j_invariant _ (by norm_num)).2 (by norm_num)⟩

end EC
