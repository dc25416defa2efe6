import Verif.Props.Terms
import Verif.Props.BigIntAny

/-! Property C59 for the remaining arguments of the operations on terms: negative exponents, every modulus, and the exact
domains of the substitutions. -/

namespace EC

/-- C59: for a negative exponent `power` multiplies the exponents but leaves the coefficient as it is. -/
theorem C59_power_negative (a t : Term) (n : ℤ) (hn : n < 0) (h : a.power n = .ok t) :
    t.coef = a.coef ∧ t.xpow = a.xpow * n ∧ t.ypow = a.ypow * n ∧ t.qpow = a.qpow * n ∧ t.var.empty = true := by
  unfold Term.power at h
  split_ifs at h
  obtain ⟨x, h1, h⟩ := Res.bind_eq_ok.1 h
  obtain ⟨y, h2, h⟩ := Res.bind_eq_ok.1 h
  obtain ⟨q, h3, h⟩ := Res.bind_eq_ok.1 h
  cases (chk_eq_ok.1 h1).2
  cases (chk_eq_ok.1 h2).2
  cases (chk_eq_ok.1 h3).2
  cases h
  exact ⟨C01_power_neg _ _ hn, rfl, rfl, rfl, rfl⟩

/-- C59: `modulo` and `modular_assign` for every modulus other than 0. -/
theorem C59_modulo_any (a : Term) (p : ℤ) (hp : p ≠ 0) : ∃ t, a.modulo p = .ok t ∧ a.modularAssign p = .ok t ∧
    t.monomial = a.monomial ∧ t.coef ≡ a.coef [ZMOD p] ∧ (0 < p → 0 ≤ t.coef ∧ t.coef < p) ∧
    (p < 0 → p < t.coef ∧ t.coef ≤ 0) := by
  obtain ⟨r, h1, h2, h3, h4⟩ := C02_any_modulus a.coef 1 p (by norm_num) hp
  have hr : r = Int.fmod a.coef p := by
    unfold powerModulo powModLoop at h1
    simpa [modFloor_of hp] using h1.symm
  subst hr
  have h2' : Int.fmod a.coef p ≡ a.coef [ZMOD p] := by simpa using h2
  exact ⟨_, if_neg hp, if_neg hp, rfl, h2', h3, h4⟩

/-- C59: the exact domain and result of `power_modulo`. -/
theorem C59_power_modulo_any (a : Term) (n p : ℤ) :
    ((∃ t, a.powerModulo n p = .ok t) ↔ (p ≠ 0 ∨ n = 0) ∧ InI32 n ∧ InI32 (a.xpow * n) ∧ InI32 (a.ypow * n) ∧
      InI32 (a.qpow * n)) ∧
    (¬ (∃ t, a.powerModulo n p = .ok t) → ∃ w, a.powerModulo n p = .panic w) ∧
    (∀ t, a.powerModulo n p = .ok t → t.xpow = a.xpow * n ∧ t.ypow = a.ypow * n ∧ t.qpow = a.qpow * n ∧ t.var = a.var ∧
      (n = 0 → t.coef = 1) ∧ (0 < n → t.coef ≡ a.coef ^ n.toNat [ZMOD p]) ∧ (n < 0 → t.coef ≡ a.coef [ZMOD p])) := by
  have hc : (p = 0 ∧ n ≠ 0 ∧ ∃ w, powerModulo a.coef n p = .panic w) ∨ ((p ≠ 0 ∨ n = 0) ∧ ∃ c, powerModulo a.coef n p = .ok c ∧
      (n = 0 → c = 1) ∧ (0 < n → c ≡ a.coef ^ n.toNat [ZMOD p]) ∧ (n < 0 → c ≡ a.coef [ZMOD p])) := by
    by_cases h0 : n = 0
    · subst h0
      exact .inr ⟨.inr rfl, 1, rfl, fun _ => rfl, fun h => by omega, fun h => by omega⟩
    · by_cases hp : p = 0
      · exact .inl ⟨hp, h0, (C02_power_modulo_panics _ _ _).2 ⟨hp, h0⟩⟩
      · obtain ⟨r, h1, h2, -⟩ := C02_any_modulus a.coef n p h0 hp
        refine .inr ⟨.inl hp, r, h1, fun h => absurd h h0, fun h => ?_, fun h => ?_⟩
        · rwa [if_pos h] at h2
        · rwa [if_neg (by omega)] at h2
  by_cases hi : InI32 n
  swap
  · have : a.powerModulo n p = .panic .unwrapNone := by rw [Term.powerModulo, if_pos hi]
    rw [this]
    exact ⟨⟨fun ⟨_, h⟩ => (nomatch h), fun h => absurd h.2.1 hi⟩, fun _ => ⟨_, rfl⟩, fun _ h => (nomatch h)⟩
  rcases hc with ⟨hp, h0, w, hw⟩ | ⟨hp, c, hc, hv⟩
  · have : a.powerModulo n p = .panic w := by rw [Term.powerModulo, if_neg (not_not.2 hi), hw]; rfl
    rw [this]
    exact ⟨⟨fun ⟨_, h⟩ => (nomatch h), fun h => by tauto⟩, fun _ => ⟨_, rfl⟩, fun _ h => (nomatch h)⟩
  · rw [Term.powerModulo, if_neg (not_not.2 hi), hc, Res.ok_bind]
    by_cases hx : InI32 (a.xpow * n)
    swap
    · rw [show chk (a.xpow * n) = .panic .overflow from if_neg hx]
      exact ⟨⟨fun ⟨_, h⟩ => (nomatch h), fun h => absurd h.2.2.1 hx⟩, fun _ => ⟨_, rfl⟩, fun _ h => (nomatch h)⟩
    rw [chk_of hx, Res.ok_bind]
    by_cases hy : InI32 (a.ypow * n)
    swap
    · rw [show chk (a.ypow * n) = .panic .overflow from if_neg hy]
      exact ⟨⟨fun ⟨_, h⟩ => (nomatch h), fun h => absurd h.2.2.2.1 hy⟩, fun _ => ⟨_, rfl⟩, fun _ h => (nomatch h)⟩
    rw [chk_of hy, Res.ok_bind]
    by_cases hq : InI32 (a.qpow * n)
    swap
    · rw [show chk (a.qpow * n) = .panic .overflow from if_neg hq]
      exact ⟨⟨fun ⟨_, h⟩ => (nomatch h), fun h => absurd h.2.2.2.2 hq⟩, fun _ => ⟨_, rfl⟩, fun _ h => (nomatch h)⟩
    rw [chk_of hq, Res.ok_bind]
    refine ⟨⟨fun _ => ⟨hp, hi, hx, hy, hq⟩, fun _ => ⟨_, rfl⟩⟩, fun h => absurd ⟨_, rfl⟩ h, fun t ht => ?_⟩
    cases ht
    exact ⟨rfl, rfl, rfl, rfl, hv⟩

/-- C59: the exact domains of the substitutions; outside they panic. -/
theorem C59_substitutions_domain (a : Term) (n : ℤ) :
    ((∃ t, a.toFrob n = .ok t) ↔ InI32 (a.xpow * n) ∧ InI32 (a.ypow * n)) ∧
    ((∃ t, a.toYPower n = .ok t) ↔ InI32 (a.ypow * n)) ∧
    ((∃ t, a.toQPower n = .ok t) ↔ InI32 (a.qpow * n)) ∧
    (¬ (InI32 (a.xpow * n) ∧ InI32 (a.ypow * n)) → a.toFrob n = .panic .overflow) ∧
    (¬ InI32 (a.ypow * n) → a.toYPower n = .panic .overflow) ∧
    (¬ InI32 (a.qpow * n) → a.toQPower n = .panic .overflow) := by
  unfold Term.toFrob Term.toYPower Term.toQPower chk
  by_cases hx : InI32 (a.xpow * n) <;> by_cases hy : InI32 (a.ypow * n) <;> by_cases hq : InI32 (a.qpow * n) <;>
    simp [hx, hy, hq]

/-- `5 x^2 y q^3`. -/
private def t0 : Term := ((((TermBuilder.new.coef 5).xpow 2).ypow 1).qpow 3).build
example := C59_power_negative t0 _ (-2) (by norm_num) (show t0.power (-2) = .ok
  ((((TermBuilder.new.coef 5).xpow (-4)).ypow (-2)).qpow (-6)).build by decide +kernel)
example := C59_modulo_any t0 (-3) (by norm_num)
example : t0.modulo (-3) = .ok { t0 with coef := -1 } := by decide +kernel
example := (C59_power_modulo_any t0 7 (-3)).1.2 (by decide)
example := (C59_power_modulo_any t0 7 0).2.1 (fun h => by have := (C59_power_modulo_any t0 7 0).1.1 h; revert this; decide)
example := (C59_substitutions_domain t0 2147483647).2.2.2.1 (by decide)

end EC
