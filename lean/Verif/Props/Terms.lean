import Verif.Props.PolyMaps

/-! Property C59: arithmetic of terms. -/

namespace EC

/-- C59: whenever `Term * Term` returns, the value is the product; it returns exactly if not both
terms have a variable and the exponent sums are in `i32`; two variables are an explicit panic. -/
theorem C59_mul (a b : Term) :
    (∀ t, a.mul b = .ok t → t.val = a.val * b.val) ∧
    ((∃ t, a.mul b = .ok t) ↔ (a.var.empty = true ∨ b.var.empty = true) ∧
      InI32 (a.xpow + b.xpow) ∧ InI32 (a.ypow + b.ypow) ∧ InI32 (a.qpow + b.qpow)) ∧
    (a.var.empty = false → b.var.empty = false → a.mul b = .panic .explicit) := by
  refine ⟨?_, ⟨?_, ?_⟩, ?_⟩
  · intro t h
    obtain ⟨h1, h2, h3⟩ := Term.mul_eq_ok h
    unfold Term.val
    rw [h2, h3, Key.val_mul h1, smul_mul_smul_comm]
  · rintro ⟨t, h⟩
    obtain ⟨⟨h1, h2, h3, h4⟩, _⟩ := Term.mul_eq_ok h
    simp only [Monomial.key, SubVar.key_eq_none] at h1
    exact ⟨h1, h2, h3, h4⟩
  · rintro ⟨h1, h2, h3, h4⟩
    exact Term.mul_ok ⟨by simp only [Monomial.key, SubVar.key_eq_none]; exact h1, h2, h3, h4⟩
  · intro h1 h2
    unfold Term.mul
    rw [h1, h2]; rfl

/-- C59: `Term / Term` for a divisor whose coefficient divides: quotient times divisor is the
dividend; in general the coefficient is the floor quotient. -/
theorem C59_div (a b t : Term) (h : a.div b = .ok t) :
    (b.coef ∣ a.coef → t.val * b.val = a.val) ∧ t.coef = Int.fdiv a.coef b.coef ∧
    b.coef ≠ 0 ∧ b.var.empty = true := by
  rw [Term.div_eq_ok] at h
  obtain ⟨h1, h2, _, _, _, rfl⟩ := h
  refine ⟨?_, rfl, h2, h1⟩
  intro hd
  unfold Term.val
  simp only
  have : (Monomial.mk (a.xpow - b.xpow) (a.ypow - b.ypow) (a.qpow - b.qpow) a.var).key =
      a.monomial.key.div b.monomial.key := rfl
  rw [this, smul_mul_smul_comm, Key.div_val (SubVar.key_eq_none.2 h1), Int.fdiv_mul_cancel_of_dvd hd]

/-- C59: `Term / Term` returns exactly for a divisor with non-zero coefficient and no variable, with
exponent differences in `i32`. -/
theorem C59_div_returns (a b : Term) : (∃ t, a.div b = .ok t) ↔
    b.var.empty = true ∧ b.coef ≠ 0 ∧ InI32 (a.xpow - b.xpow) ∧ InI32 (a.ypow - b.ypow) ∧
      InI32 (a.qpow - b.qpow) := by
  simp only [Term.div_eq_ok, exists_and_left, exists_eq, and_true]

/-- C59: unary minus. -/
theorem C59_neg (a : Term) : a.neg.val = -a.val := Term.val_neg a

theorem Key.val_pow (k : Key) (n : ℕ) (hv : k.v = none) :
    k.val ^ n = (Key.mk (k.x * n) (k.y * n) (k.q * n) none).val := by
  induction n with
  | zero => simp [Key.val, Key.expo]; rfl
  | succ n ih =>
    rw [pow_succ, ih]
    unfold Key.val
    rw [AddMonoidAlgebra.single_mul_single, mul_one]
    congr 1
    simp [Key.expo, hv, mul_add]

/-- C59: `Term::power(n)`, `n ≥ 0`, is the power of the ring element; it panics for a term with a
variable and for an exponent outside `i32`. -/
theorem C59_power (a : Term) (n : ℤ) :
    (∀ t, a.power n = .ok t → 0 ≤ n → t.val = a.val ^ n.toNat) ∧
    ((∃ t, a.power n = .ok t) ↔ a.var.empty = true ∧ InI32 n ∧ InI32 (a.xpow * n) ∧
      InI32 (a.ypow * n) ∧ InI32 (a.qpow * n)) := by
  unfold Term.power
  by_cases hv : a.var.empty = true
  · by_cases hn : InI32 n
    · simp only [hv, hn, Bool.not_true, Bool.false_eq_true, if_false, not_true_eq_false,
        Res.bind_eq_ok, chk_eq_ok, Res.ok.injEq, true_and]
      constructor
      · rintro t ⟨x, ⟨_, rfl⟩, y, ⟨_, rfl⟩, q, ⟨_, rfl⟩, rfl⟩ h0
        unfold Term.val
        rw [smul_pow, Key.val_pow _ _ (SubVar.key_eq_none.2 hv)]
        have : ((n.toNat : ℕ) : ℤ) = n := by omega
        simp only [TermBuilder.build, TermBuilder.coef, TermBuilder.xpow, TermBuilder.ypow,
          TermBuilder.qpow, TermBuilder.new, power_eq_pow _ _ h0, this]
        rfl
      · constructor
        · rintro ⟨t, x, ⟨h1, rfl⟩, y, ⟨h2, rfl⟩, q, ⟨h3, rfl⟩, _⟩
          exact ⟨h1, h2, h3⟩
        · rintro ⟨h1, h2, h3⟩
          exact ⟨_, _, ⟨h1, rfl⟩, _, ⟨h2, rfl⟩, _, ⟨h3, rfl⟩, rfl⟩
    · simp [hv, hn]
  · simp [hv]

/-- C59: `Term::power_modulo(n, p)`, `n ≥ 1`, `p ≥ 1`: the coefficient is the canonical residue of the
power, the exponents are multiplied by `n`. -/
theorem C59_power_modulo (a : Term) (n p : ℤ) (hn : 1 ≤ n) (hp : 1 ≤ p) :
    (∀ t, a.powerModulo n p = .ok t → t.coef = a.coef ^ n.toNat % p ∧ t.xpow = a.xpow * n ∧
      t.ypow = a.ypow * n ∧ t.qpow = a.qpow * n ∧ t.var = a.var) ∧
    ((∃ t, a.powerModulo n p = .ok t) ↔ InI32 n ∧ InI32 (a.xpow * n) ∧
      InI32 (a.ypow * n) ∧ InI32 (a.qpow * n)) := by
  unfold Term.powerModulo
  by_cases hi : InI32 n
  · simp only [hi, not_true_eq_false, if_false, powerModulo_pos _ _ _ (show 0 < p by omega) hn, Res.ok_bind,
      Res.bind_eq_ok, chk_eq_ok, Res.ok.injEq, true_and]
    constructor
    · rintro t ⟨x, ⟨_, rfl⟩, y, ⟨_, rfl⟩, q, ⟨_, rfl⟩, rfl⟩
      exact ⟨rfl, rfl, rfl, rfl, rfl⟩
    · constructor
      · rintro ⟨t, x, ⟨h1, rfl⟩, y, ⟨h2, rfl⟩, q, ⟨h3, rfl⟩, _⟩
        exact ⟨h1, h2, h3⟩
      · rintro ⟨h1, h2, h3⟩
        exact ⟨_, _, ⟨h1, rfl⟩, _, ⟨h2, rfl⟩, _, ⟨h3, rfl⟩, rfl⟩
  · simp [hi]

theorem Term.val_scale {a t : Term} {x y q : ℤ} (hc : t.coef = a.coef)
    (hk : t.monomial.key = a.monomial.key.scale x y q) : t.val = substPow x y q a.val := by
  unfold Term.val
  rw [hc, hk, map_zsmul, Poly.substPow_val]

/-- C59: the substitutions `x ↦ x^n, y ↦ y^n`; `y ↦ y^n`; `q ↦ q^n` on terms. -/
theorem C59_substitutions (a t : Term) (n : ℤ) :
    (a.toFrob n = .ok t → t.val = substPow n n 1 a.val) ∧
    (a.toYPower n = .ok t → t.val = substPow 1 n 1 a.val) ∧
    (a.toQPower n = .ok t → t.val = substPow 1 1 n a.val) := by
  refine ⟨fun h => ?_, fun h => ?_, fun h => ?_⟩
  · obtain ⟨_, _, rfl⟩ := Term.toFrob_eq_ok.1 h
    exact Term.val_scale rfl (by simp [Monomial.key, Key.scale, Term.xpow, Term.ypow, Term.qpow, Term.var])
  · obtain ⟨_, rfl⟩ := Term.toYPower_eq_ok.1 h
    exact Term.val_scale rfl (by simp [Monomial.key, Key.scale, Term.xpow, Term.ypow, Term.qpow, Term.var])
  · obtain ⟨_, rfl⟩ := Term.toQPower_eq_ok.1 h
    exact Term.val_scale rfl (by simp [Monomial.key, Key.scale, Term.xpow, Term.ypow, Term.qpow, Term.var])

/-- C59: `modulo` and `modular_assign` agree; for `p ≥ 1` they reduce the coefficient to `[0, p)` and
keep the monomial; they panic for modulus 0. -/
theorem C59_modulo (a : Term) (p : ℤ) :
    a.modulo p = a.modularAssign p ∧
    (1 ≤ p → ∃ t, a.modulo p = .ok t ∧ t.coef = a.coef % p ∧ t.monomial = a.monomial) ∧
    (p = 0 → a.modulo p = .panic .explicit) := by
  refine ⟨?_, ?_, ?_⟩
  · unfold Term.modulo Term.modularAssign
    split_ifs
    · rfl
    · rfl
  · intro hp
    unfold Term.modulo
    rw [if_neg (by omega), fmod_pos_eq (by omega)]
    exact ⟨_, rfl, rfl, rfl⟩
  · rintro rfl; rfl

/-- C59: derivatives of terms. -/
theorem C59_derivative (a : Term) :
    (0 ≤ a.xpow → ∃ t, a.derivativeX = .ok t ∧ t.val = ddx a.val) ∧
    (0 ≤ a.ypow → ∃ t, a.derivativeY = .ok t ∧ t.val = ddy a.val) ∧
    (a.xpow < 0 → a.derivativeX = .panic .assertion) ∧
    (a.ypow < 0 → a.derivativeY = .panic .assertion) := by
  refine ⟨?_, ?_, ?_, ?_⟩
  · intro h
    unfold Term.derivativeX
    have : decide (a.xpow ≥ 0) = true := by simpa using h
    rw [this, rassert_true, Res.ok_bind]
    have hv : ddx a.val = AddMonoidAlgebra.single (a.monomial.key.expo.1 - 1, a.monomial.key.expo.2)
        (a.coef * a.xpow) := by
      unfold Term.val; rw [map_zsmul, ddx_val, AddMonoidAlgebra.smul_single]; rfl
    split_ifs with h1
    · refine ⟨_, rfl, ?_⟩
      rw [hv]
      unfold Term.val Key.val
      rw [AddMonoidAlgebra.smul_single, smul_eq_mul, mul_one]
      rfl
    · refine ⟨_, rfl, ?_⟩
      have h0 : a.xpow = 0 := by omega
      rw [hv, h0, mul_zero]
      simp [Term.val, TermBuilder.build, TermBuilder.coef]
  · intro h
    unfold Term.derivativeY
    have : decide (a.ypow ≥ 0) = true := by simpa using h
    rw [this, rassert_true, Res.ok_bind]
    have hv : ddy a.val = AddMonoidAlgebra.single
        (a.monomial.key.expo.1, a.monomial.key.expo.2.1 - 1, a.monomial.key.expo.2.2)
        (a.coef * a.ypow) := by
      unfold Term.val; rw [map_zsmul, ddy_val, AddMonoidAlgebra.smul_single]; rfl
    split_ifs with h1
    · refine ⟨_, rfl, ?_⟩
      rw [hv]
      unfold Term.val Key.val
      rw [AddMonoidAlgebra.smul_single, smul_eq_mul, mul_one]
      rfl
    · refine ⟨_, rfl, ?_⟩
      have h0 : a.ypow = 0 := by omega
      rw [hv, h0, mul_zero]
      simp [Term.val, TermBuilder.build, TermBuilder.coef]
  · intro h
    unfold Term.derivativeX
    have : decide (a.xpow ≥ 0) = false := by simpa using h
    rw [this]; rfl
  · intro h
    unfold Term.derivativeY
    have : decide (a.ypow ≥ 0) = false := by simpa using h
    rw [this]; rfl

/-- C59: the builder sets exactly the requested fields; the default term is 1. -/
theorem C59_builder (c x y q i j : ℤ) :
    (∀ t, ((((TermBuilder.new.coef c).xpow x).ypow y).qpow q).build = t →
      t.coef = c ∧ t.xpow = x ∧ t.ypow = y ∧ t.qpow = q ∧ t.var.empty = true) ∧
    (0 ≤ i → 0 ≤ j → ∃ b, TermBuilder.new.variableIJ i j = .ok b ∧ b.build.coef = 1 ∧
      b.build.var = { i := i, j := j, empty := false }) ∧
    (i < 0 ∨ j < 0 → TermBuilder.new.variableIJ i j = .panic .assertion) := by
  refine ⟨?_, ?_, ?_⟩
  · rintro t rfl; exact ⟨rfl, rfl, rfl, rfl, rfl⟩
  · intro hi hj
    unfold TermBuilder.variableIJ
    have h1 : decide (i ≥ 0) = true := by simpa using hi
    have h2 : decide (j ≥ 0) = true := by simpa using hj
    rw [h1, h2]
    exact ⟨_, rfl, rfl, rfl⟩
  · intro h
    unfold TermBuilder.variableIJ
    by_cases hi : i < 0
    · have h1 : decide (i ≥ 0) = false := by simpa using hi
      rw [h1]; rfl
    · have h1 : decide (i ≥ 0) = true := by simpa using hi
      have h2 : decide (j ≥ 0) = false := by simp; omega
      rw [h1, h2]; rfl

/-- C59: `is_equal_order` of two terms without variables and with nonzero coefficients says that they are multiples of
the same monomial. -/
theorem C59_is_equal_order (a b : Term) (ha : a.var.empty = true) (hb : b.var.empty = true) (ha0 : a.coef ≠ 0)
    (hb0 : b.coef ≠ 0) : a.isEqualOrder b = true ↔ b.coef • a.val = a.coef • b.val := by
  have hk : a.isEqualOrder b = true ↔ a.monomial.key = b.monomial.key := by
    unfold Term.isEqualOrder
    have h1 : a.monomial.var.key = none := SubVar.key_eq_none.2 ha
    have h2 : b.monomial.var.key = none := SubVar.key_eq_none.2 hb
    simp only [Monomial.key, h1, h2, Key.mk.injEq, Bool.and_eq_true, beq_iff_eq, and_true, Term.xpow, Term.ypow, Term.qpow,
      and_assoc]
  rw [hk]
  constructor
  · intro h
    rw [Term.val, Term.val, h, smul_smul, smul_smul, mul_comm]
  · intro h1
    apply Key.expo_injective
    rw [Term.val, Term.val, smul_smul, smul_smul, mul_comm] at h1
    have h3 := congrArg (fun f => f.coeff a.monomial.key.expo) h1
    simp only [Key.val, AddMonoidAlgebra.coeff_smul, Pi.smul_apply, Finsupp.smul_apply,
      AddMonoidAlgebra.coeff_single, Finsupp.single_apply, if_true, smul_eq_mul, mul_one] at h3
    by_contra hne
    rw [if_neg (fun h => hne h.symm)] at h3
    simp [ha0, hb0] at h3

/-! ### C65 -/

/-- C65: for a nonnegative exponent `n` of `q`, `Monomial::eval_q(v)` is `v^n`; it panics exactly if this is not in
`i32`. -/
theorem C65_eval_q (m : Monomial) (v : ℤ) (h : 0 ≤ m.qpow) :
    (∀ r, m.evalQ v = .ok r ↔ InI32 (v ^ m.qpow.toNat) ∧ r = v ^ m.qpow.toNat) ∧
    (¬ InI32 (v ^ m.qpow.toNat) → m.evalQ v = .panic .overflow) := by
  have e : m.evalQ v = chk (v ^ m.qpow.toNat) := by
    unfold Monomial.evalQ; rw [if_neg (by omega)]
  rw [e]
  exact ⟨fun r => chk_eq_ok, fun h => by simp [chk, h]⟩

/-- C65: for a negative `i32` exponent (which is reinterpreted as an exponent of at least `2^31`) it returns only for
`v = 0`, where the result is 0, and for `v = ±1`, where the result is `v^|n|`; otherwise it panics. -/
theorem C65_eval_q_negative (m : Monomial) (v : ℤ) (h : m.qpow < 0) (hm : InI32 m.qpow) :
    (v = 0 → m.evalQ v = .ok 0) ∧ (v = 1 ∨ v = -1 → m.evalQ v = .ok (v ^ (-m.qpow).toNat)) ∧
    (2 ≤ |v| → m.evalQ v = .panic .overflow) := by
  obtain ⟨n, hn, hn2, hpar⟩ : ∃ n : ℕ, m.evalQ v = chk (v ^ n) ∧ 2147483648 ≤ n ∧ n % 2 = (-m.qpow).toNat % 2 := by
    obtain ⟨h1, h2⟩ := hm
    refine ⟨(m.qpow + 4294967296).toNat, ?_, by omega, by omega⟩
    unfold Monomial.evalQ; rw [if_pos h]
  rw [hn]
  refine ⟨?_, ?_, ?_⟩
  · rintro rfl
    rw [zero_pow (by omega)]; rfl
  · rintro (rfl | rfl)
    · rw [one_pow, one_pow]; rfl
    · rcases Nat.even_or_odd n with he | ho
      · have : Even (-m.qpow).toNat := by rw [Nat.even_iff] at he ⊢; omega
        rw [he.neg_one_pow, this.neg_one_pow]; rfl
      · have : Odd (-m.qpow).toNat := by rw [Nat.odd_iff] at ho ⊢; omega
        rw [ho.neg_one_pow, this.neg_one_pow]; rfl
  · intro hv
    have h1 : (2 : ℤ) ^ 32 ≤ |v ^ n| := by
      rw [abs_pow]
      calc (2 : ℤ) ^ 32 ≤ |v| ^ 32 := pow_le_pow_left₀ (by norm_num) hv 32
        _ ≤ |v| ^ n := pow_le_pow_right₀ (by omega) (by omega)
    have h2 : ¬ InI32 (v ^ n) := by
      rintro ⟨h3, h4⟩
      have := abs_le.2 ⟨h3, h4.trans (by norm_num : (2147483647 : ℤ) ≤ 2147483648)⟩
      have h5 : (2 : ℤ) ^ 32 = 4294967296 := by norm_num
      rw [h5] at h1
      omega
    simp [chk, h2]

example : ((TermBuilder.new.coef 3).xpow 2).build.isEqualOrder ((TermBuilder.new.coef 5).xpow 2).build = true := by decide +kernel
example : (Monomial.mk 0 0 5 SubVar.new).evalQ (-3) = .ok (-243) := by decide +kernel
example : (Monomial.mk 0 0 31 SubVar.new).evalQ 2 = .panic .overflow := by decide +kernel
example : (Monomial.mk 0 0 (-3) SubVar.new).evalQ (-1) = .ok (-1) := by
  have := (C65_eval_q_negative (Monomial.mk 0 0 (-3) SubVar.new) (-1) (by decide) (by decide)).2.1 (.inr rfl)
  rw [this]; rfl

/-- Sample term `3 x^2 y`. -/
def sampleT : Term := (((TermBuilder.new.coef 3).xpow 2).ypow 1).build
example : sampleT.mul sampleT = .ok (((TermBuilder.new.coef 9).xpow 4).ypow 2).build := by decide +kernel
example : sampleT.power 3 = .ok (((TermBuilder.new.coef 27).xpow 6).ypow 3).build := by decide +kernel
example : sampleT.powerModulo 3 5 = .ok (((TermBuilder.new.coef 2).xpow 6).ypow 3).build := by decide +kernel
example : sampleT.derivativeX = .ok (((TermBuilder.new.coef 6).xpow 1).ypow 1).build := by decide +kernel
example : sampleT.div (TermBuilder.new.coef 2).build = .ok (((TermBuilder.new.coef 1).xpow 2).ypow 1).build := by
  decide +kernel
example : sampleT.toFrob 2147483647 = .panic .overflow := by decide +kernel

end EC
