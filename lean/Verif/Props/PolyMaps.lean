import Verif.Lemmas.PolyMap3
import Verif.Props.PolyRing
import Mathlib.Algebra.Polynomial.Derivative
import Mathlib.Algebra.Polynomial.Bivariate

/-! Properties C19, C22-C28: derivatives, evaluation, substitution, extraction, truncation, degree,
division by a monomial. -/

namespace EC
open Poly

/-! ### C19 -/

theorem ddx_val (k : Key) : ddx k.val = AddMonoidAlgebra.single (k.expo.1 - 1, k.expo.2) k.expo.1 := by
  unfold Key.val; rw [ddx_single, one_mul]

theorem ddy_val (k : Key) :
    ddy k.val = AddMonoidAlgebra.single (k.expo.1, k.expo.2.1 - 1, k.expo.2.2) k.expo.2.1 := by
  unfold Key.val; rw [ddy_single, one_mul]

/-- C19: `derivative_x` of a polynomial with non-negative `x`-exponents is `∂/∂x`, with no stored
zero. -/
theorem C19_derivative_x (f : Poly) (h : ∀ e ∈ f.entries, 0 ≤ e.1.xpow) :
    ∃ d, f.derivativeX = .ok d ∧ d.val = ddx f.val ∧ d.Canon := by
  refine ⟨_, derivativeX_ok h, ?_, canon_insAll_new (nodup_dX f) ?_⟩
  · rw [val_eq_lin, val_eq_lin, lin_insAll_new (nodup_dX f)]
    have := map_lin ddx.toAddMonoidHom Key.val f
    simp only [LinearMap.toAddMonoidHom_coe] at this
    rw [this]
    unfold dXEntries lin
    rw [sum_filter_ne_zero (fun e => e.1.key.val), List.map_map]
    congr 1
    apply List.map_congr_left
    intro e _
    simp only [Function.comp]
    rw [ddx_val]
    simp only [Key.val, AddMonoidAlgebra.smul_single, smul_eq_mul, mul_one]
    rfl
  · intro e he
    simpa [dXEntries] using (List.mem_filter.1 he).2

/-- C19: `derivative_y` of a polynomial with non-negative `y`-exponents is `∂/∂y`, with no stored
zero. -/
theorem C19_derivative_y (f : Poly) (h : ∀ e ∈ f.entries, 0 ≤ e.1.ypow) :
    ∃ d, f.derivativeY = .ok d ∧ d.val = ddy f.val ∧ d.Canon := by
  refine ⟨_, derivativeY_ok h, ?_, canon_insAll_new (nodup_dY f) ?_⟩
  · rw [val_eq_lin, val_eq_lin, lin_insAll_new (nodup_dY f)]
    have := map_lin ddy.toAddMonoidHom Key.val f
    simp only [LinearMap.toAddMonoidHom_coe] at this
    rw [this]
    unfold dYEntries lin
    rw [sum_filter_ne_zero (fun e => e.1.key.val), List.map_map]
    congr 1
    apply List.map_congr_left
    intro e _
    simp only [Function.comp]
    rw [ddy_val]
    simp only [Key.val, AddMonoidAlgebra.smul_single, smul_eq_mul, mul_one]
    rfl
  · intro e he
    simpa [dYEntries] using (List.mem_filter.1 he).2

/-- C19: a negative exponent makes the derivative panic. -/
theorem C19_panics (f : Poly) :
    ((∃ e ∈ f.entries, e.1.xpow < 0) → f.derivativeX = .panic .assertion) ∧
    ((∃ e ∈ f.entries, e.1.ypow < 0) → f.derivativeY = .panic .assertion) :=
  ⟨derivativeX_neg, derivativeY_neg⟩

/-- C19 for polynomials in `x` alone, in Mathlib's terms: the derivative in `ℤ[X]`. -/
theorem C19_univariate (f : Poly) (h : f.All Key.IsX) :
    ∃ d, f.derivativeX = .ok d ∧ d.polyX ℤ = Polynomial.derivative (f.polyX ℤ) := by
  refine ⟨_, derivativeX_ok (fun e he => (h e he).1), ?_⟩
  unfold polyX
  rw [evalAt_eq_lin, evalAt_eq_lin, lin_insAll_new (nodup_dX f)]
  have := map_lin Polynomial.derivative.toAddMonoidHom
    (Key.evalAt (Polynomial.X : Polynomial ℤ) 0 0 0) f
  simp only [LinearMap.toAddMonoidHom_coe] at this
  rw [this]
  unfold dXEntries lin
  rw [sum_filter_ne_zero (fun e => e.1.key.evalAt (Polynomial.X : Polynomial ℤ) 0 0 0), List.map_map]
  congr 1
  apply List.map_congr_left
  intro e he
  obtain ⟨h1, h2, h3, h4⟩ := h e he
  simp only [Monomial.key] at h1 h2 h3 h4
  simp only [Function.comp, Key.evalAt, Monomial.key, h2, h3, h4, Int.toNat_zero, pow_zero, mul_one,
    Polynomial.derivative_X_pow]
  obtain ⟨n, hn⟩ := Int.eq_ofNat_of_zero_le h1
  rw [hn]
  rcases n with _ | n
  · simp
  · simp [mul_assoc]

example : (sampleX1.derivativeX >>= fun c => .ok (c.entries.map (·.2))) = .ok [1] := by decide +kernel
example : (sampleXYQ.derivativeX >>= fun c => .ok (c.entries.map (·.2))) = .ok [6] := by decide +kernel
example : ∀ e ∈ sampleXYQ.entries, 0 ≤ e.1.xpow ∧ 0 ≤ e.1.ypow := by decide +kernel
example : (TermBuilder.new.xpow (-1)).build.toPol.derivativeX = .panic .assertion := by decide +kernel

/-! ### C22 -/

theorem Key.IsXY.nonneg {k : Key} (h : k.IsXY) : k.Nonneg := ⟨h.1, h.2.1, by rw [h.2.2.1]⟩
theorem Key.IsX.isXY {k : Key} (h : k.IsX) : k.IsXY := ⟨h.1, by rw [h.2.1], h.2.2.1, h.2.2.2⟩
theorem Key.IsX.nonneg {k : Key} (h : k.IsX) : k.Nonneg := h.isXY.nonneg

theorem evalXY_eq_evalAt {f : Poly} (h : f.All Key.IsXY) (x y : ℤ) :
    f.evalXY x y = f.evalAt x y 0 0 := by
  rw [evalXY_eq_lin, evalAt_eq_lin]
  apply lin_congr_fun
  intro e he
  obtain ⟨h1, h2, h3, h4⟩ := h e he
  simp only [Key.evalAt, h3, h4, power_eq_pow _ _ h1, power_eq_pow _ _ h2]
  simp

/-- C22: `eval_xy(x,y)` of a polynomial in `x`, `y` is its value at `(x, y)`. -/
theorem C22_eval_xy (f : Poly) (h : f.All Key.IsXY) (x y : ℤ) :
    f.evalXY x y = (f.polyXY ℤ).evalEval x y := by
  rw [evalXY_eq_evalAt h]
  unfold polyXY
  have := evalAt_map (Polynomial.evalEvalRingHom x y) (Polynomial.C Polynomial.X) Polynomial.X 0 0 f
  rw [Polynomial.coe_evalEvalRingHom] at this
  rw [this]
  simp only [Polynomial.evalEval_C, Polynomial.evalEval_X, Polynomial.evalEval_zero,
    Polynomial.eval_X, Pi.zero_apply]
  rfl

/-- C22: `eval_xy` is additive, for all polynomials. -/
theorem C22_additive (f g : Poly) (x y : ℤ) :
    (f.add g).evalXY x y = f.evalXY x y + g.evalXY x y ∧
    (f.sub g).evalXY x y = f.evalXY x y - g.evalXY x y := by
  simp only [evalXY_eq_lin, lin_add, lin_sub, and_self]

/-- C22: `eval_xy` is multiplicative on polynomials in `x`, `y`. -/
theorem C22_multiplicative (f g c : Poly) (hf : f.All Key.IsXY) (hg : g.All Key.IsXY)
    (h : f.mul g = .ok c) (x y : ℤ) : c.evalXY x y = f.evalXY x y * g.evalXY x y := by
  have hc : c.All Key.IsXY := all_mul hf hg (by
    rintro k k' ⟨h1, h2, h3, h4⟩ ⟨g1, g2, g3, g4⟩ _
    refine ⟨?_, ?_, ?_, ?_⟩ <;> simp only [Key.mul]
    · omega
    · omega
    · omega
    · simp [h4, g4]) h
  rw [evalXY_eq_evalAt hf, evalXY_eq_evalAt hg, evalXY_eq_evalAt hc]
  exact evalAt_mul _ _ _ _ (hf.mono fun _ h => h.nonneg) (hg.mono fun _ h => h.nonneg) h

/-- C22: `eval_x(x0)` replaces `x` by `x0` and leaves the rest: in every ring its value at
`(x, y, q, c)` is the value of `f` at `(x0, y, q, c)`, and `x` does not occur any more. -/
theorem C22_eval_x (f : Poly) (h : ∀ e ∈ f.entries, 0 ≤ e.1.xpow) (x0 : ℤ) :
    (∀ e ∈ (f.evalX x0).entries, e.1.xpow = 0) ∧
    ∀ (R : Type) [CommRing R] (x y q : R) (c : ℤ × ℤ → R),
      (f.evalX x0).evalAt x y q c = f.evalAt (x0 : R) y q c := by
  refine ⟨?_, ?_⟩
  · have := all_evalX (S := fun _ => True) (T := fun k => k.x = 0) (P := f) x0 (fun _ _ => trivial)
      (fun _ _ => rfl)
    exact this
  · intro R _ x y q c
    rw [evalAt_eq_lin, evalAt_eq_lin, lin_evalX]
    apply lin_congr_fun
    intro e he
    have h1 : 0 ≤ e.1.key.x := h e he
    simp only [Key.evalAt, power_eq_pow _ _ h1, Int.toNat_zero, pow_zero, one_mul, zsmul_eq_mul,
      Int.cast_pow]
    ring

/-- C22: `eval_y(y0)` likewise. -/
theorem C22_eval_y (f : Poly) (h : ∀ e ∈ f.entries, 0 ≤ e.1.ypow) (y0 : ℤ) :
    (∀ e ∈ (f.evalY y0).entries, e.1.ypow = 0) ∧
    ∀ (R : Type) [CommRing R] (x y q : R) (c : ℤ × ℤ → R),
      (f.evalY y0).evalAt x y q c = f.evalAt x (y0 : R) q c := by
  refine ⟨?_, ?_⟩
  · have := all_evalY (S := fun _ => True) (T := fun k => k.y = 0) (P := f) y0 (fun _ _ => trivial)
      (fun _ _ => rfl)
    exact this
  · intro R _ x y q c
    rw [evalAt_eq_lin, evalAt_eq_lin, lin_evalY]
    apply lin_congr_fun
    intro e he
    have h1 : 0 ≤ e.1.key.y := h e he
    simp only [Key.evalAt, power_eq_pow _ _ h1, Int.toNat_zero, pow_zero, mul_one, zsmul_eq_mul,
      Int.cast_pow]
    ring

/-- C22: `eval_x`, then `eval_y`, then `to_scalar` is `eval_xy`. -/
theorem C22_eval_chain (f : Poly) (h : f.All Key.IsXY) (x y : ℤ) :
    ((f.evalX x).evalY y).toScalar = .ok (f.evalXY x y) := by
  have h1 : (f.evalX x).All (fun k => k.x = 0 ∧ k.q = 0 ∧ k.v = none) :=
    all_evalX x h (fun k hk => ⟨rfl, hk.2.2.1, hk.2.2.2⟩)
  have h2 : ((f.evalX x).evalY y).All (fun k => k = Key.one) :=
    all_evalY y h1 (fun k hk => by
      rcases k with ⟨a, b, c, d⟩
      simp only at hk
      simp [Key.one, hk])
  rw [toScalar_of_all_one h2]
  congr 1
  have hc : ∀ P : Poly, P.coef Key.one = P.lin (fun k => if k = Key.one then (1 : ℤ) else 0) := by
    intro P; unfold coef lin; congr 1
    apply List.map_congr_left
    intro e _
    by_cases h : e.1.key = Key.one
    · rw [if_pos h]; simp [h]
    · rw [if_neg h]; simp [h]
  rw [hc, lin_evalY, lin_evalX, evalXY_eq_lin]
  apply lin_congr_fun
  intro e he
  obtain ⟨_, _, h3, h4⟩ := h e he
  have : ({ x := 0, y := 0, q := e.1.key.q, v := e.1.key.v } : Key) = Key.one := by
    rw [h3, h4]; rfl
  simp [this]

example : sampleX1.evalXY 4 7 = 5 := by decide +kernel
example : sampleX1.All Key.IsXY := by
  have : ∀ e ∈ sampleX1.entries, 0 ≤ e.1.key.x ∧ 0 ≤ e.1.key.y ∧ e.1.key.q = 0 ∧ e.1.key.v = none := by
    decide +kernel
  exact this

/-! ### C23 -/

/-- C23: whenever `eval_x_polynomial(F)` returns, all `x`-exponents are non-negative and the result
is the ring element obtained by replacing `x` by `F`. -/
theorem C23_eval_x_polynomial (f F c : Poly) (h : f.evalXPolynomial F = .ok c) :
    (∀ e ∈ f.entries, 0 ≤ e.1.xpow) ∧ c.val = f.substX F.val := by
  obtain ⟨h1, _, h2⟩ := evalXPolynomial_lin mulFn_val (fun _ _ => trivial) (fun _ _ => trivial) h
  exact ⟨h1, h2⟩

/-- C23: `eval_y_polynomial` likewise. -/
theorem C23_eval_y_polynomial (f F c : Poly) (h : f.evalYPolynomial F = .ok c) :
    (∀ e ∈ f.entries, 0 ≤ e.1.ypow) ∧ c.val = f.substY F.val := by
  obtain ⟨h1, _, h2⟩ := evalYPolynomial_lin mulFn_val (fun _ _ => trivial) (fun _ _ => trivial) h
  exact ⟨h1, h2⟩

/-- C23 for non-negative exponents, as an identity of values in every ring: the value of the result
at `(x, y, q, c)` is the value of `f` at `(F(x, y, q, c), y, q, c)`. -/
theorem C23_eval_x_polynomial_value (f F c : Poly) (hf : f.All Key.Nonneg) (hF : F.All Key.Nonneg)
    (h : f.evalXPolynomial F = .ok c) (R : Type) [CommRing R] (x y q : R) (v : ℤ × ℤ → R) :
    c.evalAt x y q v = f.evalAt (F.evalAt x y q v) y q v := by
  obtain ⟨_, _, h2⟩ := evalXPolynomial_lin (mulFn_evalAt x y q v) hF
    (hf.mono fun k hk => ⟨le_rfl, hk.2⟩) h
  rw [evalAt_eq_lin, h2, evalAt_eq_lin (P := F)]
  generalize F.lin (Key.evalAt x y q v) = w
  unfold evalAt
  congr 1
  apply List.map_congr_left
  intro e _
  simp only [Key.evalAt, Int.toNat_zero, pow_zero, one_mul, mul_assoc]
  rfl

/-- C23: `eval_y_polynomial`, values in every ring. -/
theorem C23_eval_y_polynomial_value (f F c : Poly) (hf : f.All Key.Nonneg) (hF : F.All Key.Nonneg)
    (h : f.evalYPolynomial F = .ok c) (R : Type) [CommRing R] (x y q : R) (v : ℤ × ℤ → R) :
    c.evalAt x y q v = f.evalAt x (F.evalAt x y q v) q v := by
  obtain ⟨_, _, h2⟩ := evalYPolynomial_lin (mulFn_evalAt x y q v) hF
    (hf.mono fun k hk => ⟨hk.1, le_rfl, hk.2.2⟩) h
  rw [evalAt_eq_lin, h2, evalAt_eq_lin (P := F)]
  generalize F.lin (Key.evalAt x y q v) = w
  unfold evalAt
  congr 1
  apply List.map_congr_left
  intro e _
  simp only [Key.evalAt, Int.toNat_zero, pow_zero, mul_one]
  have : ∀ a b c d : R, a * (b * c * d) = b * a * c * d := fun a b c d => by ring
  rw [this]
  rfl

-- substituting `x - 1` for `x` in `x + 1`
example : (sampleX1.evalXPolynomial sampleXm1 >>= fun c => .ok (c.entries.map (·.2))) = .ok [1] := by
  decide +kernel

/-! ### C24 -/

/-- C24: `to_frob(n)`, `n ≠ 0`, is the ring map `x ↦ x^n, y ↦ y^n`. -/
theorem C24_to_frob (f c : Poly) (n : ℤ) (hn : n ≠ 0) (h : f.toFrob n = .ok c) :
    c.val = substPow n n 1 f.val :=
  pass_scale h (fun e _ u hu => by
    obtain ⟨_, _, rfl⟩ := Term.toFrob_eq_ok.1 hu
    exact ⟨by simp [Monomial.key, Key.scale, Term.from', Term.xpow, Term.ypow, Term.qpow, Term.var], rfl⟩)
    hn hn one_ne_zero

/-- C24: `to_y_power(n)`, `n ≠ 0`, is the ring map `y ↦ y^n`. -/
theorem C24_to_y_power (f c : Poly) (n : ℤ) (hn : n ≠ 0) (h : f.toYPower n = .ok c) :
    c.val = substPow 1 n 1 f.val :=
  pass_scale h (fun e _ u hu => by
    obtain ⟨_, rfl⟩ := Term.toYPower_eq_ok.1 hu
    exact ⟨by simp [Monomial.key, Key.scale, Term.from', Term.xpow, Term.ypow, Term.qpow, Term.var], rfl⟩)
    one_ne_zero hn one_ne_zero

/-- C24: `to_q_power(n)`, `n ≠ 0`, is the ring map `q ↦ q^n`. -/
theorem C24_to_q_power (f c : Poly) (n : ℤ) (hn : n ≠ 0) (h : f.toQPower n = .ok c) :
    c.val = substPow 1 1 n f.val :=
  pass_scale h (fun e _ u hu => by
    obtain ⟨_, rfl⟩ := Term.toQPower_eq_ok.1 hu
    exact ⟨by simp [Monomial.key, Key.scale, Term.from', Term.xpow, Term.ypow, Term.qpow, Term.var], rfl⟩)
    one_ne_zero one_ne_zero hn

/-- C24: they return whenever the scaled exponents are in `i32`. -/
theorem C24_returns (f : Poly) (n : ℤ) :
    ((∀ e ∈ f.entries, InI32 (e.1.xpow * n) ∧ InI32 (e.1.ypow * n)) → ∃ c, f.toFrob n = .ok c) ∧
    ((∀ e ∈ f.entries, InI32 (e.1.ypow * n)) → ∃ c, f.toYPower n = .ok c) ∧
    ((∀ e ∈ f.entries, InI32 (e.1.qpow * n)) → ∃ c, f.toQPower n = .ok c) :=
  ⟨fun h => foldlM_insert_ok _ (fun e he => ⟨_, Term.toFrob_eq_ok.2 ⟨(h e he).1, (h e he).2, rfl⟩⟩),
   fun h => foldlM_insert_ok _ (fun e he => ⟨_, Term.toYPower_eq_ok.2 ⟨h e he, rfl⟩⟩),
   fun h => foldlM_insert_ok _ (fun e he => ⟨_, Term.toQPower_eq_ok.2 ⟨h e he, rfl⟩⟩)⟩

theorem substPow_mono (a b c i j k : ℤ) : substPow a b c (mono i j k) = mono (a * i) (b * j) (c * k) := by
  unfold substPow mono
  simp [AddMonoidAlgebra.mapDomainRingHom_apply, AddMonoidAlgebra.mapDomain_single, expoScale]

/-- C24 is false for `n = 0`: `(x + 1).to_frob(0)` is 1 while `x ↦ x^0` sends `x + 1` to 2. -/
theorem C24_to_frob_refuted : ∃ c, sampleX1.toFrob 0 = .ok c ∧ c.val = 1 ∧
    substPow 0 0 1 sampleX1.val = 2 := by
  have h1 : ∃ c, sampleX1.toFrob 0 = .ok c ∧ c.eq Poly.one = true := by
    refine ⟨(sampleX1.toFrob 0).rec (fun a => a) (fun _ => Poly.new) Poly.new, ?_, ?_⟩ <;>
      decide +kernel
  obtain ⟨c, hc, he⟩ := h1
  refine ⟨c, hc, (C11_eq_imp_val _ _ he).trans C09_zero_one.2.2, ?_⟩
  rw [sampleX1, (C09_add_term Poly.new _ _).2.2.2, map_add]
  have e1 : ((TermBuilder.new.xpow 1).build).val = mono 1 0 0 := by
    unfold Term.val mono
    simp [TermBuilder.build, TermBuilder.new, TermBuilder.xpow, Monomial.key, Key.val, Key.expo,
      SubVar.key, SubVar.new]
  have e2 : Term.one.val = 1 := by rw [← C09_to_pol]; exact C09_zero_one.2.2
  rw [e1, e2, substPow_mono, map_one]
  have e3 : mono (0 * 1) (0 * 0) (1 * 0) = 1 := rfl
  rw [e3, one_add_one_eq_two]

example : (sampleX1.toFrob 3 >>= fun c => .ok (c.entries.map (·.1.xpow))) = .ok [0, 3] := by
  decide +kernel
example : (sampleXYQ.toQPower 2 >>= fun c => .ok (c.entries.map (·.1.qpow))) = .ok [-2, 0, 0] := by
  decide +kernel

/-! ### C25 -/

theorem toQPowerCoef_look {f c : Poly} {pw : ℤ} (h : f.toQPowerCoef pw = .ok c) :
    (∀ e ∈ f.entries, e.1.xpow = 0) ∧ (∀ e ∈ f.entries, e.1.ypow = 0) ∧
    c.fs = ((f.entries.filter fun e => e.1.qpow = pw).map fun e =>
      Finsupp.single ({ x := 0, y := 0, q := 0, v := e.1.key.v } : Key) e.2).sum ∧
    c.All (fun k => k.x = 0 ∧ k.y = 0 ∧ k.q = 0) := by
  unfold toQPowerCoef at h
  simp only [Res.bind_eq_ok, rassert_eq_ok, Res.ok.injEq, Bool.not_eq_true', hasX_eq_false,
    hasY_eq_false] at h
  obtain ⟨_, hx, _, hy, h⟩ := h
  have hins : c = insAll ((f.entries.filter fun e => e.1.qpow = pw).map fun e =>
      (({ xpow := 0, ypow := 0, qpow := 0, var := e.1.var } : Monomial), e.2)) new := by
    rw [← h]
    generalize new = Q
    clear h hx hy
    induction f.entries generalizing Q with
    | nil => rfl
    | cons a t ih =>
      rw [List.foldl_cons, List.filter_cons, ih]
      by_cases h1 : a.1.qpow = pw
      · rw [if_pos h1, if_pos (by simpa using h1)]; rfl
      · rw [if_neg h1, if_neg (by simpa using h1)]
  refine ⟨hx, hy, ?_, ?_⟩
  · have hnd : (((f.entries.filter fun e => e.1.qpow = pw).map fun e =>
      (({ xpow := 0, ypow := 0, qpow := 0, var := e.1.var } : Monomial), e.2)).map (·.1.key)).Nodup := by
      rw [List.map_map, List.Nodup, List.pairwise_map]
      refine (List.Pairwise.filter _ (List.pairwise_map.1 f.keys_nodup)).imp_of_mem ?_
      intro a b ha hb hab h
      rw [List.mem_filter, decide_eq_true_eq] at ha hb
      apply hab
      simp only [Function.comp, Monomial.key, Key.mk.injEq, true_and] at h
      simp only [Monomial.key, Key.mk.injEq]
      exact ⟨(hx a ha.1).trans (hx b hb.1).symm, (hy a ha.1).trans (hy b hb.1).symm,
        ha.2.trans hb.2.symm, h⟩
    rw [hins, fs_insAll_new hnd, List.map_map]
    rfl
  · rw [hins]
    unfold insAll
    exact all_foldl (S := fun k => k.x = 0 ∧ k.y = 0 ∧ k.q = 0)
      (f := fun pol e => pol.insert e.1 e.2) (fun P e h1 h2 => all_insert h1 h2 _)
      (by
        intro e he
        obtain ⟨e', _, rfl⟩ := List.mem_map.1 he
        exact ⟨rfl, rfl, rfl⟩) all_new

/-- C25: for `f` in `q` and variables, `f = ∑_k q^k * to_q_power_coef(k)` (over any finite range of
`k` that contains the `q`-exponents of `f`), and the coefficients contain no `x`, `y`, `q`. -/
theorem C25_to_q_power_coef (f : Poly) (K : Finset ℤ) (hK : ∀ e ∈ f.entries, e.1.qpow ∈ K)
    (c : ℤ → Poly) (hc : ∀ k, f.toQPowerCoef k = .ok (c k)) :
    f.val = ∑ k ∈ K, mono 0 0 k * (c k).val ∧
    ∀ k, ∀ e ∈ (c k).entries, e.1.xpow = 0 ∧ e.1.ypow = 0 ∧ e.1.qpow = 0 := by
  constructor
  · have hx := (toQPowerCoef_look (hc 0)).1
    have hy := (toQPowerCoef_look (hc 0)).2.1
    have hsum : ∀ k, mono 0 0 k * (c k).val = ((f.entries.filter fun e => e.1.qpow = k).map fun e =>
        e.2 • e.1.key.val).sum := by
      intro k
      rw [val_eq_lin, lin_eq_fs, (toQPowerCoef_look (hc k)).2.2.1, map_list_sum, List.map_map,
        ← List.sum_map_mul_left]
      congr 1
      apply List.map_congr_left
      intro e he
      rw [List.mem_filter, decide_eq_true_eq] at he
      simp only [Function.comp, Finsupp.linearCombination_single, mul_smul_comm]
      congr 1
      unfold mono Key.val
      rw [AddMonoidAlgebra.single_mul_single, mul_one]
      congr 1
      simp [Key.expo, Monomial.key, hx e he.1, hy e he.1, he.2]
    rw [Finset.sum_congr rfl (fun k _ => hsum k)]
    unfold val
    clear hsum hc hx hy
    generalize f.entries = l at hK ⊢
    induction l with
    | nil => simp
    | cons a t ih =>
      rw [List.map_cons, List.sum_cons, ih (fun e he => hK e (by simp [he]))]
      have hstep : ∀ k, ((List.filter (fun e : Monomial × ℤ => e.1.qpow = k) (a :: t)).map fun e =>
          e.2 • e.1.key.val).sum = (if a.1.qpow = k then a.2 • a.1.key.val else 0) +
          ((t.filter fun e => e.1.qpow = k).map fun e => e.2 • e.1.key.val).sum := by
        intro k
        rw [List.filter_cons]
        by_cases h : a.1.qpow = k
        · rw [if_pos (by simpa using h), if_pos h]; simp
        · rw [if_neg (by simpa using h), if_neg h]; simp
      rw [Finset.sum_congr rfl (fun k _ => hstep k), Finset.sum_add_distrib, Finset.sum_ite_eq]
      rw [if_pos (hK a (by simp))]
  · intro k e he
    exact (toQPowerCoef_look (hc k)).2.2.2 e he

/-- C25: `to_q_power_coef` returns exactly when neither `x` nor `y` occurs, and panics otherwise. -/
theorem C25_to_q_power_coef_returns (f : Poly) (k : ℤ) :
    ((∃ c, f.toQPowerCoef k = .ok c) ↔ ∀ e ∈ f.entries, e.1.xpow = 0 ∧ e.1.ypow = 0) ∧
    ((∃ e ∈ f.entries, e.1.xpow ≠ 0 ∨ e.1.ypow ≠ 0) → f.toQPowerCoef k = .panic .assertion) := by
  refine ⟨⟨?_, ?_⟩, ?_⟩
  · rintro ⟨c, hc⟩ e he
    exact ⟨(toQPowerCoef_look hc).1 e he, (toQPowerCoef_look hc).2.1 e he⟩
  · intro h
    unfold toQPowerCoef
    rw [hasX_eq_false.2 (fun e he => (h e he).1), hasY_eq_false.2 (fun e he => (h e he).2)]
    exact ⟨_, rfl⟩
  · rintro ⟨e, he, h⟩
    unfold toQPowerCoef
    by_cases hx : f.hasX = true
    · rw [hx]; rfl
    · have hx' : f.hasX = false := by simpa using hx
      have hy : f.hasY = true := by
        by_contra hy
        have hy' : f.hasY = false := by simpa using hy
        have h1 := hasX_eq_false.1 hx' e he
        have h2 := hasY_eq_false.1 hy' e he
        rcases h with h | h
        · exact h h1
        · exact h h2
      rw [hx', hy]; rfl

/-- C25: `to_variable_coef(v)` of a polynomial without `x`, `y`, `q` is the coefficient of `v` (of
the constant term, for the empty variable). -/
theorem C25_to_variable_coef (f : Poly) (v : SubVar)
    (h : ∀ e ∈ f.entries, e.1.xpow = 0 ∧ e.1.ypow = 0 ∧ e.1.qpow = 0) :
    f.toVariableCoef v = .ok (f.coef { x := 0, y := 0, q := 0, v := v.key }) := by
  unfold toVariableCoef
  rw [hasX_eq_false.2 (fun e he => (h e he).1), hasY_eq_false.2 (fun e he => (h e he).2.1),
    hasQ_eq_false.2 (fun e he => (h e he).2.2), coef_eq]
  simp only [Bool.not_false, rassert_true, Res.ok_bind, look, lookL]
  have hfind : f.entries.find? (fun e => SubVar.eq e.1.var v) =
      f.entries.find? (fun e => e.1.key = { x := 0, y := 0, q := 0, v := v.key }) := by
    have : ∀ l : List (Monomial × Int), (∀ e ∈ l, e.1.xpow = 0 ∧ e.1.ypow = 0 ∧ e.1.qpow = 0) →
        l.find? (fun e => SubVar.eq e.1.var v) =
        l.find? (fun e => e.1.key = { x := 0, y := 0, q := 0, v := v.key }) := by
      intro l hl
      induction l with
      | nil => rfl
      | cons a t ih =>
        rw [List.find?_cons, List.find?_cons, ih (fun e he => hl e (by simp [he]))]
        obtain ⟨h1, h2, h3⟩ := hl a (by simp)
        have : SubVar.eq a.1.var v = decide (a.1.key = { x := 0, y := 0, q := 0, v := v.key }) := by
          rw [Bool.eq_iff_iff, SubVar.eq_iff, decide_eq_true_eq]
          simp [Monomial.key, h1, h2, h3]
        rw [this]
    exact this _ h
  rw [hfind]
  cases f.entries.find? (fun e => decide (e.1.key = { x := 0, y := 0, q := 0, v := v.key })) <;> rfl

/-- C25: `to_variable_coef` panics if `x`, `y` or `q` occurs. -/
theorem C25_to_variable_coef_panics (f : Poly) (v : SubVar)
    (h : ∃ e ∈ f.entries, e.1.xpow ≠ 0 ∨ e.1.ypow ≠ 0 ∨ e.1.qpow ≠ 0) :
    f.toVariableCoef v = .panic .assertion := by
  obtain ⟨e, he, h⟩ := h
  unfold toVariableCoef
  cases hx : f.hasX with
  | true => rfl
  | false =>
    cases hy : f.hasY with
    | true => rfl
    | false =>
      cases hq : f.hasQ with
      | true => rfl
      | false =>
        have h1 := hasX_eq_false.1 hx e he
        have h2 := hasY_eq_false.1 hy e he
        have h3 := hasQ_eq_false.1 hq e he
        rcases h with h | h | h
        · exact absurd h1 h
        · exact absurd h2 h
        · exact absurd h3 h

theorem toScalar_cases (f : Poly) (hv : ∀ e ∈ f.entries, e.1.var.key = none) (hc : f.Canon) :
    (∃ c, f.toScalar = .ok c ∧ f.val = (c : LRing)) ∨ (f.toScalar = .panic .explicit ∧ ∀ c : ℤ, f.val ≠ (c : LRing)) := by
  by_cases h : ∀ e ∈ f.entries, e.1.key = Key.one
  · left
    refine ⟨_, toScalar_of_all_one h, ?_⟩
    have h1 : (Key.one.val : LRing) = 1 := rfl
    have h2 : ∀ l : List (Monomial × ℤ), (∀ e ∈ l, e.1.key = Key.one) →
        (l.map fun e => e.2 • e.1.key.val).sum = (((l.map fun e => if e.1.key = Key.one then e.2 else 0).sum : ℤ) : LRing) := by
      intro l hl
      induction l with
      | nil => simp
      | cons e t ih =>
        rw [List.map_cons, List.sum_cons, ih fun e he => hl e (by simp [he]), List.map_cons, List.sum_cons,
          if_pos (hl e (by simp)), hl e (by simp), h1, zsmul_eq_mul, mul_one, Int.cast_add]
    exact h2 _ h
  · right
    push Not at h
    obtain ⟨e, he, hk⟩ := h
    constructor
    · unfold toScalar
      match hf : f.entries with
      | [] => rw [hf] at he; simp at he
      | [(m, c)] =>
        rw [hf] at he
        simp only [List.mem_singleton] at he
        subst he
        have := hv (m, c) (by rw [hf]; simp)
        dsimp only at hk this ⊢
        split_ifs with h1 h2 h3
        · rfl
        · rfl
        · rfl
        · exact absurd (by simp only [Monomial.key, Key.one, Key.mk.injEq]; exact ⟨by omega, by omega, by omega, this⟩) hk
      | _ :: _ :: _ => rfl
    · intro c hval
      have h1 := val_coeff f e.1.key
      rw [← coef_eq_fs, coef_eq, look_of_mem he, hval] at h1
      have h2 : ((c : LRing)).coeff e.1.key.expo = 0 := by
        have h3 : (c : LRing) = AddMonoidAlgebra.single (Key.one).expo c := by
          have : ((1 : LRing)) = AddMonoidAlgebra.single (Key.one).expo 1 := rfl
          rw [← zsmul_one, this, AddMonoidAlgebra.smul_single]; simp
        rw [h3, AddMonoidAlgebra.coeff_single, Finsupp.single_apply, if_neg]
        rw [Key.expo_injective.eq_iff]
        exact fun h => hk h.symm
      rw [h2] at h1
      exact hc e he h1.symm

/-- C25: `to_scalar` of a polynomial in `x`, `y`, `q` without stored zeros returns `c` exactly if the polynomial is the
constant `c`. -/
theorem C25_to_scalar (f : Poly) (hv : ∀ e ∈ f.entries, e.1.var.key = none) (hc : f.Canon) (c : ℤ) :
    f.toScalar = .ok c ↔ f.val = (c : LRing) := by
  rcases toScalar_cases f hv hc with ⟨d, h1, h2⟩ | ⟨h1, h2⟩
  · rw [h1, h2]
    constructor
    · intro h; cases h; rfl
    · intro h
      have h3 : ∀ n : ℤ, ((n : LRing)).coeff (Key.one).expo = n := by
        intro n
        have : ((1 : LRing)) = AddMonoidAlgebra.single (Key.one).expo 1 := rfl
        rw [← zsmul_one, this, AddMonoidAlgebra.smul_single, AddMonoidAlgebra.coeff_single]; simp
      rw [← h3 d, h, h3]
  · rw [h1]
    exact ⟨fun h => by (cases h), fun h => absurd h (h2 c)⟩

/-- C25: `to_scalar` panics exactly if the polynomial is not constant. -/
theorem C25_to_scalar_panics (f : Poly) (hv : ∀ e ∈ f.entries, e.1.var.key = none) (hc : f.Canon) :
    f.toScalar = .panic .explicit ↔ ∀ c : ℤ, f.val ≠ (c : LRing) := by
  rcases toScalar_cases f hv hc with ⟨d, h1, h2⟩ | ⟨h1, h2⟩
  · rw [h1]
    exact ⟨fun h => by (cases h), fun h => absurd h2 (h d)⟩
  · exact ⟨fun _ => h2, fun _ => h1⟩

/-- The subscripted variables are not looked at: `to_scalar` of `5 c_0_1` is 5. -/
theorem C25_to_scalar_variable :
    (((TermBuilder.new.coef 5).var { i := 0, j := 1, empty := false }).build.toPol).toScalar = .ok 5 := by decide

example : (TermBuilder.new.coef 5).build.toPol.toScalar = .ok 5 ∧
    ((TermBuilder.new.coef 5).qpow 2).build.toPol.toScalar = .panic .explicit := by decide

/-- Sample `2 q^3 c_0_1 + 7 q^3 - q`. -/
def sampleQ : Poly :=
  (((((TermBuilder.new.coef 2).qpow 3).var { i := 0, j := 1, empty := false }).build).add
    ((TermBuilder.new.coef 7).qpow 3).build).subTerm (TermBuilder.new.qpow 1).build

example : (sampleQ.toQPowerCoef 3 >>= fun c => .ok (c.entries.map (·.2))) = .ok [7, 2] := by
  decide +kernel
example : ∀ e ∈ sampleQ.entries, e.1.qpow ∈ ({1, 3} : Finset ℤ) := by decide +kernel
example : (sampleQ.toQPowerCoef 3 >>= fun c => c.toVariableCoef { i := 0, j := 1, empty := false }) =
    .ok 2 := by decide +kernel

/-! ### C26 -/

/-- C26: `omit_high_order_q(N)` keeps exactly the terms of `q`-order at most `N` (in the same
order), provided neither `x` nor `y` occurs. -/
theorem C26_omit (f : Poly) (N : ℤ) (hN : InI32 (N + 1))
    (h : ∀ e ∈ f.entries, e.1.xpow = 0 ∧ e.1.ypow = 0) :
    ∃ c, f.omitHighOrderQ N = .ok c ∧ c.entries = f.entries.filter (fun e => e.1.qpow ≤ N) := by
  obtain ⟨c, hc⟩ := omitHighOrderQ_ok (P := f) (fun e he => (h e he).1) (fun e he => (h e he).2) hN
  exact ⟨c, hc, (omitHighOrderQ_eq_ok hc).2.2.2⟩

/-- C26: it panics if `x` or `y` occurs, or if `N + 1` is not an `i32`. -/
theorem C26_omit_returns_only (f c : Poly) (N : ℤ) (h : f.omitHighOrderQ N = .ok c) :
    (∀ e ∈ f.entries, e.1.xpow = 0 ∧ e.1.ypow = 0) ∧ InI32 (N + 1) := by
  obtain ⟨h1, h2, h3, _⟩ := omitHighOrderQ_eq_ok h
  exact ⟨fun e he => ⟨h1 e he, h2 e he⟩, h3⟩

/-- C26: `power_omit_high_order_q(n, N)` is congruent to the `n`-th power modulo `q^(N+1)`, in every
ring in which `x`, `y`, `q`, `c_i_j` take values, and has no term of order above `N`. -/
theorem C26_power_omit (f c : Poly) (n N : ℤ) (hf : f.All Key.Nonneg) (hN : 0 ≤ N)
    (h : f.powerOmitHighOrderQ n N = .ok c) :
    (∀ e ∈ c.entries, 0 ≤ e.1.qpow ∧ e.1.qpow ≤ N) ∧
    ∀ (R : Type) [CommRing R] (x y q : R) (v : ℤ × ℤ → R),
      q ^ (N + 1).toNat ∣ f.evalAt x y q v ^ n.toNat - c.evalAt x y q v := by
  constructor
  · intro e he
    have := (powerOmit_spec (R := ℤ) 0 0 0 0 hf hN h).1 e he
    exact ⟨this.1.2.2, this.2⟩
  · intro R _ x y q v
    exact (powerOmit_spec x y q v hf hN h).2

/-- C26: it returns for every `f` in `q` alone with exponents in `[0, m]`, if `N + m` and `N + 1`
are in `i32`. -/
theorem C26_power_omit_returns (f : Poly) (n N m : ℤ)
    (hf : ∀ e ∈ f.entries, e.1.xpow = 0 ∧ e.1.ypow = 0 ∧ 0 ≤ e.1.qpow ∧ e.1.qpow ≤ m ∧
      e.1.var.empty = true)
    (hN : 0 ≤ N) (hN' : N + 1 ≤ 2147483647) (hNm : N + m ≤ 2147483647) :
    ∃ c, f.powerOmitHighOrderQ n N = .ok c := by
  obtain ⟨c, hc, _⟩ := powerOmit_ok (P := f) (n := n) (m := m) (N := N) (fun e he => by
    obtain ⟨h1, h2, h3, h4, h5⟩ := hf e he
    exact ⟨h1, h2, h3, h4, SubVar.key_eq_none.2 h5⟩) hN hN' hNm
  exact ⟨c, hc⟩

/-- Sample `1 - q`. -/
def sample1mq : Poly := Term.one.sub (TermBuilder.new.qpow 1).build

example : (sampleQ.omitHighOrderQ 2 >>= fun c => .ok (c.entries.map (·.2))) = .ok [-1] := by
  decide +kernel
example : (sample1mq.powerOmitHighOrderQ 4 2 >>= fun c => .ok (c.entries.map (·.2))) =
    .ok [1, -4, 6] := by decide +kernel
example : ∀ e ∈ sample1mq.entries, 0 ≤ e.1.key.x ∧ 0 ≤ e.1.key.y ∧ 0 ≤ e.1.key.q := by decide +kernel

end EC
