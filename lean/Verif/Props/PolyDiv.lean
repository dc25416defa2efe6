import Verif.Lemmas.PolyDiv
import Verif.Props.PolyMaps
import Mathlib.RingTheory.Polynomial.Content

/-! Properties C15-C18 (division, gcd, monic form over GF(p)), C27 (degree), C28 (division by a
monomial). -/

namespace EC
open Poly Polynomial

/-! ### C27 -/

/-- C27: for a non-zero polynomial in `x` without stored zero coefficients, `degree_x` is its degree
and `highest_term_x` its leading term. -/
theorem C27_degree (f : Poly) (h : f.All Key.IsX) (hc : f.Canon) (h0 : f.isZero = false) :
    f.degreeX = .ok (f.polyX ℤ).natDegree ∧ f.highestTermX.xpow = (f.polyX ℤ).natDegree ∧
    f.highestTermX.coef = (f.polyX ℤ).leadingCoeff ∧ f.polyX ℤ ≠ 0 ∧
    f.highestTermX.ypow = 0 ∧ f.highestTermX.qpow = 0 ∧ f.highestTermX.var.empty = true := by
  have hne : f.entries ≠ [] := fun h1 => by rw [isZero_iff.2 h1] at h0; simp at h0
  have hl : ((f.highestTermX.coef : ℤ) : ℤ) ≠ 0 := by
    obtain ⟨e, he, h1, _⟩ := highestTermX_of_ne hne
    rw [h1]; exact hc e he
  have hN := polyX_natDegree (R := ℤ) h hl
  refine ⟨?_, ?_, by rw [hN.2.1]; simp, hN.2.2, highest_ypow h, highest_qpow h,
    SubVar.key_eq_none.1 (highest_isX h).2.2.2⟩
  · unfold degreeX
    rw [hasY_of_isX h, hasQ_of_isX h]
    simp only [Bool.not_false, rassert_true, Res.ok_bind, h0]
    rw [highest_xpow h, hN.1]; rfl
  · rw [highest_xpow h, hN.1]

/-- C27: the zero polynomial has `degree_x` 0. -/
theorem C27_zero (f : Poly) (h0 : f.isZero = true) : f.degreeX = .ok 0 ∧ f.highestTermX = Term.new := by
  have he := isZero_iff.1 h0
  refine ⟨?_, highestTermX_of_nil he⟩
  unfold degreeX
  rw [hasY_eq_false.2 (by simp [he]), hasQ_eq_false.2 (by simp [he])]
  simp [h0]

/-- C27: `degree_x` panics exactly when `y` or `q` occurs. -/
theorem C27_panics (f : Poly) :
    f.degreeX = .panic .assertion ↔ ∃ e ∈ f.entries, e.1.ypow ≠ 0 ∨ e.1.qpow ≠ 0 := by
  unfold degreeX
  cases hy : f.hasY with
  | true =>
    have : ¬ ∀ e ∈ f.entries, e.1.ypow = 0 := fun h => by rw [hasY_eq_false.2 h] at hy; simp at hy
    push Not at this
    obtain ⟨e, he, h⟩ := this
    simp only [Bool.not_true, rassert_false, Res.panic_bind, true_iff]
    exact ⟨e, he, Or.inl h⟩
  | false =>
    cases hq : f.hasQ with
    | true =>
      have : ¬ ∀ e ∈ f.entries, e.1.qpow = 0 := fun h => by rw [hasQ_eq_false.2 h] at hq; simp at hq
      push Not at this
      obtain ⟨e, he, h⟩ := this
      simp only [Bool.not_true, Bool.not_false, rassert_true, rassert_false, Res.ok_bind,
        Res.panic_bind, true_iff]
      exact ⟨e, he, Or.inr h⟩
    | false =>
      rw [hasY_eq_false] at hy
      rw [hasQ_eq_false] at hq
      constructor
      · intro h
        simp only [Bool.not_false, rassert_true, Res.ok_bind] at h
        split_ifs at h
      · rintro ⟨e, he, h | h⟩
        · exact absurd (hy e he) h
        · exact absurd (hq e he) h

example : sampleX1.degreeX = .ok 1 := by decide +kernel
example : sampleXYQ.degreeX = .panic .assertion := by decide +kernel
theorem isX_sampleX1 : sampleX1.All Key.IsX := by
  have : ∀ e ∈ sampleX1.entries, 0 ≤ e.1.key.x ∧ e.1.key.y = 0 ∧ e.1.key.q = 0 ∧ e.1.key.v = none := by
    decide +kernel
  exact this
theorem isX_sampleXm1 : sampleXm1.All Key.IsX := by
  have : ∀ e ∈ sampleXm1.entries, 0 ≤ e.1.key.x ∧ e.1.key.y = 0 ∧ e.1.key.q = 0 ∧ e.1.key.v = none := by
    decide +kernel
  exact this
example : sampleX1.Canon ∧ sampleX1.isZero = false := by
  refine ⟨?_, by decide +kernel⟩
  have : ∀ e ∈ sampleX1.entries, e.2 ≠ 0 := by decide +kernel
  exact this

/-! ### C28 -/

/-- C28: if `a / b` returns for `b` with the single stored term `c m` and `c` divides every
coefficient of `a`, then the quotient times `b` is `a`. -/
theorem C28_exact (a b Q : Poly) (m : Monomial) (c : ℤ) (hb : b.entries = [(m, c)])
    (hdvd : ∀ e ∈ a.entries, c ∣ e.2) (h : a.div b = .ok Q) : Q.val * b.val = a.val := by
  obtain ⟨h1, _, _, h4⟩ := div_single hb h
  by_cases h0 : a.entries = []
  · have hq : Q.val = 0 := by
      rw [val_eq_lin, lin_eq_fs, h4, h0]; simp
    rw [hq, zero_mul]; unfold Poly.val; rw [h0]; rfl
  · obtain ⟨hm, hc⟩ := h1 h0
    have hbv : b.val = c • m.key.val := by unfold Poly.val; rw [hb]; simp
    rw [val_eq_lin, lin_eq_fs, h4, map_list_sum, List.map_map, hbv, ← List.sum_map_mul_right]
    unfold Poly.val
    congr 1
    apply List.map_congr_left
    intro e he
    simp only [Function.comp, Finsupp.linearCombination_single]
    rw [smul_mul_smul_comm, Key.div_val (SubVar.key_eq_none.2 hm), Int.fdiv_mul_cancel_of_dvd (hdvd e he)]

/-- C28: in general the quotient is the termwise floor division of coefficients, and the terms
are shifted by the exponents of the divisor. -/
theorem C28_floor (a b Q : Poly) (m : Monomial) (c : ℤ) (hb : b.entries = [(m, c)])
    (h : a.div b = .ok Q) :
    (∀ e ∈ a.entries, Q.coef (Key.mk (e.1.xpow - m.xpow) (e.1.ypow - m.ypow)
      (e.1.qpow - m.qpow) e.1.var.key) = Int.fdiv e.2 c) ∧
    ∀ k, Q.coef k ≠ 0 → ∃ e ∈ a.entries, k = (Key.mk (e.1.xpow - m.xpow) (e.1.ypow - m.ypow)
      (e.1.qpow - m.qpow) e.1.var.key) := by
  obtain ⟨_, _, h3, _⟩ := div_single hb h
  constructor
  · intro e he
    have h5 := (h3 (e.1.key.div m.key) (Int.fdiv e.2 c)).2 ⟨e, he, rfl, rfl⟩
    change Q.coef (e.1.key.div m.key) = _
    rw [coef_eq, h5]; rfl
  · intro k hk
    rw [coef_eq] at hk
    cases h5 : Q.look k with
    | none => rw [h5] at hk; exact absurd rfl hk
    | some v =>
      obtain ⟨e, he, h6, _⟩ := (h3 k v).1 h5
      exact ⟨e, he, h6⟩

/-- C28: division of a non-zero polynomial returns exactly for a divisor with one stored term, with
non-zero coefficient and no variable, provided the exponent differences are in `i32`. -/
theorem C28_returns (a b : Poly) (ha : a.entries ≠ []) :
    ((∃ Q, a.div b = .ok Q) ↔ ∃ m c, b.entries = [(m, c)] ∧ c ≠ 0 ∧ m.var.empty = true ∧
      ∀ e ∈ a.entries, InI32 (e.1.xpow - m.xpow) ∧ InI32 (e.1.ypow - m.ypow) ∧
        InI32 (e.1.qpow - m.qpow)) ∧ a.div b ≠ .timeout := by
  refine ⟨⟨?_, ?_⟩, div_ne_timeout a b⟩
  · rintro ⟨Q, h⟩
    have hb : ∃ m c, b.entries = [(m, c)] := by
      unfold Poly.div at h
      split at h
      · simp at h
      · rename_i m c hb; exact ⟨m, c, hb⟩
      · simp at h
    obtain ⟨m, c, hb⟩ := hb
    obtain ⟨h1, h2, _, _⟩ := div_single hb h
    obtain ⟨h3, h4⟩ := h1 ha
    exact ⟨m, c, hb, h4, h3, h2⟩
  · rintro ⟨m, c, hb, hc, hm, h⟩
    exact div_single_ok hb hm hc h

/-- C28: the zero divisor and a divisor with several terms always panic. -/
theorem C28_panics (a b : Poly) (hb : b.entries.length ≠ 1) : a.div b = .panic .explicit := by
  unfold Poly.div
  split
  · rfl
  · rename_i h; rw [h] at hb; simp at hb
  · rfl

/-- C28: the variants with a `Term` and the assigning ones are the same division. -/
theorem C28_variants (a b : Poly) (t : Term) :
    a.divTerm t = a.div t.toPol ∧ Poly.termDiv t b = t.toPol.div b ∧ a.divAssign b = a.div b ∧
    a.divAssignTerm t = a.div t.toPol := ⟨rfl, rfl, rfl, rfl⟩

example : (sampleXYQ.divTerm (TermBuilder.new.coef 2).build >>= fun c => .ok (c.entries.map (·.2))) =
    .ok [-1, 2, 1] := by decide +kernel
example : sampleX1.div sampleX1 = .panic .explicit := by decide +kernel
example : sampleX1.div Poly.new = .panic .explicit := by decide +kernel

/-! ### C15 -/

theorem two_le_of_prime {p : ℤ} (hp : Nat.Prime p.toNat) : 2 ≤ p := by have := hp.two_le; omega

theorem deg_le_i32 {f : Poly} (h : ∀ e ∈ f.entries, e.1.xpow ≤ 2147483647) : f.deg ≤ 2147483647 :=
  deg_le_of_forall (m := 2147483647) (by simpa using h)

theorem lead_ne {p : ℤ} (hp : Nat.Prime p.toNat) {f : Poly} (h : ¬ p ∣ f.highestTermX.coef) :
    (f.highestTermX.coef : ZMod p.toNat) ≠ 0 := by
  have := two_le_of_prime hp
  rwa [ne_eq, zmod_eq_zero_iff (by omega)]

/-- C15: over a prime `p`, division of `f` by `g` (both in `x`, `g` of positive degree with leading
coefficient prime to `p`) terminates and gives the remainder in GF(p)[x]. -/
theorem C15_remainder (p : ℤ) [Fact (Nat.Prime p.toNat)] (f g : Poly)
    (hf : f.All Key.IsX) (hfi : ∀ e ∈ f.entries, e.1.xpow ≤ 2147483647) (hg : g.All Key.IsX)
    (hgl : ¬ p ∣ g.highestTermX.coef) (hgd : 0 < g.highestTermX.xpow) :
    ∃ r, Returns (fun fuel => f.polynomialModular fuel g p) r ∧
      r.polyX (ZMod p.toNat) = f.polyX (ZMod p.toNat) % g.polyX (ZMod p.toNat) ∧
      (r.polyX (ZMod p.toNat)).degree < (g.polyX (ZMod p.toNat)).degree ∧
      r.Reduced p ∧ r.Canon ∧ r.All Key.IsX := by
  have hl := lead_ne Fact.out hgl
  obtain ⟨v, h1, h2, h3, h4, h5, h6⟩ := polynomialModular_spec (two_le_of_prime Fact.out) hf
    (deg_le_i32 hfi) hg hl (by unfold deg; omega)
  refine ⟨v, ⟨f.deg + 2, fun fuel hfu => h1 fuel (by omega)⟩, h6, ?_, h4, h3, h2⟩
  rw [h6]
  exact EuclideanDomain.mod_lt _ (polyX_natDegree hg hl).2.2

/-- C15: for a constant or zero divisor it never returns (for every modulus at least 2). -/
theorem C15_diverges (p : ℤ) (hp : 2 ≤ p) (f g : Poly)
    (hf : f.All Key.IsX) (hfi : ∀ e ∈ f.entries, e.1.xpow ≤ 2147483647) (hg : g.All Key.IsX)
    (hgd : g.highestTermX.xpow = 0) :
    Diverges (fun fuel => f.polynomialModular fuel g p) := fun fuel =>
  polynomialModular_const hp hf hg (by unfold deg; omega) (deg_le_i32 hfi) fuel

/-- C15: a divisor with `y` or `q` makes it panic. -/
theorem C15_panics (p : ℤ) (f g : Poly) (fuel : ℕ)
    (h : ∃ e ∈ g.entries, e.1.ypow ≠ 0 ∨ e.1.qpow ≠ 0) :
    f.polynomialModular fuel g p = .panic .assertion := by
  obtain ⟨e, he, h⟩ := h
  unfold polynomialModular
  cases hy : g.hasY with
  | true => rfl
  | false =>
    cases hq : g.hasQ with
    | true => rfl
    | false =>
      rcases h with h | h
      · exact absurd (hasY_eq_false.1 hy e he) h
      · exact absurd (hasQ_eq_false.1 hq e he) h

/-- Sample `x^3 + 2`. -/
def sampleX3 : Poly := (TermBuilder.new.xpow 3).build.add (TermBuilder.new.coef 2).build
theorem isX_sampleX3 : sampleX3.All Key.IsX := by
  have : ∀ e ∈ sampleX3.entries, 0 ≤ e.1.key.x ∧ e.1.key.y = 0 ∧ e.1.key.q = 0 ∧ e.1.key.v = none := by
    decide +kernel
  exact this
instance : Fact (Nat.Prime (5 : ℤ).toNat) := ⟨by decide⟩
example : (sampleX3.polynomialModular 9 sampleX1 5 >>= fun c => .ok (c.entries.map (·.2))) = .ok [1] := by
  decide +kernel
example : ∃ r, Returns (fun fuel => sampleX3.polynomialModular fuel sampleX1 5) r ∧
      r.polyX (ZMod (5 : ℤ).toNat) = sampleX3.polyX _ % sampleX1.polyX _ := by
  obtain ⟨r, h1, h2, _⟩ := C15_remainder 5 sampleX3 sampleX1 isX_sampleX3 (by decide +kernel)
    isX_sampleX1 (by decide +kernel) (by decide +kernel)
  exact ⟨r, h1, h2⟩
example : Diverges (fun fuel => sampleX3.polynomialModular fuel Poly.one 5) :=
  C15_diverges 5 (by norm_num) _ _ isX_sampleX3 (by decide +kernel) (all_one (xn_isX 0)) (by decide +kernel)

/-! ### C16, C17 -/

/-- C16: for univariate `f`, `g` with leading coefficients prime to `p` that are not coprime over
GF(p), `gcd` returns the monic greatest common divisor, with coefficients in `[0, p)`. -/
theorem C16_gcd (p : ℤ) [Fact (Nat.Prime p.toNat)] (f g : Poly)
    (hf : f.All Key.IsX) (hfi : ∀ e ∈ f.entries, e.1.xpow ≤ 2147483647) (hfl : ¬ p ∣ f.highestTermX.coef)
    (hg : g.All Key.IsX) (hgi : ∀ e ∈ g.entries, e.1.xpow ≤ 2147483647) (hgl : ¬ p ∣ g.highestTermX.coef)
    (hco : ¬ IsCoprime (f.polyX (ZMod p.toNat)) (g.polyX (ZMod p.toNat))) :
    ∃ d, Returns (fun fuel => Poly.gcd fuel f g p) d ∧ (d.polyX (ZMod p.toNat)).Monic ∧
      (∀ e : (ZMod p.toNat)[X], e ∣ d.polyX (ZMod p.toNat) ↔
        e ∣ f.polyX (ZMod p.toNat) ∧ e ∣ g.polyX (ZMod p.toNat)) ∧
      d.Reduced p ∧ d.Canon ∧ d.All Key.IsX := by
  obtain ⟨v, h1, h2, h3, h4, h5, _, h6⟩ := gcd_spec (two_le_of_prime Fact.out) _ f g
    ⟨hf, lead_ne Fact.out hfl, deg_le_i32 hfi⟩ ⟨hg, lead_ne Fact.out hgl, deg_le_i32 hgi⟩ le_rfl hco
  refine ⟨v, ⟨_, h1⟩, h5, ?_, h4, h3, h2⟩
  intro e
  rw [h6.dvd_iff_dvd_right]
  exact ⟨fun h => ⟨h.trans (EuclideanDomain.gcd_dvd_left _ _), h.trans (EuclideanDomain.gcd_dvd_right _ _)⟩,
    fun h => EuclideanDomain.dvd_gcd h.1 h.2⟩

/-- C16: coprime inputs make `gcd` run for ever. -/
theorem C16_diverges (p : ℤ) [Fact (Nat.Prime p.toNat)] (f g : Poly)
    (hf : f.All Key.IsX) (hfi : ∀ e ∈ f.entries, e.1.xpow ≤ 2147483647) (hfl : ¬ p ∣ f.highestTermX.coef)
    (hg : g.All Key.IsX) (hgi : ∀ e ∈ g.entries, e.1.xpow ≤ 2147483647) (hgl : ¬ p ∣ g.highestTermX.coef)
    (hco : IsCoprime (f.polyX (ZMod p.toNat)) (g.polyX (ZMod p.toNat))) :
    Diverges (fun fuel => Poly.gcd fuel f g p) := fun fuel =>
  gcd_diverges (two_le_of_prime Fact.out) fuel f g
    ⟨hf, lead_ne Fact.out hfl, deg_le_i32 hfi⟩ ⟨hg, lead_ne Fact.out hgl, deg_le_i32 hgi⟩ hco

/-- C17 is false: for inputs with a common factor `is_gcd_one` answers `true`, for coprime inputs it
never answers.  So it is wrong for every pair of univariate inputs (with leading coefficients prime to
`p`). -/
theorem C17_is_gcd_one_refuted (p : ℤ) [Fact (Nat.Prime p.toNat)] (f g : Poly)
    (hf : f.All Key.IsX) (hfi : ∀ e ∈ f.entries, e.1.xpow ≤ 2147483647) (hfl : ¬ p ∣ f.highestTermX.coef)
    (hg : g.All Key.IsX) (hgi : ∀ e ∈ g.entries, e.1.xpow ≤ 2147483647) (hgl : ¬ p ∣ g.highestTermX.coef) :
    (¬ IsCoprime (f.polyX (ZMod p.toNat)) (g.polyX (ZMod p.toNat)) →
      Returns (fun fuel => Poly.isGcdOne fuel f g p) true) ∧
    (IsCoprime (f.polyX (ZMod p.toNat)) (g.polyX (ZMod p.toNat)) →
      Diverges (fun fuel => Poly.isGcdOne fuel f g p)) := by
  constructor
  · intro hco
    obtain ⟨v, ⟨N, h1⟩, h2, _⟩ := C16_gcd p f g hf hfi hfl hg hgi hgl hco
    refine ⟨N, fun fuel hfu => ?_⟩
    unfold isGcdOne
    have h1' : Poly.gcd fuel f g p = .ok v := h1 fuel hfu
    simp only [h1', Res.ok_bind]
    have : v.isZero = false := by
      by_contra h3
      have h4 := polyX_eq_zero_of_nil (R := ZMod p.toNat) (isZero_iff.1 (by simpa using h3))
      exact h2.ne_zero h4
    rw [this]; rfl
  · intro hco fuel
    unfold isGcdOne
    have h1 : Poly.gcd fuel f g p = .timeout := C16_diverges p f g hf hfi hfl hg hgi hgl hco fuel
    simp only [h1, Res.timeout_bind]

-- `x^3 + 2` and `x + 3` over GF(5): `x + 3` divides `x^3 + 2`
/-- Sample `x + 3`. -/
def sampleX3' : Poly := (TermBuilder.new.xpow 1).build.add (TermBuilder.new.coef 3).build
example : (Poly.gcd 20 sampleX3 sampleX3' 5 >>= fun c => .ok (c.entries.map (·.2))) = .ok [3, 1] := by
  decide +kernel
example : Poly.isGcdOne 20 sampleX3 sampleX3' 5 = .ok true := by decide +kernel
example : Poly.isGcdOne 20 sampleX1 sampleXm1 5 = .timeout := by decide +kernel
-- the hypotheses of the divergence theorem are met by `x + 1` and `x - 1`
example : Diverges (fun fuel => Poly.gcd fuel sampleX1 sampleXm1 5) := by
  refine C16_diverges 5 sampleX1 sampleXm1 isX_sampleX1 (by decide +kernel) (by decide +kernel)
    isX_sampleXm1 (by decide +kernel) (by decide +kernel) ?_
  have e1 : sampleX1.entries.map (fun e => (e.1.key, e.2)) =
      [(Key.xn 0, 1), (Key.xn 1, 1)] := by decide +kernel
  have e2 : sampleXm1.entries.map (fun e => (e.1.key, e.2)) =
      [(Key.xn 0, -1), (Key.xn 1, 1)] := by decide +kernel
  have key : ∀ f : Poly, f.polyX (ZMod (5 : ℤ).toNat) =
      ((f.entries.map (fun e => (e.1.key, e.2))).map fun e =>
        e.2 • e.1.evalAt (X : (ZMod (5 : ℤ).toNat)[X]) 0 0 0).sum := by
    intro f; unfold polyX evalAt; rw [List.map_map]; rfl
  rw [key, key, e1, e2]
  have h5 : (5 : (ZMod (5 : ℤ).toNat)[X]) = 0 := by
    have : (5 : ZMod (5 : ℤ).toNat) = 0 := by decide
    rw [show (5 : (ZMod (5 : ℤ).toNat)[X]) = C 5 from rfl, this, map_zero]
  refine ⟨3, -3, ?_⟩
  simp [Key.evalAt, Key.xn]
  linear_combination h5

/-! ### C18 -/

/-- C18: `to_monic`. -/
theorem C18_to_monic (p : ℤ) [Fact (Nat.Prime p.toNat)] (f : Poly)
    (hf : f.All Key.IsX) (hfi : ∀ e ∈ f.entries, e.1.xpow ≤ 2147483647) (hfl : ¬ p ∣ f.highestTermX.coef) :
    ∃ v, f.toMonic p = .ok v ∧ v.highestTermX.coef = 1 ∧ v.highestTermX.xpow = f.highestTermX.xpow ∧
      (v.polyX (ZMod p.toNat)).Monic ∧
      (∃ c : ZMod p.toNat, c ≠ 0 ∧ v.polyX (ZMod p.toNat) = C c * f.polyX (ZMod p.toNat)) ∧
      v.Reduced p ∧ v.Canon ∧ v.All Key.IsX := by
  have hl := lead_ne Fact.out hfl
  obtain ⟨v, h1, h2, h3, h4, h5, h6, h7⟩ := toMonic_spec (two_le_of_prime Fact.out) hf
    (deg_le_i32 hfi) hl
  have hF := polyX_natDegree hf hl
  refine ⟨v, h1, h6, by rw [highest_xpow h2, highest_xpow hf, h5], ?_, ⟨_, inv_ne_zero hl, h7⟩, h4, h3, h2⟩
  rw [Polynomial.Monic, h7, leadingCoeff_mul, leadingCoeff_C, hF.2.1, inv_mul_cancel₀ hl]

/-- C18: the zero polynomial is returned unchanged. -/
theorem C18_zero (p : ℤ) (f : Poly) (h : f.isZero = true) : f.toMonic p = .ok f := by
  unfold toMonic; rw [if_pos h]

example : (((TermBuilder.new.coef 2).xpow 1).build.add Term.one).toMonic 5 >>= (fun c =>
    .ok (c.entries.map (·.2))) = .ok [3, 1] := by decide +kernel

end EC
