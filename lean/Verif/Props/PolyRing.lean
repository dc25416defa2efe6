import Verif.Lemmas.PolyPow
import Verif.Lemmas.BigInt
import Mathlib.RingTheory.Ideal.Quotient.Defs
import Mathlib.RingTheory.Ideal.Quotient.Basic
import Mathlib.RingTheory.Ideal.Span

/-! Properties C09-C14: ring operations on polynomials. -/

namespace EC

/-- Sample polynomial `x + 1`. -/
def sampleX1 : Poly := (TermBuilder.new.xpow 1).build.add Term.one
/-- Sample polynomial `x - 1`. -/
def sampleXm1 : Poly := (TermBuilder.new.xpow 1).build.sub Term.one
/-- Sample polynomial `3 x^2 y - q^(-1) + 5 c_1_2`. -/
def sampleXYQ : Poly :=
  ((((TermBuilder.new.coef 3).xpow 2).ypow 1).build.sub (TermBuilder.new.qpow (-1)).build).addTerm
    ((TermBuilder.new.coef 5).var { i := 1, j := 2, empty := false }).build

/-! ### C09 -/

/-- C09: `Polynomial + Polynomial`, `+=`. -/
theorem C09_add (a b : Poly) :
    (a.add b).val = a.val + b.val ∧ (a.addAssign b).val = a.val + b.val :=
  ⟨Poly.lin_add _ _ _, Poly.lin_addAssign _ _ _⟩

/-- C09: `Polynomial - Polynomial`, `-=`. -/
theorem C09_sub (a b : Poly) :
    (a.sub b).val = a.val - b.val ∧ (a.subAssign b).val = a.val - b.val :=
  ⟨Poly.lin_sub _ _ _, Poly.lin_subAssign _ _ _⟩

/-- C09: unary minus. -/
theorem C09_neg (a : Poly) : a.neg.val = -a.val := Poly.lin_neg _ _

/-- C09: the polynomial of a term has the term's value. -/
theorem C09_to_pol (t : Term) : t.toPol.val = t.val := Poly.lin_toPol _ _

/-- C09: sums with a `Term` on either side, and `+=` with a `Term`. -/
theorem C09_add_term (a : Poly) (t u : Term) :
    (a.addTerm t).val = a.val + t.val ∧ (Poly.termAdd t a).val = t.val + a.val ∧
    (a.addAssignTerm t).val = a.val + t.val ∧ (t.add u).val = t.val + u.val := by
  refine ⟨Poly.lin_addTerm _ _ _, ?_, Poly.lin_addAssignTerm _ _ _, Poly.lin_termAddTerm _ _ _⟩
  unfold Poly.termAdd
  rw [(C09_add _ _).1, C09_to_pol]

theorem Term.val_neg (t : Term) : t.neg.val = -t.val := by
  unfold Term.val; rw [← neg_smul]; rfl

/-- C09: differences with a `Term` on either side. -/
theorem C09_sub_term (a : Poly) (t u : Term) :
    (a.subTerm t).val = a.val - t.val ∧ (Poly.termSub t a).val = t.val - a.val ∧
    (t.sub u).val = t.val - u.val := by
  refine ⟨?_, ?_, ?_⟩
  · unfold Poly.subTerm; rw [(C09_add _ _).1, C09_neg, C09_to_pol, sub_eq_add_neg]
  · unfold Poly.termSub; rw [(C09_add _ _).1, C09_neg, C09_to_pol, sub_eq_add_neg]
  · unfold Term.sub; rw [(C09_add_term Poly.new _ _).2.2.2, Term.val_neg, sub_eq_add_neg]

/-- C09: the constants 0 and 1. -/
theorem C09_zero_one : Poly.zero.val = 0 ∧ Poly.new.val = 0 ∧ Poly.one.val = 1 :=
  ⟨rfl, rfl, (Poly.lin_one _).trans rfl⟩

/-- `is_zero()` is true exactly when nothing is stored; without stored zeros that means value 0. -/
theorem C09_is_zero (a : Poly) (ha : a.Canon) : a.isZero = true ↔ a.val = 0 := by
  constructor
  · intro h
    have : a.entries = [] := by simpa [Poly.isZero, Poly.len] using h
    simp [Poly.val, this]
  · intro h
    have : a.fs = Poly.new.fs := Poly.val_injective.1 (h.trans C09_zero_one.2.1.symm)
    have h2 := Poly.eq_iff_kv.1 (Poly.eq_of_fs ha Poly.canon_new this)
    have : a.entries = [] := by simpa [Poly.kv, Poly.new] using h2
    simp [Poly.isZero, Poly.len, this]

-- the operations on samples are not trivial
example : (sampleX1.add sampleXYQ).entries.length = 5 := by decide +kernel
example : (sampleX1.sub sampleX1).entries = [] := by decide +kernel

/-! ### C10 -/

/-- C10: whenever multiplication returns, the value is the product in the ring. -/
theorem C10_mul (a b c : Poly) (h : a.mul b = .ok c) : c.val = a.val * b.val := Poly.val_mul h

/-- C10: products with a `Term` on either side, and `*=`. -/
theorem C10_mul_term (a : Poly) (t : Term) (c : Poly) :
    (a.mulTerm t = .ok c → c.val = a.val * t.val) ∧
    (Poly.termMul t a = .ok c → c.val = t.val * a.val) ∧
    (∀ b, a.mulAssign b = .ok c → c.val = a.val * b.val) := by
  refine ⟨fun h => ?_, fun h => ?_, fun b h => Poly.val_mul h⟩
  · rw [← C09_to_pol]; exact Poly.val_mul h
  · rw [← C09_to_pol]; exact Poly.val_mul h

/-- C10: multiplication returns exactly when no two terms with variables meet and all exponent
sums are in `i32`; otherwise it panics (it never loops). -/
theorem C10_mul_returns (a b : Poly) :
    ((∃ c, a.mul b = .ok c) ↔ ∀ e ∈ a.entries, ∀ f ∈ b.entries,
      (e.1.var.empty = true ∨ f.1.var.empty = true) ∧ InI32 (e.1.xpow + f.1.xpow) ∧
      InI32 (e.1.ypow + f.1.ypow) ∧ InI32 (e.1.qpow + f.1.qpow)) ∧
    a.mul b ≠ .timeout := by
  refine ⟨?_, Poly.mul_ne_timeout a b⟩
  have key : ∀ e f : Monomial, e.key.Compat f.key ↔
      ((e.var.empty = true ∨ f.var.empty = true) ∧ InI32 (e.xpow + f.xpow) ∧
      InI32 (e.ypow + f.ypow) ∧ InI32 (e.qpow + f.qpow)) := by
    intro e f
    simp [Key.Compat, Monomial.key, SubVar.key_eq_none]
  constructor
  · rintro ⟨c, hc⟩ e he f hf
    exact (key _ _).1 ((Poly.mul_eq_ok hc).1 e he f hf)
  · intro h
    exact Poly.mul_ok (fun e he f hf => (key _ _).2 (h e he f hf))

-- (x+1)(x-1): three stored terms, one of them `0 x`
example : (sampleX1.mul sampleXm1 >>= fun c => .ok (c.entries.map (·.2))) = .ok [-1, 0, 1] := by
  decide +kernel
-- two variables meet: panic
example : sampleXYQ.mul sampleXYQ = .panic .explicit := by decide +kernel
example : (sampleX1.mul sampleXYQ).isOk = true := by decide +kernel

/-! ### C11 -/

/-- C11, one direction without restriction: `==` polynomials have the same value. -/
theorem C11_eq_imp_val (a b : Poly) (h : a.eq b = true) : a.val = b.val :=
  Poly.val_injective.2 (Poly.fs_of_eq h)

/-- C11 for polynomials without stored zero coefficients.  Missing from the full property:
polynomials with a stored zero (see `C11_eq_iff_val_refuted`). -/
theorem C11_eq_iff_val_partial (a b : Poly) (ha : a.Canon) (hb : b.Canon) :
    a.eq b = true ↔ a.val = b.val :=
  ⟨C11_eq_imp_val a b, fun h => Poly.eq_of_fs ha hb (Poly.val_injective.1 h)⟩

/-- C11: the operations that cannot introduce a stored zero. -/
theorem C11_canon_closed (a b : Poly) (t u : Term) (ha : a.Canon) (hb : b.Canon) :
    (a.add b).Canon ∧ (a.sub b).Canon ∧ a.neg.Canon ∧ (a.addAssign b).Canon ∧
    (a.subAssign b).Canon ∧ (a.addTerm t).Canon ∧ (a.subTerm t).Canon ∧ (Poly.termAdd t a).Canon ∧
    (Poly.termSub t a).Canon ∧ t.toPol.Canon ∧ Poly.new.Canon ∧ Poly.one.Canon ∧
    (t.coef ≠ 0 → (a.addAssignTerm t).Canon) ∧
    (t.coef ≠ 0 → u.coef ≠ 0 → t.monomial.eq u.monomial = false → (t.add u).Canon) := by
  refine ⟨Poly.canon_add ha hb, Poly.canon_sub ha hb, Poly.canon_neg ha, Poly.canon_addAssign ha hb,
    Poly.canon_subAssign ha hb, Poly.canon_addTerm ha t,
    Poly.canon_add ha (Poly.canon_neg (Poly.canon_toPol t)), Poly.canon_add (Poly.canon_toPol t) ha,
    Poly.canon_add (Poly.canon_toPol t) (Poly.canon_neg ha), Poly.canon_toPol t, Poly.canon_new,
    Poly.canon_one, fun h => Poly.canon_addEntry ha h, fun ht hu hne => ?_⟩
  have hk : t.monomial.key ≠ u.monomial.key := by
    intro h
    rw [(Monomial.eq_iff _ _).2 h] at hne; simp at hne
  unfold Term.add
  simp only [Poly.get?_eq, Poly.look_toPol, Ne.symm hk, and_false, if_false]
  exact Poly.canon_insert (Poly.canon_toPol t) _ hu

/-- C11 is false without the restriction: the API builds `(x+1)(x-1)` and `x^2-1`, which have the
same value and are not `==`. -/
theorem C11_eq_iff_val_refuted : ∃ c d : Poly,
    sampleX1.mul sampleXm1 = .ok c ∧ d = (TermBuilder.new.xpow 2).build.sub Term.one ∧
    c.val = d.val ∧ c.eq d = false := by
  have h1 : ∃ c, sampleX1.mul sampleXm1 = .ok c ∧
      c.eq ((TermBuilder.new.xpow 2).build.sub Term.one) = false := by
    refine ⟨(sampleX1.mul sampleXm1).rec (fun a => a) (fun _ => Poly.new) Poly.new, ?_, ?_⟩ <;>
    decide +kernel
  obtain ⟨c, hc, hne⟩ := h1
  refine ⟨c, _, hc, rfl, ?_, hne⟩
  rw [C10_mul _ _ _ hc, sampleX1, sampleXm1, (C09_sub_term Poly.new _ _).2.2,
    (C09_sub_term Poly.new _ _).2.2, (C09_add_term Poly.new _ _).2.2.2]
  have h2 : Term.one.val = 1 := by
    rw [← C09_to_pol]; exact C09_zero_one.2.2
  have h3 : ((TermBuilder.new.xpow 2).build).val =
      ((TermBuilder.new.xpow 1).build).val * ((TermBuilder.new.xpow 1).build).val := by
    have : Term.mul (TermBuilder.new.xpow 1).build (TermBuilder.new.xpow 1).build =
      .ok (TermBuilder.new.xpow 2).build := by decide +kernel
    obtain ⟨h4, h5, h6⟩ := Term.mul_eq_ok this
    unfold Term.val
    rw [h6, h5, Key.val_mul h4]; simp [TermBuilder.build, TermBuilder.new, TermBuilder.xpow]
  rw [h2, h3]; ring

example : sampleX1.Canon ∧ sampleXYQ.Canon := by unfold Poly.Canon; decide +kernel
example : (sampleX1.add sampleXYQ).eq (sampleXYQ.add sampleX1) = true := by decide +kernel

/-! ### C12 -/

/-- C12: whenever `power` returns, the exponent is non-negative and the value is the power. -/
theorem C12_power (f c : Poly) (n : ℤ) (h : f.power n = .ok c) :
    0 ≤ n ∧ c.val = f.val ^ n.toNat := by
  obtain ⟨h1, _, h2⟩ := Poly.MulFn.power mulFn_val (fun _ _ => trivial) h
  exact ⟨h1, h2⟩

/-- C12: `square` and `cube`. -/
theorem C12_square_cube (f c : Poly) :
    (f.square = .ok c → c.val = f.val ^ 2) ∧ (f.cube = .ok c → c.val = f.val ^ 3) :=
  ⟨fun h => (C12_power f c 2 h).2, fun h => (C12_power f c 3 h).2⟩

/-- C12: a negative exponent panics. -/
theorem C12_power_neg (f : Poly) (n : ℤ) (h : n < 0) : f.power n = .panic .assertion := by
  unfold Poly.power
  have : decide (n ≥ 0) = false := by simpa using h
  rw [this]; rfl

/-- `power` never loops for ever. -/
theorem C12_power_halts (f : Poly) (n : ℤ) : f.power n ≠ .timeout := Poly.power_ne_timeout f n

/-- Monomials without variable with all exponents of absolute value at most `m`. -/
def Key.Box (m : ℤ) (k : Key) : Prop := k.v = none ∧ |k.x| ≤ m ∧ |k.y| ≤ m ∧ |k.q| ≤ m

theorem graded_box : Poly.Graded 2147483647 Key.Box where
  one_mem := by simp [Key.Box, Key.one]
  mul_mem := by
    rintro m n k k' ⟨h1, h2, h3, h4⟩ ⟨h1', h2', h3', h4'⟩
    refine ⟨by simp [Key.mul, h1, h1'], ?_, ?_, ?_⟩ <;> simp only [Key.mul] <;>
      exact (abs_add_le _ _).trans (by omega)
  compat := by
    rintro m n k k' ⟨h1, h2, h3, h4⟩ ⟨h1', h2', h3', h4'⟩ h
    rw [abs_le] at *
    refine ⟨Or.inl h1, ?_, ?_, ?_⟩ <;> constructor <;> omega

/-- C12: `power` returns whenever no variable occurs and `n` times the largest exponent stays in
`i32`. -/
theorem C12_power_returns (f : Poly) (n m : ℤ) (hn : 0 ≤ n) (hm : 0 ≤ m)
    (hf : ∀ e ∈ f.entries, e.1.var.empty = true ∧ |e.1.xpow| ≤ m ∧ |e.1.ypow| ≤ m ∧ |e.1.qpow| ≤ m)
    (hnm : n * m ≤ 2147483647) : ∃ c, f.power n = .ok c := by
  have hf' : f.All (Key.Box m) := fun e he => by
    obtain ⟨h1, h2⟩ := hf e he
    exact ⟨SubVar.key_eq_none.2 h1, h2⟩
  obtain ⟨c, hc, _⟩ := graded_box.power hn hm hf' hnm
  exact ⟨c, hc⟩

example : (sampleX1.power 5 >>= fun c => .ok (c.entries.map (·.2))) = .ok [1, 5, 10, 10, 5, 1] := by
  decide +kernel
example : ∀ e ∈ sampleX1.entries,
    e.1.var.empty = true ∧ |e.1.xpow| ≤ 1 ∧ |e.1.ypow| ≤ 1 ∧ |e.1.qpow| ≤ 1 := by decide +kernel

/-! ### C13 -/

/-- C13: `f % p` returns the coefficientwise canonical residue, without stored zeros. -/
theorem C13_rem (f : Poly) (p : ℤ) (hp : 1 ≤ p) :
    ∃ r, f.rem p = .ok r ∧ r.Canon ∧ r.Reduced p ∧ ∀ k, r.coef k = f.coef k % p := by
  obtain ⟨r, h1, h2⟩ := Poly.rem_ok f (p := p) (by omega)
  exact ⟨r, h1, h2.canon, h2.reduced (by omega), h2.coef⟩

/-- C13: `modular_assign` likewise. -/
theorem C13_modular_assign (f : Poly) (p : ℤ) (hp : 1 ≤ p) :
    ∃ r, f.modularAssign p = .ok r ∧ r.Canon ∧ r.Reduced p ∧ ∀ k, r.coef k = f.coef k % p := by
  obtain ⟨r, h1, h2⟩ := Poly.modularAssign_ok f (p := p) (by omega)
  exact ⟨r, h1, h2.canon, h2.reduced (by omega), h2.coef⟩

/-- C13: the result is congruent to the argument in the ring. -/
theorem C13_congruent (f r : Poly) (p : ℤ) (hp : 1 ≤ p)
    (h : f.rem p = .ok r ∨ f.modularAssign p = .ok r) : (p : LRing) ∣ f.val - r.val := by
  rw [Poly.dvd_val_sub]
  intro k
  have : r.coef k = f.coef k % p := by
    rcases h with h | h
    · exact (Poly.rem_eq_ok (by omega) h).coef k
    · exact (Poly.modularAssign_eq_ok (by omega) h).coef k
  rw [this]
  exact Int.dvd_self_sub_emod

/-- C13: reductions are `==` exactly for congruent polynomials (in particular `%` and
`modular_assign` agree). -/
theorem C13_eq_iff_congruent (f g r s : Poly) (p : ℤ) (hp : 1 ≤ p)
    (hr : f.rem p = .ok r ∨ f.modularAssign p = .ok r)
    (hs : g.rem p = .ok s ∨ g.modularAssign p = .ok s) :
    r.eq s = true ↔ (p : LRing) ∣ f.val - g.val := by
  have hr' : Poly.ModOf p f r := by
    rcases hr with h | h
    · exact Poly.rem_eq_ok (by omega) h
    · exact Poly.modularAssign_eq_ok (by omega) h
  have hs' : Poly.ModOf p g s := by
    rcases hs with h | h
    · exact Poly.rem_eq_ok (by omega) h
    · exact Poly.modularAssign_eq_ok (by omega) h
  rw [Poly.dvd_val_sub, C11_eq_iff_val_partial r s hr'.canon hs'.canon, Poly.val_injective]
  constructor
  · intro h k
    have h1 := hr'.coef k
    rw [Poly.coef_eq_fs, h, ← Poly.coef_eq_fs, hs'.coef k] at h1
    exact Int.ModEq.dvd h1
  · intro h
    ext k
    rw [← Poly.coef_eq_fs, ← Poly.coef_eq_fs, hr'.coef, hs'.coef]
    exact (Int.emod_eq_emod_iff_emod_sub_eq_zero.2 (Int.emod_eq_zero_of_dvd (h k)))

/-- C13: a modulus `≤ 0` panics as soon as a term is stored, for `%` and `modular_assign`. -/
theorem C13_panics (f : Poly) (p : ℤ) (hp : p ≤ 0) (hf : f.entries ≠ []) :
    (∃ w, f.rem p = .panic w) ∧ (∃ w, f.modularAssign p = .panic w) := by
  obtain ⟨e, t, he⟩ := List.exists_cons_of_ne_nil hf
  by_cases h0 : p = 0
  · subst h0
    have hm : modFloor e.2 0 = .panic .divByZero := rfl
    constructor
    · refine ⟨.divByZero, ?_⟩
      unfold Poly.rem; rw [he, List.foldlM_cons, hm]; rfl
    · refine ⟨.divByZero, ?_⟩
      unfold Poly.modularAssign Poly.modAssignLoop; rw [he, List.foldlM_cons, hm]; rfl
  · have hm : modFloor e.2 p = .ok (Int.fmod e.2 p) := modFloor_of h0
    have hc : Poly.assertBelow p (Int.fmod e.2 p) = .panic .assertion := by
      have : ¬ Int.fmod e.2 p < p := by
        rw [Int.fmod_eq_emod]
        have := Int.emod_nonneg e.2 h0
        split_ifs <;> omega
      unfold Poly.assertBelow
      rw [if_pos h0]; simp only [this, decide_false, rassert_false]
    constructor
    · refine ⟨.assertion, ?_⟩
      unfold Poly.rem; rw [he, List.foldlM_cons, hm, Res.ok_bind, hc]; rfl
    · refine ⟨.assertion, ?_⟩
      unfold Poly.modularAssign Poly.modAssignLoop
      rw [he, List.foldlM_cons, hm, Res.ok_bind, hc]; rfl

-- `7 x + 3` modulo 7 stores only the constant; modulo 0 and -7 it panics
example : let f := ((TermBuilder.new.coef 7).xpow 1).build.add (TermBuilder.new.coef 3).build
    (f.rem 7 >>= fun c => .ok (c.entries.map (·.2))) = .ok [3] ∧
    (f.modularAssign 7 >>= fun c => .ok (c.entries.map (·.2))) = .ok [3] ∧
    f.rem 0 = .panic .divByZero ∧ f.rem (-7) = .panic .assertion := by decide +kernel

/-- C13: with nothing stored, any modulus is accepted and the (zero) polynomial is returned. -/
theorem C13_zero (p : ℤ) : Poly.new.rem p = .ok Poly.new ∧ Poly.new.modularAssign p = .ok Poly.new :=
  ⟨rfl, rfl⟩

/-! ### C14 -/

theorem powMod_congr {f c : Poly} {n p : ℤ} (hp : 1 ≤ p) (h : f.powerModulo n p = .ok c) :
    (p : LRing) ∣ f.val ^ (max n 1).toNat - c.val ∧ c.Canon ∧ c.Reduced p := by
  let I : Ideal LRing := Ideal.span {(p : LRing)}
  have hR : ∀ m : LRing ⧸ I, p • m = 0 := by
    intro m
    obtain ⟨m, rfl⟩ := Ideal.Quotient.mk_surjective m
    rw [← map_zsmul, Ideal.Quotient.eq_zero_iff_mem, zsmul_eq_mul]
    exact Ideal.mul_mem_right _ _ (Ideal.subset_span rfl)
  obtain ⟨_, _, h1, h2⟩ := Poly.MulFn.powerModulo (mulFn_val.comp (Ideal.Quotient.mk I))
    (by omega) hR (fun _ _ => trivial) h
  refine ⟨?_, h2⟩
  rw [← Ideal.mem_span_singleton, ← Ideal.Quotient.eq, map_pow]
  have hlin : ∀ P : Poly, P.lin (fun k => Ideal.Quotient.mk I k.val) = Ideal.Quotient.mk I P.val :=
    fun P => (Poly.map_lin (Ideal.Quotient.mk I).toAddMonoidHom _ P).symm
  rw [hlin, hlin] at h1
  exact h1.symm

/-- C14: for `p ≥ 1` and `n ≥ 1`, whenever `power_modulo` returns, the value is congruent to the
power, with coefficients in `[0, p)` and no stored zero. -/
theorem C14_power_modulo (f c : Poly) (n p : ℤ) (hp : 1 ≤ p) (hn : 1 ≤ n)
    (h : f.powerModulo n p = .ok c) :
    (p : LRing) ∣ f.val ^ n.toNat - c.val ∧ c.Canon ∧ c.Reduced p := by
  have := powMod_congr hp h
  rwa [show max n 1 = n by omega] at this

/-- C14: what the code does for `n = 0`: the answer is `f % p` (so `1` only if `f ≡ 1`). -/
theorem C14_power_modulo_zero (f c r : Poly) (p : ℤ) (hp : 1 ≤ p) (h : f.powerModulo 0 p = .ok c)
    (hr : f.rem p = .ok r) : c.eq r = true := by
  obtain ⟨h1, h2, h3⟩ := powMod_congr hp h
  rw [show (max (0 : ℤ) 1).toNat = 1 from rfl, pow_one] at h1
  rw [C11_eq_iff_val_partial c r h2 (Poly.rem_eq_ok (by omega) hr).canon, Poly.val_injective]
  have hr' := Poly.rem_eq_ok (by omega) hr
  rw [Poly.dvd_val_sub] at h1
  ext k
  have h4 := hr'.coef k
  have h5 : c.coef k = f.coef k % p := by
    have h6 : f.coef k % p = c.coef k % p :=
      Int.emod_eq_emod_iff_emod_sub_eq_zero.2 (Int.emod_eq_zero_of_dvd (h1 k))
    have h7 : 0 ≤ c.coef k ∧ c.coef k < p := by
      rw [Poly.coef_eq]
      cases hk : c.look k with
      | none => simp; omega
      | some v => exact (Poly.reduced_iff.1 h3) k v hk
    rw [h6, Int.emod_eq_of_lt h7.1 h7.2]
  rw [← Poly.coef_eq_fs, ← Poly.coef_eq_fs, h4, h5]

/-- C14 with `n = 0` included is false: `x^0` modulo 5 comes out as `x`, not 1. -/
theorem C14_power_modulo_refuted : ∃ f c : Poly, f.powerModulo 0 5 = .ok c ∧
    ¬ ((5 : ℤ) : LRing) ∣ f.val ^ (0 : ℤ).toNat - c.val := by
  have h1 : ∃ c, (TermBuilder.new.xpow 1).build.toPol.powerModulo 0 5 = .ok c ∧
      c.eq (TermBuilder.new.xpow 1).build.toPol = true := by
    refine ⟨((TermBuilder.new.xpow 1).build.toPol.powerModulo 0 5).rec (fun a => a)
      (fun _ => Poly.new) Poly.new, ?_, ?_⟩ <;> decide +kernel
  obtain ⟨c, hc, he⟩ := h1
  refine ⟨_, c, hc, ?_⟩
  rw [show (0 : ℤ).toNat = 0 from rfl, pow_zero, ← C09_zero_one.2.2, Poly.dvd_val_sub]
  intro h
  have := h Key.one
  rw [Poly.coef_eq_fs c, Poly.fs_of_eq he, ← Poly.coef_eq_fs] at this
  revert this
  decide +kernel

/-- C14: `power_modulo` returns whenever no variable occurs and `n` times the largest exponent
stays in `i32`. -/
theorem C14_power_modulo_returns (f : Poly) (n m p : ℤ) (hp : 1 ≤ p) (hn : 1 ≤ n) (hm : 0 ≤ m)
    (hf : ∀ e ∈ f.entries, e.1.var.empty = true ∧ |e.1.xpow| ≤ m ∧ |e.1.ypow| ≤ m ∧ |e.1.qpow| ≤ m)
    (hnm : n * m ≤ 2147483647) : ∃ c, f.powerModulo n p = .ok c := by
  have hf' : f.All (Key.Box m) := fun e he => by
    obtain ⟨h1, h2⟩ := hf e he
    exact ⟨SubVar.key_eq_none.2 h1, h2⟩
  obtain ⟨c, hc, _⟩ := graded_box.powerModulo (p := p) (by omega) (by omega) hm hf'
    (show max n 1 * m ≤ _ by rw [show max n 1 = n by omega]; exact hnm)
  exact ⟨c, hc⟩

example : (sampleX1.powerModulo 3 5 >>= fun c => .ok (c.entries.map (·.2))) = .ok [1, 3, 3, 1] := by
  decide +kernel
example : (sampleX1.powerModulo 5 5 >>= fun c => .ok (c.entries.map (·.2))) = .ok [1, 1] := by
  decide +kernel

end EC
