import Verif.Props.PolyMaps
import Mathlib.Algebra.CharP.Lemmas
import Mathlib.FieldTheory.Finite.Basic

/-! Properties C68 and C69: ring laws for `==`, and the Frobenius map. -/

namespace EC
open Poly

namespace Poly

/-- Equal supports and equal values give `==`. -/
theorem eq_of_dom {P Q : Poly} (h1 : ∀ k, (P.look k).isSome ↔ (Q.look k).isSome) (h2 : P.val = Q.val) :
    P.eq Q = true := by
  rw [eq_iff_look]
  intro k
  have h3 := (fs_ext.1 (val_injective.1 h2)) k
  have h4 := h1 k
  cases hP : P.look k <;> cases hQ : Q.look k <;> simp_all

theorem look_mem {P : Poly} {k : Key} : (P.look k).isSome ↔ ∃ e ∈ P.entries, k = e.1.key := by
  constructor
  · intro h
    obtain ⟨v, hv⟩ := Option.isSome_iff_exists.1 h
    obtain ⟨e, he, h1, -⟩ := lookL_eq_some hv
    exact ⟨e, he, h1.symm⟩
  · rintro ⟨e, he, rfl⟩
    by_contra hn
    rw [Option.not_isSome_iff_eq_none] at hn
    exact lookL_eq_none.1 hn e he rfl

end Poly

theorem Key.mul_comm' {k k' : Key} (h : k.Compat k') : k.mul k' = k'.mul k := by
  rcases k with ⟨x, y, q, v⟩; rcases k' with ⟨x', y', q', v'⟩
  simp only [Key.mul, Key.mk.injEq]
  refine ⟨add_comm _ _, add_comm _ _, add_comm _ _, ?_⟩
  rcases h.1 with h | h <;> simp only at h <;> subst h <;> simp

theorem Key.compat_comm {k k' : Key} (h : k.Compat k') : k'.Compat k := by
  obtain ⟨h1, h2, h3, h4⟩ := h
  exact ⟨h1.symm, by rw [add_comm]; exact h2, by rw [add_comm]; exact h3, by rw [add_comm]; exact h4⟩

theorem Key.mul_assoc' (k k' k'' : Key) : (k.mul k').mul k'' = k.mul (k'.mul k'') := by
  rcases k with ⟨x, y, q, v⟩; rcases k' with ⟨x', y', q', v'⟩; rcases k'' with ⟨x'', y'', q'', v''⟩
  simp only [Key.mul, Key.mk.injEq]
  exact ⟨add_assoc _ _ _, add_assoc _ _ _, add_assoc _ _ _, by cases v <;> rfl⟩

/-! ### C68 -/

/-- C68: `a * b` returns exactly when `b * a` does, and then `a * b == b * a` (for all polynomials, with stored zeros
or not). -/
theorem C68_mul_comm (a b : Poly) :
    ((∃ c, a.mul b = .ok c) ↔ ∃ d, b.mul a = .ok d) ∧
    ∀ c d, a.mul b = .ok c → b.mul a = .ok d → c.eq d = true := by
  have one : ∀ a b : Poly, (∃ c, a.mul b = .ok c) → ∃ d, b.mul a = .ok d := by
    rintro a b ⟨c, hc⟩
    exact mul_ok fun e he f hf => Key.compat_comm ((mul_eq_ok hc).1 f hf e he)
  refine ⟨⟨one a b, one b a⟩, fun c d hc hd => eq_of_dom (fun k => ?_) ?_⟩
  · obtain ⟨h1, -, h3⟩ := mul_eq_ok hc
    obtain ⟨h1', -, h3'⟩ := mul_eq_ok hd
    rw [h3, h3']
    constructor
    · rintro ⟨e, he, f, hf, rfl⟩
      exact ⟨f, hf, e, he, Key.mul_comm' (h1 e he f hf)⟩
    · rintro ⟨e, he, f, hf, rfl⟩
      exact ⟨f, hf, e, he, Key.mul_comm' (h1' e he f hf)⟩
  · rw [C10_mul a b c hc, C10_mul b a d hd, mul_comm]

/-- C68: `(a * b) * c == a * (b * c)` whenever the products return. -/
theorem C68_mul_assoc (a b c ab bc l r : Poly) (h1 : a.mul b = .ok ab) (h2 : ab.mul c = .ok l)
    (h3 : b.mul c = .ok bc) (h4 : a.mul bc = .ok r) : l.eq r = true := by
  refine eq_of_dom (fun k => ?_) ?_
  · obtain ⟨-, -, d1⟩ := mul_eq_ok h1
    obtain ⟨-, -, d2⟩ := mul_eq_ok h2
    obtain ⟨-, -, d3⟩ := mul_eq_ok h3
    obtain ⟨-, -, d4⟩ := mul_eq_ok h4
    rw [d2, d4]
    constructor
    · rintro ⟨e, he, f, hf, rfl⟩
      obtain ⟨e1, he1, e2, he2, h5⟩ := (d1 e.1.key).1 (look_mem.2 ⟨e, he, rfl⟩)
      obtain ⟨g, hg, h6⟩ := look_mem.1 ((d3 (e2.1.key.mul f.1.key)).2 ⟨e2, he2, f, hf, rfl⟩)
      exact ⟨e1, he1, g, hg, by rw [h5, Key.mul_assoc', h6]⟩
    · rintro ⟨e, he, f, hf, rfl⟩
      obtain ⟨e1, he1, e2, he2, h5⟩ := (d3 f.1.key).1 (look_mem.2 ⟨f, hf, rfl⟩)
      obtain ⟨g, hg, h6⟩ := look_mem.1 ((d1 (e.1.key.mul e1.1.key)).2 ⟨e, he, e1, he1, rfl⟩)
      exact ⟨g, hg, e2, he2, by rw [h5, ← Key.mul_assoc', h6]⟩
  · rw [C10_mul ab c l h2, C10_mul a b ab h1, C10_mul a bc r h4, C10_mul b c bc h3, mul_assoc]

/-- C68: `1 * a == a` and `a * 1 == a`. -/
theorem C68_mul_one (a c : Poly) (h : a.mul Poly.one = .ok c ∨ Poly.one.mul a = .ok c) : c.eq a = true := by
  have hk : ∀ k : Key, k.mul Key.one = k ∧ Key.one.mul k = k := by
    rintro ⟨x, y, q, v⟩
    simp only [Key.mul, Key.one, Key.mk.injEq, add_zero, zero_add, true_and]
    exact ⟨by cases v <;> rfl, by cases v <;> rfl⟩
  have e1 : (({ xpow := 0, ypow := 0, qpow := 0, var := SubVar.new } : Monomial).key) = Key.one := rfl
  refine eq_of_dom (fun k => ?_) ?_
  · rcases h with h | h
    · rw [(mul_eq_ok h).2.2, look_mem]
      simp only [one_entries, List.mem_singleton, exists_eq_left, e1, hk]
    · rw [(mul_eq_ok h).2.2, look_mem]
      simp only [one_entries, List.mem_singleton, exists_eq_left, e1, hk]
  · rcases h with h | h
    · rw [C10_mul _ _ _ h, C09_zero_one.2.2, mul_one]
    · rw [C10_mul _ _ _ h, C09_zero_one.2.2, one_mul]

/-- C68: for polynomials without stored zeros, `+` is commutative and associative up to `==`, `a - a` is zero,
`(a + b) - b == a`, `a - b == a + (-b)` and `-(-a) == a`. -/
theorem C68_additive (a b c : Poly) (ha : a.Canon) (hb : b.Canon) (hc : c.Canon) :
    (a.add b).eq (b.add a) = true ∧ ((a.add b).add c).eq (a.add (b.add c)) = true ∧
    (a.sub a).isZero = true ∧ ((a.add b).sub b).eq a = true ∧ (a.sub b).eq (a.add b.neg) = true ∧
    a.neg.neg.eq a = true ∧ (a.add Poly.zero).eq a = true := by
  have cl : ∀ {x y : Poly}, x.Canon → y.Canon → (x.add y).Canon ∧ (x.sub y).Canon ∧ x.neg.Canon := fun hx hy =>
    ⟨canon_add hx hy, canon_sub hx hy, canon_neg hx⟩
  have hz : Poly.zero.Canon := (C11_canon_closed a b Term.one Term.one ha hb).2.2.2.2.2.2.2.2.2.2.1
  refine ⟨?_, ?_, ?_, ?_, ?_, ?_, ?_⟩
  · rw [C11_eq_iff_val_partial _ _ (cl ha hb).1 (cl hb ha).1, (C09_add _ _).1, (C09_add _ _).1, add_comm]
  · rw [C11_eq_iff_val_partial _ _ (cl (cl ha hb).1 hc).1 (cl ha (cl hb hc).1).1, (C09_add _ _).1, (C09_add _ _).1,
      (C09_add _ _).1, (C09_add _ _).1, add_assoc]
  · rw [C09_is_zero _ (cl ha ha).2.1, (C09_sub _ _).1, sub_self]
  · rw [C11_eq_iff_val_partial _ _ (cl (cl ha hb).1 hb).2.1 ha, (C09_sub _ _).1, (C09_add _ _).1, add_sub_cancel_right]
  · rw [C11_eq_iff_val_partial _ _ (cl ha hb).2.1 (cl ha (cl hb hb).2.2).1, (C09_sub _ _).1, (C09_add _ _).1, C09_neg,
      sub_eq_add_neg]
  · rw [C11_eq_iff_val_partial _ _ (cl (cl ha hb).2.2 hb).2.2 ha, C09_neg, C09_neg, neg_neg]
  · rw [C11_eq_iff_val_partial _ _ (cl ha hz).1 ha, (C09_add _ _).1, C09_zero_one.1, add_zero]

/-- C68: `a * (b + c)` and `a * b + a * c` have the same value, and the same residues up to `==` modulo every `p ≥ 1`. -/
theorem C68_distrib (a b c l ab ac r s : Poly) (h1 : a.mul (b.add c) = .ok l) (h2 : a.mul b = .ok ab)
    (h3 : a.mul c = .ok ac) (p : ℤ) (hp : 1 ≤ p) (hr : l.rem p = .ok r) (hs : (ab.add ac).rem p = .ok s) :
    l.val = (ab.add ac).val ∧ r.eq s = true := by
  have hv : l.val = (ab.add ac).val := by
    rw [C10_mul _ _ _ h1, (C09_add _ _).1, (C09_add _ _).1, C10_mul _ _ _ h2, C10_mul _ _ _ h3, mul_add]
  refine ⟨hv, ?_⟩
  rw [C13_eq_iff_congruent l (ab.add ac) r s p hp (.inl hr) (.inl hs), hv, sub_self]
  exact dvd_zero _

/-- C68: distributivity fails for `==`: with `a = x + 1`, `b = x`, `c = -1` the product `a * (b + c)` stores a zero
coefficient. -/
theorem C68_distrib_refuted : ∃ a b c l ab ac : Poly, a.mul (b.add c) = .ok l ∧ a.mul b = .ok ab ∧ a.mul c = .ok ac ∧
    l.eq (ab.add ac) = false := by
  let g : Res Poly → Poly := fun r => r.rec (fun a => a) (fun _ => Poly.new) Poly.new
  refine ⟨sampleX1, (TermBuilder.new.xpow 1).build.toPol, (TermBuilder.new.coef (-1)).build.toPol,
    g (sampleX1.mul ((TermBuilder.new.xpow 1).build.toPol.add (TermBuilder.new.coef (-1)).build.toPol)),
    g (sampleX1.mul (TermBuilder.new.xpow 1).build.toPol), g (sampleX1.mul (TermBuilder.new.coef (-1)).build.toPol),
    ?_, ?_, ?_, ?_⟩ <;> decide +kernel

-- the products of the samples return, in both orders, and with three factors
example : (sampleX1.mul sampleXm1).isOk = true ∧ (sampleXm1.mul sampleX1).isOk = true ∧
    ((sampleX1.mul sampleXm1) >>= fun c => c.mul sampleXYQ).isOk = true ∧
    ((sampleXm1.mul sampleXYQ) >>= fun c => sampleX1.mul c).isOk = true ∧ (sampleXYQ.mul Poly.one).isOk = true := by
  decide +kernel
example : sampleXYQ.Canon ∧ sampleX1.Canon := by
  constructor <;> (intro e he; revert e; decide +kernel)

/-! ### C69 -/

/-- Freshman's dream for a sum of terms `c * x^i y^j`. -/
private theorem frob_congr (p : ℕ) (hp : p.Prime) (es : List (Monomial × Int))
    (hf : ∀ e ∈ es, e.1.qpow = 0 ∧ e.1.var.empty = true) :
    ((p : ℤ) : LRing) ∣ (es.map fun e => e.2 • e.1.key.val).sum ^ p -
      substPow p p 1 (es.map fun e => e.2 • e.1.key.val).sum := by
  induction es with
  | nil => simp [hp.ne_zero]
  | cons e es ih =>
    have he := hf e (by simp)
    have ih := ih fun e' h' => hf e' (by simp [h'])
    rw [List.map_cons, List.sum_cons, map_add, map_zsmul, Poly.substPow_val]
    obtain ⟨r, hr⟩ := exists_add_pow_prime_eq hp (e.2 • e.1.key.val) (es.map fun e => e.2 • e.1.key.val).sum
    rw [hr]
    have h1 : e.1.key.val ^ p = (e.1.key.scale p p 1).val := by
      have hv : e.1.key.v = none := by
        have := he.2
        simp [Monomial.key, SubVar.key, this]
      have hq : e.1.key.q = 0 := he.1
      rw [Key.val, Key.val, AddMonoidAlgebra.single_pow, one_pow]
      congr 1
      simp only [Key.expo, Key.scale, hv, hq]
      ext <;> simp [mul_comm]
    have h2 : (p : ℤ) ∣ e.2 ^ p - e.2 := by
      haveI := Fact.mk hp
      rw [← ZMod.intCast_zmod_eq_zero_iff_dvd]
      push_cast
      rw [ZMod.pow_card, sub_self]
    obtain ⟨a, ha⟩ := h2
    obtain ⟨b, hb⟩ := ih
    have h3 : ((e.2 : ℤ) : LRing) ^ p - e.2 = p * a := by exact_mod_cast congrArg (Int.cast : ℤ → LRing) ha
    refine ⟨a * (e.1.key.scale p p 1).val + b + (e.2 • e.1.key.val) * (es.map fun e => e.2 • e.1.key.val).sum * r, ?_⟩
    rw [smul_pow, h1]
    simp only [zsmul_eq_mul] at hb ⊢
    push_cast at hb ⊢
    linear_combination hb + (e.1.key.scale p p 1).val * h3

/-- C69: for a prime `p` and a polynomial in `x` and `y`, `f.to_frob(p)` is the `p`-th power modulo `p`:
`f.power(p) % p == f.to_frob(p) % p`. -/
theorem C69_frobenius (f g h r s : Poly) (p : ℤ) (hp : Nat.Prime p.toNat)
    (hf : ∀ e ∈ f.entries, e.1.qpow = 0 ∧ e.1.var.empty = true)
    (h1 : f.power p = .ok g) (h2 : f.toFrob p = .ok h) (hr : g.rem p = .ok r) (hs : h.rem p = .ok s) :
    r.eq s = true := by
  have hp2 := hp.two_le
  have hpz : ((p.toNat : ℕ) : ℤ) = p := Int.toNat_of_nonneg (by omega)
  rw [C13_eq_iff_congruent g h r s p (by omega) (.inl hr) (.inl hs), (C12_power f g p h1).2]
  have hF := C24_to_frob f h p (by omega) h2
  have := frob_congr p.toNat hp f.entries hf
  rw [hpz] at this
  rw [hF]
  exact this

-- the hypotheses are met by `x + 1` and `p = 5`
example : Nat.Prime (5 : ℤ).toNat ∧ (∀ e ∈ sampleX1.entries, e.1.qpow = 0 ∧ e.1.var.empty = true) ∧
    ((sampleX1.power 5) >>= fun g => g.rem 5).isOk = true ∧ ((sampleX1.toFrob 5) >>= fun g => g.rem 5).isOk = true := by
  refine ⟨by show Nat.Prime 5; norm_num, ?_, ?_, ?_⟩
  · decide +kernel
  · decide +kernel
  · decide +kernel

end EC
