import Verif.Props.Domains
import Mathlib.Algebra.Order.Monoid.Prod

/-! C98: on exactly which polynomials `eval_x_polynomial` and `eval_y_polynomial` return. -/

namespace EC
open Poly Polynomial

namespace Poly

/-- The keys of a power, for any family of sets of monomials that is closed under products. -/
theorem powLoop_keys {T : ℤ → Key → Prop}
    (hT : ∀ {m n : ℤ} {k k' : Key}, 0 ≤ m → 1 ≤ n → T m k → T n k' → k.Compat k' → T (m + n) (k.mul k')) :
    ∀ (e : ℤ) (b r c : Poly) (i j : ℤ), 1 ≤ e → 0 ≤ i → 1 ≤ j → b.All (T j) → r.All (T i) →
      powLoop e b r = .ok c → c.All (T (i + e * j)) := by
  intro e
  induction hn : e.toNat using Nat.strong_induction_on generalizing e with
  | _ n ih =>
    intro b r c i j he hi hj hb hr h
    rw [Poly.powLoop] at h
    split_ifs at h with h1 h2
    · obtain ⟨r', hr', h⟩ := Res.bind_eq_ok.1 h
      obtain ⟨b', hb', h⟩ := Res.bind_eq_ok.1 h
      have hr1 := all_mul hr hb (fun _ _ h1 h2 h3 => hT hi hj h1 h2 h3) hr'
      have hb1 := all_mul hb hb (fun _ _ h1 h2 h3 => hT (by omega) hj h1 h2 h3) hb'
      rw [tdiv2 (by omega)] at h
      have := ih _ (by omega) (e / 2) rfl b' r' c (i + j) (j + j) (by omega) (by omega) (by omega) hb1 hr1 h
      have e2 : i + j + e / 2 * (j + j) = i + e * j := by
        have : e = 2 * (e / 2) + 1 := by omega
        generalize e / 2 = u at *; subst this; ring
      rwa [e2] at this
    · obtain ⟨r', hr', h⟩ := Res.bind_eq_ok.1 h
      cases hr'
      obtain ⟨b', hb', h⟩ := Res.bind_eq_ok.1 h
      have hb1 := all_mul hb hb (fun _ _ h1 h2 h3 => hT (by omega) hj h1 h2 h3) hb'
      rw [tdiv2 (by omega)] at h
      have := ih _ (by omega) (e / 2) rfl b' r c i (j + j) (by omega) (by omega) (by omega) hb1 hr h
      have e2 : i + e / 2 * (j + j) = i + e * j := by
        have : e = 2 * (e / 2) := by omega
        generalize e / 2 = u at *; subst this; ring
      rwa [e2] at this
    · have : e = 1 := by omega
      subst this
      rw [one_mul]
      exact all_mul hr hb (fun _ _ h1 h2 h3 => hT hi hj h1 h2 h3) h

/-- Each monomial of `f^n` lies, in each exponent, between `n` times two monomials of `f`. -/
theorem power_keys {f c : Poly} {n : ℤ} (hn : 1 ≤ n) (h : f.power n = .ok c) :
    c.All (fun k => ((∃ m, f.Has m ∧ n * m.x ≤ k.x) ∧ (∃ m, f.Has m ∧ k.x ≤ n * m.x)) ∧
      ((∃ m, f.Has m ∧ n * m.y ≤ k.y) ∧ (∃ m, f.Has m ∧ k.y ≤ n * m.y)) ∧
      ((∃ m, f.Has m ∧ n * m.q ≤ k.q) ∧ (∃ m, f.Has m ∧ k.q ≤ n * m.q)) ∧
      (k.v = none ∨ ∃ m, f.Has m ∧ k.v = m.v)) := by
  have key : c.All (fun k => (n = 0 ∧ k = Key.one) ∨
      (((∃ m, f.Has m ∧ n * m.x ≤ k.x) ∧ (∃ m, f.Has m ∧ k.x ≤ n * m.x)) ∧
      ((∃ m, f.Has m ∧ n * m.y ≤ k.y) ∧ (∃ m, f.Has m ∧ k.y ≤ n * m.y)) ∧
      ((∃ m, f.Has m ∧ n * m.q ≤ k.q) ∧ (∃ m, f.Has m ∧ k.q ≤ n * m.q)) ∧
      (k.v = none ∨ ∃ m, f.Has m ∧ k.v = m.v))) := by
    unfold Poly.power at h
    obtain ⟨_, h0, h⟩ := Res.bind_eq_ok.1 h
    rw [if_neg (by omega)] at h
    have := powLoop_keys (T := fun n k => (n = 0 ∧ k = Key.one) ∨
      (((∃ m, f.Has m ∧ n * m.x ≤ k.x) ∧ (∃ m, f.Has m ∧ k.x ≤ n * m.x)) ∧
      ((∃ m, f.Has m ∧ n * m.y ≤ k.y) ∧ (∃ m, f.Has m ∧ k.y ≤ n * m.y)) ∧
      ((∃ m, f.Has m ∧ n * m.q ≤ k.q) ∧ (∃ m, f.Has m ∧ k.q ≤ n * m.q)) ∧
      (k.v = none ∨ ∃ m, f.Has m ∧ k.v = m.v))) ?_ n f one c 0 1 hn le_rfl le_rfl ?_ (all_one (Or.inl ⟨rfl, rfl⟩)) h
    · simpa using this
    · have low : ∀ {g : Key → ℤ} {m n a b : ℤ}, 0 ≤ m → 1 ≤ n → (∃ k, f.Has k ∧ m * g k ≤ a) →
          (∃ k, f.Has k ∧ n * g k ≤ b) → ∃ k, f.Has k ∧ (m + n) * g k ≤ a + b := by
        rintro g m n a b hm hn ⟨k, hk, ha⟩ ⟨k', hk', hb⟩
        rcases le_total (g k) (g k') with hle | hle
        · exact ⟨k, hk, by nlinarith⟩
        · exact ⟨k', hk', by nlinarith⟩
      have high : ∀ {g : Key → ℤ} {m n a b : ℤ}, 0 ≤ m → 1 ≤ n → (∃ k, f.Has k ∧ a ≤ m * g k) →
          (∃ k, f.Has k ∧ b ≤ n * g k) → ∃ k, f.Has k ∧ a + b ≤ (m + n) * g k := by
        rintro g m n a b hm hn ⟨k, hk, ha⟩ ⟨k', hk', hb⟩
        rcases le_total (g k) (g k') with hle | hle
        · exact ⟨k', hk', by nlinarith⟩
        · exact ⟨k, hk, by nlinarith⟩
      rintro m n k k' hm hn (⟨rfl, rfl⟩ | ⟨⟨a1, a2⟩, ⟨a3, a4⟩, ⟨a5, a6⟩, a7⟩) hk' hc
      · rcases hk' with ⟨rfl, -⟩ | h
        · omega
        · right
          simpa [Key.mul, Key.one] using h
      · rcases hk' with ⟨rfl, -⟩ | ⟨⟨b1, b2⟩, ⟨b3, b4⟩, ⟨b5, b6⟩, b7⟩
        · omega
        · refine Or.inr ⟨⟨low hm hn a1 b1, high hm hn a2 b2⟩, ⟨low hm hn a3 b3, high hm hn a4 b4⟩,
            ⟨low hm hn a5 b5, high hm hn a6 b6⟩, ?_⟩
          simp only [Key.mul]
          cases hv : k.v with
          | none => simpa using b7
          | some v =>
            rw [hv] at a7
            simpa using a7
    · intro e he
      refine Or.inr ⟨⟨⟨_, ⟨e, he, rfl⟩, by simp⟩, ⟨_, ⟨e, he, rfl⟩, by simp⟩⟩,
        ⟨⟨_, ⟨e, he, rfl⟩, by simp⟩, ⟨_, ⟨e, he, rfl⟩, by simp⟩⟩,
        ⟨⟨_, ⟨e, he, rfl⟩, by simp⟩, ⟨_, ⟨e, he, rfl⟩, by simp⟩⟩, Or.inr ⟨_, ⟨e, he, rfl⟩, rfl⟩⟩
  intro e he
  rcases key e he with ⟨h0, -⟩ | h
  · omega
  · exact h

theorem powLoop_has' : ∀ (e : ℤ) (b r c : Poly) (kb kr : Key), 1 ≤ e → b.Has kb → r.Has kr → kr.v = none →
    powLoop e b r = .ok c → c.Has ⟨kr.x + e * kb.x, kr.y + e * kb.y, kr.q + e * kb.q, kb.v⟩ := by
  intro e
  induction hn : e.toNat using Nat.strong_induction_on generalizing e with
  | _ n ih =>
    intro b r c kb kr he hb hr hv h
    rw [Poly.powLoop] at h
    have e2 : 2 * (e / 2) + e % 2 = e := by omega
    generalize hu : e / 2 = u at *
    split_ifs at h with h1 h2
    · obtain ⟨r', hr', h⟩ := Res.bind_eq_ok.1 h
      obtain ⟨b', hb', h⟩ := Res.bind_eq_ok.1 h
      obtain ⟨c1, h3⟩ := has_mul hr hb hr'
      obtain ⟨c2, h4⟩ := has_mul hb hb hb'
      have hbv : kb.v = none := by rcases c2.1 with h | h <;> exact h
      rw [tdiv2 (by omega), hu] at h
      have := ih u.toNat (by omega) u rfl b' r' c _ _ (by omega) h4 h3 (by simp [Key.mul, hv, hbv]) h
      simp only [Key.mul, hbv] at this
      have hue : e = 2 * u + 1 := by omega
      rw [hue, hbv]
      convert this using 2 <;> first | ring | rfl
    · obtain ⟨r', hr', h⟩ := Res.bind_eq_ok.1 h
      cases hr'
      obtain ⟨b', hb', h⟩ := Res.bind_eq_ok.1 h
      obtain ⟨c2, h4⟩ := has_mul hb hb hb'
      have hbv : kb.v = none := by rcases c2.1 with h | h <;> exact h
      rw [tdiv2 (by omega), hu] at h
      have := ih u.toNat (by omega) u rfl b' r c _ _ (by omega) h4 hr hv h
      simp only [Key.mul, hbv] at this
      have hue : e = 2 * u := by omega
      rw [hue, hbv]
      convert this using 2 <;> first | ring | rfl
    · have : e = 1 := by omega
      subst this
      obtain ⟨c1, h3⟩ := has_mul hr hb h
      rw [one_mul, one_mul, one_mul]
      simpa [Key.mul, hv] using h3

/-- `f^n` stores the `n`-th power of every stored monomial of `f`. -/
theorem power_has {f c : Poly} {n : ℤ} (hn : 1 ≤ n) (h : f.power n = .ok c) {k : Key} (hk : f.Has k) :
    c.Has ⟨n * k.x, n * k.y, n * k.q, k.v⟩ := by
  unfold Poly.power at h
  obtain ⟨_, h0, h⟩ := Res.bind_eq_ok.1 h
  rw [if_neg (by omega)] at h
  simpa [Key.one] using powLoop_has' n f one c k Key.one hn hk has_one rfl h

theorem foldlM_iff {α β : Type} {step : β → α → Res β} {R : α → Prop} :
    ∀ (l : List α) (b : β), (∀ e ∈ l, ∀ b, (∃ Q, step b e = .ok Q) ↔ R e) →
      ((∃ Q, l.foldlM step b = .ok Q) ↔ ∀ e ∈ l, R e) := by
  intro l
  induction l with
  | nil => intro b _; simp only [List.foldlM_nil, List.not_mem_nil, false_imp_iff, implies_true, iff_true]; exact ⟨_, rfl⟩
  | cons a t ih =>
    intro b h
    rw [List.foldlM_cons]
    constructor
    · rintro ⟨Q, hQ⟩ e he
      obtain ⟨b', hb', hQ⟩ := Res.bind_eq_ok.1 hQ
      rcases List.mem_cons.1 he with rfl | he
      · exact (h _ (by simp) b).1 ⟨_, hb'⟩
      · exact (ih b' (fun e he => h e (by simp [he]))).1 ⟨Q, hQ⟩ e he
    · intro hR
      obtain ⟨b', hb'⟩ := (h a (by simp) b).2 (hR a (by simp))
      rw [hb', Res.ok_bind]
      exact (ih b' (fun e he => h e (by simp [he]))).2 (fun e he => hR e (by simp [he]))

/-- The step of both substitutions: a power, a product with one monomial, a product with a constant. -/
theorem substStep_iff {f : Poly} (hf : ∀ e ∈ f.entries, InI32 e.1.xpow ∧ InI32 e.1.ypow ∧ InI32 e.1.qpow)
    {n c : ℤ} {t : Term} (ht : t.coef ≠ 0) (hx : InI32 t.monomial.xpow) (hy : InI32 t.monomial.ypow)
    (hq : InI32 t.monomial.qpow) (pol : Poly) :
    (∃ Q, (do
      let s := (TermBuilder.new.coef c).build.toPol
      let g ← (do
        let g ← f.power n
        g.mul t.toPol)
      let h ← g.mul s
      Res.ok (pol.addAssign h)) = .ok Q) ↔
    0 ≤ n ∧
      (2 ≤ n → ∀ m ∈ f.entries, m.1.var.empty = true ∧ InI32 (n * m.1.xpow) ∧ InI32 (n * m.1.ypow) ∧
        InI32 (n * m.1.qpow)) ∧
      (1 ≤ n → ∀ m ∈ f.entries, (m.1.var.empty = true ∨ t.monomial.var.empty = true) ∧
        InI32 (n * m.1.xpow + t.monomial.xpow) ∧ InI32 (n * m.1.ypow + t.monomial.ypow) ∧
        InI32 (n * m.1.qpow + t.monomial.qpow)) := by
  have hts : t.toPol.Has t.monomial.key := by
    rw [has_iff, look_toPol, if_pos ⟨ht, rfl⟩]; rfl
  have htA : t.toPol.All (fun k => k = t.monomial.key) := all_toPol (fun _ => rfl)
  constructor
  · rintro ⟨Q, hQ⟩
    obtain ⟨g, hg, hQ⟩ := Res.bind_eq_ok.1 hQ
    obtain ⟨g0, hg0, hg⟩ := Res.bind_eq_ok.1 hg
    obtain ⟨h0, h2⟩ := (C90_power f n hf).1.1 ⟨g0, hg0⟩
    refine ⟨h0, h2, fun h1 m hm => ?_⟩
    obtain ⟨hc, -⟩ := has_mul (power_has h1 hg0 ⟨m, hm, rfl⟩) hts hg
    obtain ⟨c1, c2, c3, c4⟩ := hc
    exact ⟨c1.imp SubVar.key_eq_none.1 SubVar.key_eq_none.1, c2, c3, c4⟩
  · rintro ⟨h0, h2, h1⟩
    obtain ⟨g0, hg0⟩ := (C90_power f n hf).1.2 ⟨h0, h2⟩
    rw [hg0]
    dsimp only [Res.ok_bind]
    obtain ⟨g, hg⟩ : ∃ g, g0.mul t.toPol = .ok g := by
      refine mul_ok fun ie hi je hj => ?_
      rw [htA je hj]
      rcases eq_or_lt_of_le h0 with hn | hn
      · subst hn
        have : g0 = one := by
          have : Poly.power f 0 = .ok one := rfl
          rw [this] at hg0; cases hg0; rfl
        subst this
        have hone : Poly.one.All (fun k => k = Key.one) := all_one rfl
        rw [hone ie hi]
        refine ⟨Or.inl rfl, ?_, ?_, ?_⟩ <;> simpa [Key.one, Monomial.key] using by assumption
      · have hn : 1 ≤ n := hn
        obtain ⟨⟨⟨_, ⟨u1, v1, rfl⟩, w1⟩, ⟨_, ⟨u2, v2, rfl⟩, w2⟩⟩, ⟨⟨_, ⟨u3, v3, rfl⟩, w3⟩, ⟨_, ⟨u4, v4, rfl⟩, w4⟩⟩,
          ⟨⟨_, ⟨u5, v5, rfl⟩, w5⟩, ⟨_, ⟨u6, v6, rfl⟩, w6⟩⟩, hv⟩ := power_keys hn hg0 ie hi
        have a1 := (h1 hn u1 v1).2.1
        have a2 := (h1 hn u2 v2).2.1
        have a3 := (h1 hn u3 v3).2.2.1
        have a4 := (h1 hn u4 v4).2.2.1
        have a5 := (h1 hn u5 v5).2.2.2
        have a6 := (h1 hn u6 v6).2.2.2
        refine ⟨?_, ⟨?_, ?_⟩, ⟨?_, ?_⟩, ⟨?_, ?_⟩⟩
        · rcases hv with hv | ⟨_, ⟨m, hm, rfl⟩, hv⟩
          · exact Or.inl hv
          · rw [hv]
            exact ((h1 hn m hm).1).imp SubVar.key_eq_none.2 SubVar.key_eq_none.2
        all_goals simp only [Monomial.key, InI32] at *
        all_goals omega
    rw [hg]
    dsimp only [Res.ok_bind]
    have hcA : (TermBuilder.new.coef c).build.toPol.All (fun k => k = Key.one) := all_toPol (fun _ => rfl)
    have hgI : g.All (fun k => InI32 k.x ∧ InI32 k.y ∧ InI32 k.q) :=
      all_mul (a := g0) (S := fun _ => True) (fun _ _ => trivial) htA
        (by rintro k k' - - hc; exact hc.2) hg
    obtain ⟨h, hh⟩ := mul_ok (a := g) (b := (TermBuilder.new.coef c).build.toPol) (fun ie hi je hj => by
      obtain ⟨a1, a2, a3⟩ := hgI ie hi
      rw [hcA je hj]
      refine ⟨Or.inr rfl, ?_, ?_, ?_⟩ <;> simpa [Key.one] using by assumption)
    rw [hh]
    exact ⟨_, rfl⟩

/-! ### `power_modulo` -/

/-- A family of sets of monomials in which the `n`-th power of `b` can be formed. -/
theorem exists_graded {b : Poly} {n : ℤ} (hn : 0 ≤ n)
    (h : ∀ e ∈ b.entries, e.1.var.empty = true ∧ InI32 (n * e.1.xpow) ∧ InI32 (n * e.1.ypow) ∧ InI32 (n * e.1.qpow)) :
    ∃ T, Graded n T ∧ b.All (T 1) := by
  obtain ⟨lx, hx, x1, x2, x3, x4, x5⟩ := exists_bounds (b.entries.map (·.1.xpow)) n hn (by
    simp only [List.mem_map]; rintro x ⟨e, he, rfl⟩; exact (h e he).2.1)
  obtain ⟨ly, hy, y1, y2, y3, y4, y5⟩ := exists_bounds (b.entries.map (·.1.ypow)) n hn (by
    simp only [List.mem_map]; rintro x ⟨e, he, rfl⟩; exact (h e he).2.2.1)
  obtain ⟨lq, hq, q1, q2, q3, q4, q5⟩ := exists_bounds (b.entries.map (·.1.qpow)) n hn (by
    simp only [List.mem_map]; rintro x ⟨e, he, rfl⟩; exact (h e he).2.2.2)
  refine ⟨fun i k => 0 ≤ i ∧ k.v = none ∧ (i * lx ≤ k.x ∧ k.x ≤ i * hx) ∧
      (i * ly ≤ k.y ∧ k.y ≤ i * hy) ∧ (i * lq ≤ k.q ∧ k.q ≤ i * hq), ⟨by simp [Key.one], ?_, ?_⟩, ?_⟩
  · rintro m m' k k' ⟨a0, a1, a2, a3, a4⟩ ⟨b0, b1, b2, b3, b4⟩
    refine ⟨by omega, by simp [Key.mul, a1, b1], ?_, ?_, ?_⟩ <;> simp only [Key.mul, add_mul] <;> omega
  · rintro m m' k k' ⟨a0, a1, a2, a3, a4⟩ ⟨b0, b1, b2, b3, b4⟩ hN
    exact ⟨Or.inl a1, interval (k := m + m') (by omega) hN x3 x4 x1 x2 (by rw [add_mul]; omega) (by rw [add_mul]; omega),
      interval (k := m + m') (by omega) hN y3 y4 y1 y2 (by rw [add_mul]; omega) (by rw [add_mul]; omega),
      interval (k := m + m') (by omega) hN q3 q4 q1 q2 (by rw [add_mul]; omega) (by rw [add_mul]; omega)⟩
  · intro e he
    have e1 := x5 e.1.xpow (List.mem_map.2 ⟨e, he, rfl⟩)
    have e2 := y5 e.1.ypow (List.mem_map.2 ⟨e, he, rfl⟩)
    have e3 := q5 e.1.qpow (List.mem_map.2 ⟨e, he, rfl⟩)
    refine ⟨by omega, SubVar.key_eq_none.2 (h e he).1, ?_, ?_, ?_⟩ <;> rw [one_mul, one_mul] <;> assumption

/-- The monomials in lexicographic order, a given exponent first. -/
def lexKey (g : Key → ℤ) (k : Key) : ℤ ×ₗ ℤ ×ₗ ℤ ×ₗ ℤ := toLex (g k, toLex (k.x, toLex (k.y, k.q)))

/-- `k` is the largest monomial of `b`, has no variable, and its coefficient is not divisible by `p`. -/
def IsTop (g : Key → ℤ) (p : ℤ) (b : Poly) (k : Key) : Prop :=
  ¬ p ∣ b.coef k ∧ k.v = none ∧ b.All (fun k' => k'.v = none ∧ lexKey g k' ≤ lexKey g k)

theorem lexKey_mul {g : Key → ℤ} (hg : ∀ k k', g (k.mul k') = g k + g k') (k k' : Key) :
    lexKey g (k.mul k') = lexKey g k + lexKey g k' := by
  unfold lexKey
  rw [hg]
  rfl

theorem lexKey_inj {g : Key → ℤ} {k k' : Key} (hv : k.v = none) (hv' : k'.v = none) (h : lexKey g k = lexKey g k') :
    k = k' := by
  obtain ⟨x, y, q, v⟩ := k
  obtain ⟨x', y', q', v'⟩ := k'
  simp only [lexKey, EmbeddingLike.apply_eq_iff_eq, Prod.mk.injEq] at h hv hv'
  obtain ⟨-, rfl, rfl, rfl⟩ := h
  subst hv hv'
  rfl

theorem IsTop.has {g : Key → ℤ} {p : ℤ} {b : Poly} {k : Key} (h : IsTop g p b k) : b.Has k :=
  mem_of_coef_ne fun h0 => h.1 (by rw [h0]; exact dvd_zero p)

theorem IsTop.mul {g : Key → ℤ} (hg : ∀ k k', g (k.mul k') = g k + g k') {p : ℤ} (hp : Prime p) (hp0 : 0 < p)
    {a b d c : Poly} {k k' : Key} (ha : IsTop g p a k) (hb : IsTop g p b k') (h : a.mul b = .ok d)
    (hc : d.modularAssign p = .ok c) : IsTop g p c (k.mul k') := by
  obtain ⟨a1, a2, a3⟩ := ha
  obtain ⟨b1, b2, b3⟩ := hb
  have hm := modularAssign_eq_ok hp0 hc
  refine ⟨?_, by simp [Key.mul, a2, b2], hm.all ?_⟩
  · rw [hm.coef]
    have : d.coef (k.mul k') = a.coef k * b.coef k' := by
      rw [coef_eq_lin, coef_eq_lin, coef_eq_lin]
      refine lin_mul h fun ie hi je hj _ => ?_
      obtain ⟨i1, i2⟩ := a3 ie hi
      obtain ⟨j1, j2⟩ := b3 je hj
      have hiff : ie.1.key.mul je.1.key = k.mul k' ↔ ie.1.key = k ∧ je.1.key = k' := ?_
      · simp only [hiff]
        by_cases e1 : ie.1.key = k <;> by_cases e2 : je.1.key = k' <;> simp [e1, e2]
      constructor
      · intro e
        have := congrArg (lexKey g) e
        rw [lexKey_mul hg, lexKey_mul hg, add_eq_add_iff_eq_and_eq i2 j2] at this
        exact ⟨lexKey_inj i1 a2 this.1, lexKey_inj j1 b2 this.2⟩
      · rintro ⟨rfl, rfl⟩; rfl
    rw [this]
    intro hd
    have : p ∣ a.coef k * b.coef k' := (Int.dvd_iff_emod_eq_zero).2 (by
      have := Int.dvd_iff_emod_eq_zero.1 hd
      rwa [Int.emod_emod_of_dvd _ dvd_rfl] at this)
    exact (hp.dvd_or_dvd this).elim a1 b1
  · refine all_mul a3 b3 ?_ h
    rintro l l' ⟨i1, i2⟩ ⟨j1, j2⟩ -
    refine ⟨by simp [Key.mul, i1, j1], ?_⟩
    rw [lexKey_mul hg, lexKey_mul hg]
    exact add_le_add i2 j2

theorem powModLoop_top {g : Key → ℤ} (hg : ∀ k k', g (k.mul k') = g k + g k') {p : ℤ} (hp : Prime p) (hp0 : 0 < p) :
    ∀ (e : ℤ) (b r c : Poly) (kb kr : Key), 1 ≤ e → IsTop g p b kb → IsTop g p r kr → powModLoop p e b r = .ok c →
      InI32 (kr.x + e * kb.x) ∧ InI32 (kr.y + e * kb.y) ∧ InI32 (kr.q + e * kb.q) := by
  intro e
  induction hn : e.toNat using Nat.strong_induction_on generalizing e with
  | _ n ih =>
    intro b r c kb kr he hb hr h
    rw [Poly.powModLoop] at h
    have e2 : 2 * (e / 2) + e % 2 = e := by omega
    generalize hu : e / 2 = u at *
    split_ifs at h with h1 h2
    · obtain ⟨r', hr', h⟩ := Res.bind_eq_ok.1 h
      obtain ⟨r1, hr1, hr'⟩ := Res.bind_eq_ok.1 hr'
      obtain ⟨b1, hb1, h⟩ := Res.bind_eq_ok.1 h
      obtain ⟨b', hb', h⟩ := Res.bind_eq_ok.1 h
      rw [tdiv2 (by omega), hu] at h
      obtain ⟨h5, h6, h7⟩ := ih u.toNat (by omega) u rfl b' r' c _ _ (by omega) (hb.mul hg hp hp0 hb hb1 hb')
        (hr.mul hg hp hp0 hb hr1 hr') h
      simp only [Key.mul] at h5 h6 h7
      have hue : e = 2 * u + 1 := by omega
      refine ⟨?_, ?_, ?_⟩
      · rwa [hue, show kr.x + (2 * u + 1) * kb.x = kr.x + kb.x + u * (kb.x + kb.x) by ring]
      · rwa [hue, show kr.y + (2 * u + 1) * kb.y = kr.y + kb.y + u * (kb.y + kb.y) by ring]
      · rwa [hue, show kr.q + (2 * u + 1) * kb.q = kr.q + kb.q + u * (kb.q + kb.q) by ring]
    · obtain ⟨r', hr', h⟩ := Res.bind_eq_ok.1 h
      cases hr'
      obtain ⟨b1, hb1, h⟩ := Res.bind_eq_ok.1 h
      obtain ⟨b', hb', h⟩ := Res.bind_eq_ok.1 h
      rw [tdiv2 (by omega), hu] at h
      obtain ⟨h5, h6, h7⟩ := ih u.toNat (by omega) u rfl b' r c _ _ (by omega) (hb.mul hg hp hp0 hb hb1 hb') hr h
      simp only [Key.mul] at h5 h6 h7
      have hue : e = 2 * u := by omega
      refine ⟨?_, ?_, ?_⟩
      · rwa [hue, show kr.x + (2 * u) * kb.x = kr.x + u * (kb.x + kb.x) by ring]
      · rwa [hue, show kr.y + (2 * u) * kb.y = kr.y + u * (kb.y + kb.y) by ring]
      · rwa [hue, show kr.q + (2 * u) * kb.q = kr.q + u * (kb.q + kb.q) by ring]
    · have : e = 1 := by omega
      subst this
      obtain ⟨r1, hr1, h⟩ := Res.bind_eq_ok.1 h
      rw [one_mul, one_mul, one_mul]
      exact (has_mul hr.has hb.has hr1).1.2

theorem isTop_one {g : Key → ℤ} {p : ℤ} (hp : Prime p) : IsTop g p one Key.one := by
  refine ⟨?_, rfl, all_one ⟨rfl, le_rfl⟩⟩
  have : Poly.one.coef Key.one = 1 := by decide +kernel
  rw [this]
  exact fun h => hp.not_isUnit (isUnit_of_dvd_one h)

/-- A polynomial reduced modulo `p` has a largest monomial. -/
theorem exists_top (g : Key → ℤ) {p : ℤ} {f b : Poly} (hb : ModOf p f b) (hv : b.All (fun k => k.v = none))
    {e : Monomial × Int} (he : e ∈ b.entries) : ∃ k, IsTop g p b k ∧ b.Has k ∧ g e.1.key ≤ g k := by
  obtain ⟨m, hm, hmax⟩ := Finset.exists_max_image b.entries.toFinset (fun e => lexKey g e.1.key) ⟨e, by simpa using he⟩
  have hm : m ∈ b.entries := by simpa using hm
  have hmax : ∀ e ∈ b.entries, lexKey g e.1.key ≤ lexKey g m.1.key := fun e he => hmax e (by simpa using he)
  refine ⟨m.1.key, ⟨?_, hv m hm, fun e' he' => ⟨hv e' he', hmax e' he'⟩⟩, ⟨m, hm, rfl⟩, ?_⟩
  · have h1 := look_of_mem hm
    have h2 := hb m.1.key
    rw [h1] at h2
    rw [hb.coef]
    cases hl : f.look m.1.key with
    | none => rw [hl] at h2; simp at h2
    | some c =>
      rw [hl] at h2
      rw [coef_eq, hl]
      simp only [Option.map_some, Option.filter, Option.getD_some] at h2 ⊢
      intro hd
      have hz : c % p = 0 := by
        have := Int.dvd_iff_emod_eq_zero.1 hd
        rwa [Int.emod_emod_of_dvd _ dvd_rfl] at this
      simp [hz] at h2
  · have := hmax e he
    unfold lexKey at this
    rw [Prod.Lex.toLex_le_toLex] at this
    rcases this with h | h
    · exact h.le
    · exact h.1.le

end Poly

/-- C98: `f.eval_x_polynomial(F)` returns exactly when, for every stored monomial `x^n y^j q^k v` of `f`: `n ≥ 0`; if
`n ≥ 2` then no monomial of `F` has a variable and `n` times its exponents fits in `i32`; and if `n ≥ 1` then no
monomial of `F` has a variable together with `v`, and adding `j` and `k` to `n` times its exponents of `y` and `q` fits
in `i32`. -/
theorem C98_eval_x_polynomial (f F : Poly)
    (hf : ∀ e ∈ f.entries, InI32 e.1.xpow ∧ InI32 e.1.ypow ∧ InI32 e.1.qpow)
    (hF : ∀ e ∈ F.entries, InI32 e.1.xpow ∧ InI32 e.1.ypow ∧ InI32 e.1.qpow) :
    ((∃ c, f.evalXPolynomial F = .ok c) ↔ ∀ e ∈ f.entries, 0 ≤ e.1.xpow ∧
      (2 ≤ e.1.xpow → ∀ m ∈ F.entries, m.1.var.empty = true ∧ InI32 (e.1.xpow * m.1.xpow) ∧
        InI32 (e.1.xpow * m.1.ypow) ∧ InI32 (e.1.xpow * m.1.qpow)) ∧
      (1 ≤ e.1.xpow → ∀ m ∈ F.entries, (m.1.var.empty = true ∨ e.1.var.empty = true) ∧
        InI32 (e.1.xpow * m.1.ypow + e.1.ypow) ∧ InI32 (e.1.xpow * m.1.qpow + e.1.qpow))) ∧
    f.evalXPolynomial F ≠ .timeout := by
  refine ⟨?_, evalXPolynomial_ne_timeout f F⟩
  refine Poly.foldlM_iff _ _ fun e he b => ?_
  obtain ⟨h1, h2, h3⟩ := hf e he
  refine (Poly.substStep_iff (f := F) hF (n := e.1.xpow) (c := e.2)
    (t := (((TermBuilder.new.ypow e.1.ypow).qpow e.1.qpow).var e.1.var).build) (by show (1:ℤ) ≠ 0; norm_num) (by show InI32 0; decide) h2 h3 b).trans ?_
  refine and_congr_right fun h0 => and_congr_right fun hh => ?_
  refine forall_congr' fun hn => forall₂_congr fun m hm => and_congr_right fun _ => ?_
  change InI32 (e.1.xpow * m.1.xpow + 0) ∧ InI32 (e.1.xpow * m.1.ypow + e.1.ypow) ∧
    InI32 (e.1.xpow * m.1.qpow + e.1.qpow) ↔ _
  rw [add_zero]
  refine and_iff_right ?_
  by_cases h2 : 2 ≤ e.1.xpow
  · exact (hh h2 m hm).2.1
  · rw [show e.1.xpow = 1 by omega, one_mul]; exact (hF m hm).1

/-- C98: the same for `eval_y_polynomial`. -/
theorem C98_eval_y_polynomial (f F : Poly)
    (hf : ∀ e ∈ f.entries, InI32 e.1.xpow ∧ InI32 e.1.ypow ∧ InI32 e.1.qpow)
    (hF : ∀ e ∈ F.entries, InI32 e.1.xpow ∧ InI32 e.1.ypow ∧ InI32 e.1.qpow) :
    ((∃ c, f.evalYPolynomial F = .ok c) ↔ ∀ e ∈ f.entries, 0 ≤ e.1.ypow ∧
      (2 ≤ e.1.ypow → ∀ m ∈ F.entries, m.1.var.empty = true ∧ InI32 (e.1.ypow * m.1.xpow) ∧
        InI32 (e.1.ypow * m.1.ypow) ∧ InI32 (e.1.ypow * m.1.qpow)) ∧
      (1 ≤ e.1.ypow → ∀ m ∈ F.entries, (m.1.var.empty = true ∨ e.1.var.empty = true) ∧
        InI32 (e.1.ypow * m.1.xpow + e.1.xpow) ∧ InI32 (e.1.ypow * m.1.qpow + e.1.qpow))) ∧
    f.evalYPolynomial F ≠ .timeout := by
  refine ⟨?_, evalYPolynomial_ne_timeout f F⟩
  refine Poly.foldlM_iff _ _ fun e he b => ?_
  obtain ⟨h1, h2, h3⟩ := hf e he
  refine (Poly.substStep_iff (f := F) hF (n := e.1.ypow) (c := e.2)
    (t := (((TermBuilder.new.xpow e.1.xpow).qpow e.1.qpow).var e.1.var).build) (by show (1:ℤ) ≠ 0; norm_num) h1 (by show InI32 0; decide) h3 b).trans ?_
  refine and_congr_right fun h0 => and_congr_right fun hh => ?_
  refine forall_congr' fun hn => forall₂_congr fun m hm => and_congr_right fun _ => ?_
  change InI32 (e.1.ypow * m.1.xpow + e.1.xpow) ∧ InI32 (e.1.ypow * m.1.ypow + 0) ∧
    InI32 (e.1.ypow * m.1.qpow + e.1.qpow) ↔ _
  rw [add_zero]
  refine and_congr_right fun _ => and_iff_right ?_
  by_cases h2 : 2 ≤ e.1.ypow
  · exact (hh h2 m hm).2.2.1
  · rw [show e.1.ypow = 1 by omega, one_mul]; exact (hF m hm).2.1

/-- C98: for a prime `p`, `f.power_modulo(n, p)` returns exactly when `n ≥ 0` and, if `n ≥ 2`, every stored monomial
of `f` whose coefficient is not divisible by `p` has no variable and `n` times each of its exponents fits in `i32`. -/
theorem C98_power_modulo (f : Poly) (n p : ℤ) (hp : Nat.Prime p.toNat)
    (hf : ∀ e ∈ f.entries, InI32 e.1.xpow ∧ InI32 e.1.ypow ∧ InI32 e.1.qpow) :
    ((∃ c, f.powerModulo n p = .ok c) ↔ 0 ≤ n ∧ (2 ≤ n → ∀ e ∈ f.entries, ¬ p ∣ e.2 → e.1.var.empty = true ∧
      InI32 (n * e.1.xpow) ∧ InI32 (n * e.1.ypow) ∧ InI32 (n * e.1.qpow))) ∧ f.powerModulo n p ≠ .timeout := by
  have hp2 := hp.two_le
  have hp0 : 0 < p := by omega
  have hpp : Prime p := by
    rw [show p = (p.toNat : ℤ) by omega]; exact Nat.prime_iff_prime_int.1 hp
  obtain ⟨b, hb, hbM⟩ := rem_ok f hp0
  -- the entries of `f % p`
  have hent : ∀ k : Key, b.Has k ↔ ∃ e ∈ f.entries, e.1.key = k ∧ ¬ p ∣ e.2 := by
    intro k
    rw [has_iff, hbM k]
    constructor
    · intro h
      cases hl : f.look k with
      | none => rw [hl] at h; simp at h
      | some c =>
        obtain ⟨e, he, hk, hc⟩ := look_eq_some hl
        refine ⟨e, he, hk, fun hd => ?_⟩
        rw [hl] at h
        rw [hc] at hd
        simp [Option.filter, Int.dvd_iff_emod_eq_zero.1 hd] at h
    · rintro ⟨e, he, rfl, hd⟩
      rw [look_of_mem he]
      rw [Int.dvd_iff_emod_eq_zero] at hd
      simp [Option.filter, hd]
  have hbi : ∀ e ∈ b.entries, InI32 e.1.xpow ∧ InI32 e.1.ypow ∧ InI32 e.1.qpow := by
    intro e he
    obtain ⟨e', he', hk, -⟩ := (hent e.1.key).1 ⟨e, he, rfl⟩
    have := hf e' he'
    simp only [Monomial.key, Key.mk.injEq] at hk
    rw [hk.1, hk.2.1, hk.2.2.1] at this
    exact this
  have hrw : f.powerModulo n p = rassert (decide (n ≥ 0)) >>= fun _ => Poly.powModLoop p n b one := by
    unfold Poly.powerModulo
    rw [hb]; rfl
  refine ⟨⟨?_, ?_⟩, ?_⟩
  · rintro ⟨c, h⟩
    rw [hrw] at h
    obtain ⟨_, h0, h⟩ := Res.bind_eq_ok.1 h
    have hn : 0 ≤ n := by simpa [rassert_eq_ok] using h0
    refine ⟨hn, fun h2 => ?_⟩
    have hv : b.All (fun k => k.v = none) := by
      have h' := h
      have hsq : ∃ b1, b.mul b = .ok b1 := by
        rw [Poly.powModLoop] at h'
        split_ifs at h' with g1 g2
        · obtain ⟨_, -, h'⟩ := Res.bind_eq_ok.1 h'
          obtain ⟨b1, hb1, h'⟩ := Res.bind_eq_ok.1 h'
          exact ⟨b1, hb1⟩
        · obtain ⟨_, -, h'⟩ := Res.bind_eq_ok.1 h'
          obtain ⟨b1, hb1, h'⟩ := Res.bind_eq_ok.1 h'
          exact ⟨b1, hb1⟩
        · omega
      obtain ⟨b1, hb1⟩ := hsq
      intro e he
      rcases (has_mul ⟨e, he, rfl⟩ ⟨e, he, rfl⟩ hb1).1.1 with h | h <;> exact h
    have main : ∀ e ∈ b.entries, e.1.var.empty = true ∧ InI32 (n * e.1.xpow) ∧ InI32 (n * e.1.ypow) ∧
        InI32 (n * e.1.qpow) := by
      intro e he
      have key : ∀ g : Key → ℤ, (∀ k k', g (k.mul k') = g k + g k') → g Key.one = 0 →
          ∃ k, b.Has k ∧ g e.1.key ≤ g k ∧ InI32 (n * k.x) ∧ InI32 (n * k.y) ∧ InI32 (n * k.q) := by
        intro g hg hg0
        obtain ⟨k, hk, hk', hle⟩ := exists_top g hbM hv he
        obtain ⟨a1, a2, a3⟩ := powModLoop_top hg hpp hp0 n b one c k Key.one (by omega) hk (isTop_one hpp) h
        simp only [Key.one, zero_add] at a1 a2 a3
        exact ⟨k, hk', hle, a1, a2, a3⟩
      obtain ⟨k1, -, l1, m1, -, -⟩ := key (fun k => k.x) (fun _ _ => rfl) rfl
      obtain ⟨k2, -, l2, m2, -, -⟩ := key (fun k => -k.x) (fun _ _ => by simp only [Key.mul]; ring) rfl
      obtain ⟨k3, -, l3, -, m3, -⟩ := key (fun k => k.y) (fun _ _ => rfl) rfl
      obtain ⟨k4, -, l4, -, m4, -⟩ := key (fun k => -k.y) (fun _ _ => by simp only [Key.mul]; ring) rfl
      obtain ⟨k5, -, l5, -, -, m5⟩ := key (fun k => k.q) (fun _ _ => rfl) rfl
      obtain ⟨k6, -, l6, -, -, m6⟩ := key (fun k => -k.q) (fun _ _ => by simp only [Key.mul]; ring) rfl
      simp only [Monomial.key] at l1 l2 l3 l4 l5 l6
      refine ⟨SubVar.key_eq_none.1 (hv e he), ⟨?_, ?_⟩, ⟨?_, ?_⟩, ⟨?_, ?_⟩⟩
      · have := m2.1; nlinarith
      · have := m1.2; nlinarith
      · have := m4.1; nlinarith
      · have := m3.2; nlinarith
      · have := m6.1; nlinarith
      · have := m5.2; nlinarith
    intro e he hd
    obtain ⟨e', he', hk⟩ := (hent e.1.key).2 ⟨e, he, rfl, hd⟩
    obtain ⟨a1, a2⟩ := main e' he'
    have hk2 := hk
    simp only [Monomial.key, Key.mk.injEq] at hk
    rw [hk.1, hk.2.1, hk.2.2.1] at a2
    refine ⟨?_, a2⟩
    rw [← SubVar.key_eq_none] at a1 ⊢
    rw [← hk.2.2.2]; exact a1
  · rintro ⟨hn, h⟩
    rw [hrw]
    have : rassert (decide (n ≥ 0)) = .ok () := by simp [rassert, hn]
    rw [this, Res.ok_bind]
    by_cases h2 : 2 ≤ n
    · obtain ⟨T, hT, hbT⟩ := exists_graded (b := b) hn (fun e he => by
        obtain ⟨e', he', hk, hd⟩ := (hent e.1.key).1 ⟨e, he, rfl⟩
        obtain ⟨a1, a2⟩ := h h2 e' he' hd
        simp only [Monomial.key, Key.mk.injEq] at hk
        rw [hk.1, hk.2.1, hk.2.2.1] at a2
        refine ⟨?_, a2⟩
        rw [← SubVar.key_eq_none] at a1 ⊢
        rw [← hk.2.2.2]; exact a1)
      obtain ⟨c, hc, -⟩ := hT.powModLoop hp0 n b one 0 1 le_rfl (by omega) hbT (all_one hT.one_mem) (by omega)
      exact ⟨c, hc⟩
    · rw [Poly.powModLoop, if_neg (by omega)]
      obtain ⟨r1, hr1⟩ : ∃ r, one.mul b = .ok r := by
        refine mul_ok fun ie hi je hj => ?_
        have hone : Poly.one.All (fun k => k = Key.one) := all_one rfl
        rw [hone ie hi]
        obtain ⟨a1, a2, a3⟩ := hbi je hj
        refine ⟨Or.inl rfl, ?_, ?_, ?_⟩ <;> simpa [Key.one] using by assumption
      obtain ⟨r', hr', -⟩ := modularAssign_ok r1 hp0
      unfold mulAssign
      rw [hr1, Res.ok_bind, hr']
      exact ⟨_, rfl⟩
  · rw [hrw]
    exact Res.bind_ne_timeout (rassert_ne_timeout _) fun _ => powModLoop_ne_timeout _ _ _ _

-- `x^2 y` with `x` replaced by `x + 1`; `x^2` with `x` replaced by `x^(2^30)` does not return
example : ∃ c, ((TermBuilder.new.xpow 2).ypow 1).build.toPol.evalXPolynomial sampleX1 = .ok c :=
  (C98_eval_x_polynomial _ sampleX1 (by decide +kernel) (by decide +kernel)).1.2 (by decide +kernel)
example : ¬ ∃ c, (TermBuilder.new.xpow 2).build.toPol.evalXPolynomial (TermBuilder.new.xpow 1073741824).build.toPol = .ok c := by
  rw [(C98_eval_x_polynomial _ _ (by decide +kernel) (by decide +kernel)).1]
  decide +kernel
-- a power modulo 5 exists although the integer power does not: the large monomial has a coefficient divisible by 5
example : ∃ c, ((TermBuilder.new.coef 5).xpow 1073741824).build.toPol.powerModulo 2 5 = .ok c :=
  (C98_power_modulo _ 2 5 (by show Nat.Prime 5; norm_num) (by decide +kernel)).1.2 ⟨by norm_num, fun _ => by decide +kernel⟩
example : ¬ ∃ c, ((TermBuilder.new.coef 5).xpow 1073741824).build.toPol.powerModulo 2 7 = .ok c := by
  rw [(C98_power_modulo _ 2 7 (by show Nat.Prime 7; norm_num) (by decide +kernel)).1]
  intro h
  exact absurd (h.2 le_rfl) (by decide +kernel)
-- for a modulus that is not prime the condition is not necessary: `(2 x^(2^29))^4` modulo 4 is found to be zero before
-- its exponent overflows
example : ((TermBuilder.new.coef 2).xpow 536870912).build.toPol.powerModulo 4 4 = .ok Poly.new := by decide +kernel

end EC
