import Verif.Props.NormalForm
import Verif.Lemmas.RootsFp
import Verif.Lemmas.NoTimeout

/-! C90: on exactly which polynomials `power`, `to_frob`, `to_y_power`, `to_q_power`, `reduction` and
`reduction_modular` return. -/

namespace EC
open Poly Polynomial

namespace Poly

/-- A stored monomial (its coefficient may be zero). -/
def Has (P : Poly) (k : Key) : Prop := ∃ e ∈ P.entries, e.1.key = k

theorem has_iff {P : Poly} {k : Key} : P.Has k ↔ (P.look k).isSome := by
  constructor
  · rintro ⟨e, he, rfl⟩; rw [look_of_mem he]; rfl
  · intro h
    obtain ⟨c, hc⟩ := Option.isSome_iff_exists.1 h
    obtain ⟨e, he, hk, -⟩ := look_eq_some hc
    exact ⟨e, he, hk⟩

theorem has_mul {a b c : Poly} {k k' : Key} (ha : a.Has k) (hb : b.Has k') (h : a.mul b = .ok c) :
    k.Compat k' ∧ c.Has (k.mul k') := by
  obtain ⟨h1, -, h3⟩ := mul_eq_ok h
  obtain ⟨e, he, rfl⟩ := ha
  obtain ⟨e', he', rfl⟩ := hb
  refine ⟨h1 e he e' he', ?_⟩
  rw [has_iff, h3]
  exact ⟨e, he, e', he', rfl⟩

theorem powLoop_has : ∀ (e : ℤ) (b r c : Poly) (kb kr : Key), 1 ≤ e → b.Has kb → r.Has kr → kr.v = none →
    powLoop e b r = .ok c → (2 ≤ e → kb.v = none) ∧
      InI32 (kr.x + e * kb.x) ∧ InI32 (kr.y + e * kb.y) ∧ InI32 (kr.q + e * kb.q) := by
  intro e
  induction hn : e.toNat using Nat.strong_induction_on generalizing e with
  | _ n ih =>
    intro b r c kb kr he hb hr hv h
    rw [Poly.powLoop] at h
    have e2 : 2 * (e / 2) + e % 2 = e := by omega
    generalize hu : e / 2 = u at *
    split_ifs at h with h1 h2
    · obtain ⟨r', hr', h⟩ := Res.bind_eq_ok.1 h
      obtain ⟨b', hb', h⟩ := Res.bind_eq_ok.1 h
      obtain ⟨c1, h3⟩ := has_mul hr hb hr'
      obtain ⟨c2, h4⟩ := has_mul hb hb hb'
      have hbv : kb.v = none := by rcases c2.1 with h | h <;> exact h
      rw [tdiv2 (by omega), hu] at h
      obtain ⟨-, h5, h6, h7⟩ := ih u.toNat (by omega) u rfl b' r' c _ _ (by omega) h4 h3
        (by simp [Key.mul, hv, hbv]) h
      simp only [Key.mul] at h5 h6 h7
      have hue : e = 2 * u + 1 := by omega
      refine ⟨fun _ => hbv, ?_, ?_, ?_⟩
      · rwa [hue, show kr.x + (2 * u + 1) * kb.x = kr.x + kb.x + u * (kb.x + kb.x) by ring]
      · rwa [hue, show kr.y + (2 * u + 1) * kb.y = kr.y + kb.y + u * (kb.y + kb.y) by ring]
      · rwa [hue, show kr.q + (2 * u + 1) * kb.q = kr.q + kb.q + u * (kb.q + kb.q) by ring]
    · obtain ⟨r', hr', h⟩ := Res.bind_eq_ok.1 h
      cases hr'
      obtain ⟨b', hb', h⟩ := Res.bind_eq_ok.1 h
      obtain ⟨c2, h4⟩ := has_mul hb hb hb'
      have hbv : kb.v = none := by rcases c2.1 with h | h <;> exact h
      rw [tdiv2 (by omega), hu] at h
      obtain ⟨-, h5, h6, h7⟩ := ih u.toNat (by omega) u rfl b' r c _ _ (by omega) h4 hr hv h
      simp only [Key.mul] at h5 h6 h7
      have hue : e = 2 * u := by omega
      refine ⟨fun _ => hbv, ?_, ?_, ?_⟩
      · rwa [hue, show kr.x + (2 * u) * kb.x = kr.x + u * (kb.x + kb.x) by ring]
      · rwa [hue, show kr.y + (2 * u) * kb.y = kr.y + u * (kb.y + kb.y) by ring]
      · rwa [hue, show kr.q + (2 * u) * kb.q = kr.q + u * (kb.q + kb.q) by ring]
    · have : e = 1 := by omega
      subst this
      obtain ⟨c1, h3⟩ := has_mul hr hb h
      rw [one_mul, one_mul, one_mul]
      exact ⟨fun h => by omega, c1.2⟩

theorem has_one : Poly.one.Has Key.one := by
  have : ∃ e ∈ Poly.one.entries, e.1.key = ⟨0, 0, 0, none⟩ := by decide +kernel
  exact this

theorem interval {lo hi x n k : ℤ} (h0 : 0 ≤ k) (hk : k ≤ n) (hl : -2147483648 ≤ n * lo) (hh : n * hi ≤ 2147483647)
    (hlo : lo ≤ 0) (hhi : 0 ≤ hi) (h1 : k * lo ≤ x) (h2 : x ≤ k * hi) : InI32 x := by
  have a1 : n * lo ≤ k * lo := by nlinarith
  have a2 : k * hi ≤ n * hi := by nlinarith
  exact ⟨by omega, by omega⟩

/-- Bounds of the exponents of a polynomial. -/
theorem exists_bounds (l : List ℤ) (n : ℤ) (hn : 0 ≤ n) (h : ∀ x ∈ l, InI32 (n * x)) :
    ∃ lo hi, lo ≤ 0 ∧ 0 ≤ hi ∧ -2147483648 ≤ n * lo ∧ n * hi ≤ 2147483647 ∧ ∀ x ∈ l, lo ≤ x ∧ x ≤ hi := by
  induction l with
  | nil => exact ⟨0, 0, le_rfl, le_rfl, by simp, by simp, by simp⟩
  | cons a t ih =>
    obtain ⟨lo, hi, h1, h2, h3, h4, h5⟩ := ih (fun x hx => h x (by simp [hx]))
    obtain ⟨a1, a2⟩ := h a (by simp)
    refine ⟨min lo a, max hi a, by omega, by omega, ?_, ?_, ?_⟩
    · rcases min_choice lo a with e | e <;> rw [e] <;> assumption
    · rcases max_choice hi a with e | e <;> rw [e] <;> assumption
    · intro x hx
      rcases List.mem_cons.1 hx with rfl | hx
      · omega
      · have := h5 x hx; omega

theorem power_returns_of {f : Poly} {n : ℤ} (hn : 0 ≤ n)
    (h : ∀ e ∈ f.entries, e.1.var.empty = true ∧ InI32 (n * e.1.xpow) ∧ InI32 (n * e.1.ypow) ∧ InI32 (n * e.1.qpow)) :
    ∃ c, f.power n = .ok c := by
  obtain ⟨lx, hx, x1, x2, x3, x4, x5⟩ := exists_bounds (f.entries.map (·.1.xpow)) n hn (by
    simp only [List.mem_map]; rintro x ⟨e, he, rfl⟩; exact (h e he).2.1)
  obtain ⟨ly, hy, y1, y2, y3, y4, y5⟩ := exists_bounds (f.entries.map (·.1.ypow)) n hn (by
    simp only [List.mem_map]; rintro x ⟨e, he, rfl⟩; exact (h e he).2.2.1)
  obtain ⟨lq, hq, q1, q2, q3, q4, q5⟩ := exists_bounds (f.entries.map (·.1.qpow)) n hn (by
    simp only [List.mem_map]; rintro x ⟨e, he, rfl⟩; exact (h e he).2.2.2)
  have hg : Graded n (fun i k => 0 ≤ i ∧ k.v = none ∧ (i * lx ≤ k.x ∧ k.x ≤ i * hx) ∧
      (i * ly ≤ k.y ∧ k.y ≤ i * hy) ∧ (i * lq ≤ k.q ∧ k.q ≤ i * hq)) := by
    refine ⟨by simp [Key.one], ?_, ?_⟩
    · rintro m m' k k' ⟨a0, a1, a2, a3, a4⟩ ⟨b0, b1, b2, b3, b4⟩
      refine ⟨by omega, by simp [Key.mul, a1, b1], ?_, ?_, ?_⟩ <;> simp only [Key.mul, add_mul] <;> omega
    · rintro m m' k k' ⟨a0, a1, a2, a3, a4⟩ ⟨b0, b1, b2, b3, b4⟩ hN
      exact ⟨Or.inl a1, interval (k := m + m') (by omega) hN x3 x4 x1 x2 (by rw [add_mul]; omega) (by rw [add_mul]; omega),
        interval (k := m + m') (by omega) hN y3 y4 y1 y2 (by rw [add_mul]; omega) (by rw [add_mul]; omega),
        interval (k := m + m') (by omega) hN q3 q4 q1 q2 (by rw [add_mul]; omega) (by rw [add_mul]; omega)⟩
  obtain ⟨c, hc, -⟩ := hg.power (f := f) (n := n) (j := 1) hn (by omega) (fun e he => by
    have e1 := x5 e.1.xpow (List.mem_map.2 ⟨e, he, rfl⟩)
    have e2 := y5 e.1.ypow (List.mem_map.2 ⟨e, he, rfl⟩)
    have e3 := q5 e.1.qpow (List.mem_map.2 ⟨e, he, rfl⟩)
    refine ⟨by omega, SubVar.key_eq_none.2 (h e he).1, ?_, ?_, ?_⟩ <;> rw [one_mul, one_mul] <;> assumption) (by omega)
  exact ⟨c, hc⟩

end Poly

/-- C90: `f.power(n)` returns exactly when `n ≥ 0` and, if `n ≥ 2`, no stored monomial of `f` has a variable and `n`
times each of its exponents fits in `i32`.  (The exponents of `f` themselves are `i32` values.) -/
theorem C90_power (f : Poly) (n : ℤ)
    (hf : ∀ e ∈ f.entries, InI32 e.1.xpow ∧ InI32 e.1.ypow ∧ InI32 e.1.qpow) :
    ((∃ c, f.power n = .ok c) ↔ 0 ≤ n ∧ (2 ≤ n → ∀ e ∈ f.entries, e.1.var.empty = true ∧
      InI32 (n * e.1.xpow) ∧ InI32 (n * e.1.ypow) ∧ InI32 (n * e.1.qpow))) ∧ f.power n ≠ .timeout := by
  refine ⟨⟨?_, ?_⟩, power_ne_timeout f n⟩
  · rintro ⟨c, h⟩
    unfold Poly.power at h
    obtain ⟨_, h0, h⟩ := Res.bind_eq_ok.1 h
    have hn : 0 ≤ n := by simpa [rassert_eq_ok] using h0
    refine ⟨hn, fun h2 e he => ?_⟩
    rw [if_neg (by omega)] at h
    obtain ⟨h3, h4, h5, h6⟩ := powLoop_has n f one c e.1.key Key.one (by omega) ⟨e, he, rfl⟩ has_one rfl h
    refine ⟨SubVar.key_eq_none.1 (h3 h2), ?_, ?_, ?_⟩
    · simpa [Key.one, Monomial.key] using h4
    · simpa [Key.one, Monomial.key] using h5
    · simpa [Key.one, Monomial.key] using h6
  · rintro ⟨hn, h⟩
    by_cases h2 : 2 ≤ n
    · exact power_returns_of hn (h h2)
    · unfold Poly.power
      have : rassert (decide (n ≥ 0)) = .ok () := by simp [rassert, hn]
      rw [this, Res.ok_bind]
      split_ifs with h1
      · exact ⟨_, rfl⟩
      · have : n = 1 := by omega
        subst this
        rw [Poly.powLoop, if_neg (by norm_num)]
        refine mul_ok fun ie hi je hj => ?_
        have hone : Poly.one.All (fun k => k = Key.one) := all_one rfl
        rw [hone ie hi]
        obtain ⟨a1, a2, a3⟩ := hf je hj
        refine ⟨Or.inl rfl, ?_, ?_, ?_⟩ <;> simpa [Key.one] using by assumption

theorem foldlM_insert_iff {f : Monomial × Int → Res Term} {P : Poly} {R : Monomial × Int → Prop}
    (hR : ∀ e ∈ P.entries, (∃ u, f e = .ok u) ↔ R e) :
    (∃ Q, P.entries.foldlM (fun pol e => do
      let u ← f e
      .ok (pol.insert u.monomial u.coef)) new = .ok Q) ↔ ∀ e ∈ P.entries, R e := by
  constructor
  · rintro ⟨Q, h⟩ e he
    obtain ⟨us, h1, -⟩ := foldlM_insert_eq_ok h
    rw [← hR e he]
    have : ∀ {l : List (Monomial × Int)} {us : List Term},
        List.Forall₂ (fun e u => f e = .ok u) l us → e ∈ l → ∃ u, f e = .ok u := by
      intro l us h
      induction h with
      | nil => simp
      | @cons a u t us h1 _ ih =>
        intro he
        rcases List.mem_cons.1 he with rfl | he
        · exact ⟨u, h1⟩
        · exact ih he
    exact this h1 he
  · intro h
    exact foldlM_insert_ok _ fun e he => (hR e he).2 (h e he)

/-- C90: the substitutions return exactly when the new exponents fit in `i32`. -/
theorem C90_substitutions (f : Poly) (n : ℤ) :
    ((∃ c, f.toFrob n = .ok c) ↔ ∀ e ∈ f.entries, InI32 (e.1.xpow * n) ∧ InI32 (e.1.ypow * n)) ∧
    ((∃ c, f.toYPower n = .ok c) ↔ ∀ e ∈ f.entries, InI32 (e.1.ypow * n)) ∧
    ((∃ c, f.toQPower n = .ok c) ↔ ∀ e ∈ f.entries, InI32 (e.1.qpow * n)) := by
  refine ⟨foldlM_insert_iff fun e _ => ⟨?_, ?_⟩, foldlM_insert_iff fun e _ => ⟨?_, ?_⟩,
    foldlM_insert_iff fun e _ => ⟨?_, ?_⟩⟩
  · rintro ⟨u, hu⟩; obtain ⟨h1, h2, -⟩ := Term.toFrob_eq_ok.1 hu; exact ⟨h1, h2⟩
  · rintro ⟨h1, h2⟩; exact ⟨_, Term.toFrob_eq_ok.2 ⟨h1, h2, rfl⟩⟩
  · rintro ⟨u, hu⟩; exact (Term.toYPower_eq_ok.1 hu).1
  · intro h1; exact ⟨_, Term.toYPower_eq_ok.2 ⟨h1, rfl⟩⟩
  · rintro ⟨u, hu⟩; exact (Term.toQPower_eq_ok.1 hu).1
  · intro h1; exact ⟨_, Term.toQPower_eq_ok.2 ⟨h1, rfl⟩⟩

namespace Poly

theorem curvePol_has3 (a b : ℤ) : (curvePol a b).Has (Key.xn 3) := by
  refine mem_of_coef_ne (P := curvePol a b) (k := Key.xn 3) ?_
  have h := polyX_coeff (R := ℤ) (curvePol_isX a b) 3
  rw [curvePol_polyX] at h
  have h' : (curvePol a b).coef (Key.xn 3) = 1 := by
    have h2 : ((curvePol a b).coef (Key.xn 3) : ℤ) = _ := h.symm
    rw [h2, coeff_add, coeff_add, coeff_C_mul, coeff_X_pow, coeff_X, coeff_C]
    norm_num
  rw [h']; norm_num

/-- What the loop of the reductions needs. -/
theorem redFold_iff {pw : ℤ → Res Poly} {f : Poly} (hi : ∀ e ∈ f.entries, InI32 e.1.xpow ∧ InI32 e.1.qpow)
    (hpw : ∀ h, 1 ≤ h → ((∃ ee, pw h = .ok ee) ↔ 3 * h ≤ 2147483647))
    (hall : ∀ h ee, 1 ≤ h → pw h = .ok ee → ee.All (fun k => k.IsX ∧ k.x ≤ 3 * h) ∧ ee.Has (Key.xn (3 * h).toNat)) :
    (∃ c, f.entries.foldlM (redStep pw) new = .ok c) ↔ ∀ e ∈ f.entries, 2 ≤ e.1.ypow →
      3 * (e.1.ypow / 2) ≤ 2147483647 ∧ (e.2 ≠ 0 → e.1.xpow + 3 * (e.1.ypow / 2) ≤ 2147483647) := by
  constructor
  · rintro ⟨c, h⟩ e he hy
    have : ∃ t t', redStep pw t e = .ok t' := by
      have key : ∀ (l : List (Monomial × ℤ)) (t c : Poly), l.foldlM (redStep pw) t = .ok c → e ∈ l →
          ∃ t t', redStep pw t e = .ok t' := by
        intro l
        induction l with
        | nil => intro t c _ h; simp at h
        | cons a l ih =>
          intro t c h hm
          rw [List.foldlM_cons, Res.bind_eq_ok] at h
          obtain ⟨u, hu, h⟩ := h
          rcases List.mem_cons.1 hm with rfl | hm
          · exact ⟨_, _, hu⟩
          · exact ih u c h hm
      exact key _ _ _ h he
    obtain ⟨t, t', ht⟩ := this
    obtain ⟨Q, ee, d, h1, h2, h3, h4, -⟩ := redStep_ge hy ht
    have hyk : e.1.key.y = e.1.ypow := rfl
    rw [hyk] at h1 h2 h3
    have h5 := (hpw _ (by omega)).1 ⟨ee, h1⟩
    refine ⟨h5, fun hne => ?_⟩
    obtain ⟨-, h6⟩ := hall _ ee (by omega) h1
    have hQ : Q.Has (e.1.key.setY (e.1.ypow % 2)) := by
      have h7 := h3 (fun k => if k = e.1.key.setY (e.1.ypow % 2) then (1 : ℤ) else 0)
      rw [if_pos rfl, smul_eq_mul, mul_one] at h7
      by_contra hno
      have : Q.entries = [] := by
        by_contra hq
        obtain ⟨x, hx⟩ := List.exists_mem_of_ne_nil _ hq
        exact hno ⟨x, hx, h2 x hx⟩
      unfold lin at h7
      rw [this] at h7
      exact hne (by simpa using h7.symm)
    obtain ⟨⟨-, h8, -⟩, -⟩ := has_mul hQ h6 h4
    have h9 := h8.2
    simp only [Key.setY, Key.xn, Monomial.key] at h9
    omega
  · intro h
    have step : ∀ t, ∀ e ∈ f.entries, ∃ c, redStep pw t e = .ok c := by
      intro t e he
      by_cases hy : 2 ≤ e.1.key.y
      · have hyk : e.1.key.y = e.1.ypow := rfl
        obtain ⟨h1, h2⟩ := h e he hy
        obtain ⟨ee, hee⟩ := (hpw (e.1.ypow / 2) (by omega)).2 h1
        obtain ⟨hA, -⟩ := hall _ ee (by omega) hee
        obtain ⟨i1, i2⟩ := hi e he
        by_cases hz : e.2 = 0
        · -- nothing to multiply
          unfold redStep
          have h2 : (Term.from' e.1 e.2).ypow ≥ 2 := hy
          have hyy : e.1.ypow - Int.fdiv (Term.from' e.1 e.2).ypow 2 * 2 = e.1.key.y % 2 := by
            simp only [fdiv_two, Term.from', Term.ypow, Monomial.key]; omega
          have hQ : ∃ Q : Poly, (Term.from' e.1 e.2).toPol.divAssignTerm
              (TermBuilder.new.ypow (Int.fdiv (Term.from' e.1 e.2).ypow 2 * 2)).build = .ok Q ∧ Q.entries = [] := by
            refine ⟨new, ?_, rfl⟩
            have : (Term.from' e.1 e.2).toPol = new := by
              unfold Term.toPol
              rw [if_pos (by exact hz)]
            rw [this]
            unfold divAssignTerm Poly.div
            rw [ypow_entries]
            rfl
          obtain ⟨Q, hQ, hQn⟩ := hQ
          have hp' : pw (Int.fdiv (Term.from' e.1 e.2).ypow 2) = .ok ee := by
            rw [← hee, fdiv_two]; rfl
          obtain ⟨d, hd⟩ := mul_ok (a := Q) (b := ee) (fun ie hie => by rw [hQn] at hie; simp at hie)
          simp only [h2, if_true, hQ, hp', Res.ok_bind, mulAssign, hd]
          exact ⟨_, rfl⟩
        · have h3 := h2 hz
          refine redStep_ge_ok hy i1 i2 hee (hA.mono ?_)
          rintro k ⟨⟨k1, k2, k3, k4⟩, k5⟩
          have j1 : e.1.key.x = e.1.xpow := rfl
          have j2 : e.1.key.q = e.1.qpow := rfl
          refine ⟨Or.inr k4, ⟨?_, ?_⟩, ⟨?_, ?_⟩, ⟨?_, ?_⟩⟩ <;> simp only [Key.setY] <;>
            (have := i1.1; have := i2.1; have := i2.2; omega)
      · exact ⟨_, redStep_lt (by omega)⟩
    obtain ⟨c, hc, -⟩ := foldlM_total (redStep pw) (fun _ _ => True) f.entries new trivial (by
      rintro pre e t ⟨suf, hsuf⟩ -
      obtain ⟨c, hc⟩ := step t e (by rw [hsuf]; simp)
      exact ⟨c, hc, trivial⟩)
    exact ⟨c, hc⟩

theorem power_curve_has {a b h : ℤ} {ee : Poly} (hh : 1 ≤ h) (he : (curvePol a b).power h = .ok ee) :
    ee.All (fun k => k.IsX ∧ k.x ≤ 3 * h) ∧ ee.Has (Key.xn (3 * h).toNat) ∧ 3 * h ≤ 2147483647 := by
  have h1 := (C90_power (curvePol a b) h (fun e he => by
    obtain ⟨⟨a1, a2, a3, a4⟩, a5⟩ := curvePol_all a b e he
    simp only [Monomial.key] at a1 a2 a3 a5
    exact ⟨⟨by omega, by omega⟩, ⟨by omega, by omega⟩, ⟨by omega, by omega⟩⟩)).1.1 ⟨ee, he⟩
  have h3 : 3 * h ≤ 2147483647 := by
    by_cases h2 : 2 ≤ h
    · obtain ⟨e, hm, hk⟩ := curvePol_has3 a b
      have := ((h1.2 h2 e hm).2.1).2
      have hx : e.1.xpow = 3 := congrArg Key.x hk
      rw [hx] at this; omega
    · omega
  have hX := (Poly.MulFn.power (isX_mulFn (R := ℤ)) (curvePol_isX a b) he).2
  obtain ⟨ee', hee', hall⟩ := graded_XLe.power (n := h) (by omega) (by norm_num) (curvePol_XLe a b) (by omega)
  rw [he] at hee'
  cases hee'
  refine ⟨hall.mono ?_, ?_, h3⟩
  · rintro k ⟨k1, k2⟩; exact ⟨k1, by omega⟩
  · refine mem_of_coef_ne ?_
    have h4 := polyX_coeff (R := ℤ) hX.1 (3 * h).toNat
    have h5 : ee.polyX ℤ = (X ^ 3 + C (a : ℤ) * X + C (b : ℤ)) ^ h.toNat := by
      have := curvePol_polyX ℤ a b
      simp only [Int.cast_id] at this ⊢
      rw [← this]
      unfold polyX
      rw [evalAt_eq_lin, evalAt_eq_lin]
      exact (Poly.MulFn.power (mulFn_evalAt (X : ℤ[X]) 0 0 0) ((curvePol_isX a b).mono fun _ h => h.nonneg) he).2.2
    have hmon : (X ^ 3 + C (a : ℤ) * X + C (b : ℤ)).Monic ∧ (X ^ 3 + C (a : ℤ) * X + C (b : ℤ)).natDegree = 3 := by
      constructor
      · monicity!
      · compute_degree!
    have h6 := (hmon.1.pow h.toNat).coeff_natDegree
    rw [hmon.1.natDegree_pow, hmon.2, ← h5, show h.toNat * 3 = (3 * h).toNat by omega, h4] at h6
    intro hz
    rw [hz] at h6
    simp at h6

/-- The keys of a product and of its reduction modulo `p` are `i32` values. -/
theorem mulMod_i32 {r b d c : Poly} {p : ℤ} (hp : 0 < p) (h : r.mul b = .ok d) (hc : d.modularAssign p = .ok c) :
    c.All (fun k => InI32 k.x) :=
  (modularAssign_eq_ok hp hc).all (all_mul (S := fun _ => True) (T := fun _ => True) (fun _ _ => trivial)
    (fun _ _ => trivial) (fun k k' _ _ hk => hk.2.1) h)

theorem powModLoop_i32 {p : ℤ} (hp : 0 < p) : ∀ (e : ℤ) (b r c : Poly), powModLoop p e b r = .ok c →
    c.All (fun k => InI32 k.x) := by
  intro e
  induction hn : e.toNat using Nat.strong_induction_on generalizing e with
  | _ n ih =>
    intro b r c h
    rw [Poly.powModLoop] at h
    split_ifs at h with h1 h2
    · obtain ⟨r', hr', h⟩ := Res.bind_eq_ok.1 h
      obtain ⟨b', hb', h⟩ := Res.bind_eq_ok.1 h
      obtain ⟨b'', hb'', h⟩ := Res.bind_eq_ok.1 h
      rw [tdiv2 (by omega)] at h
      exact ih _ (by omega) _ rfl _ _ _ h
    · obtain ⟨r', hr', h⟩ := Res.bind_eq_ok.1 h
      obtain ⟨b', hb', h⟩ := Res.bind_eq_ok.1 h
      obtain ⟨b'', hb'', h⟩ := Res.bind_eq_ok.1 h
      rw [tdiv2 (by omega)] at h
      exact ih _ (by omega) _ rfl _ _ _ h
    · obtain ⟨r', hr', h⟩ := Res.bind_eq_ok.1 h
      exact mulMod_i32 hp hr' h

theorem powerModulo_curve_has {a b p h : ℤ} {ee : Poly} (hp : 2 ≤ p) (hh : 1 ≤ h)
    (he : (curvePol a b).powerModulo h p = .ok ee) :
    ee.All (fun k => k.IsX ∧ k.x ≤ 3 * h) ∧ ((ee.coef (Key.xn (3 * h).toNat) : ℤ) : ZMod p.toNat) = 1 ∧
      3 * h ≤ 2147483647 := by
  have hi : ee.All (fun k => InI32 k.x) := by
    have h' := he
    unfold Poly.powerModulo at h'
    obtain ⟨_, _, h'⟩ := Res.bind_eq_ok.1 h'
    obtain ⟨_, _, h'⟩ := Res.bind_eq_ok.1 h'
    exact powModLoop_i32 (by omega) _ _ _ _ h'
  have hz : (p : ZMod p.toNat) = 0 := (zmod_eq_zero_iff (by omega) p).2 dvd_rfl
  have hnt : Nontrivial (ZMod p.toNat) := ZMod.nontrivial_iff.2 (by omega)
  have hXX := (powerModulo_curve he).2
  have hK : ∀ m : (ZMod p.toNat)[X], p • m = 0 := by
    intro m
    rw [zsmul_eq_mul, ← Polynomial.C_eq_intCast, hz, map_zero, zero_mul]
  obtain ⟨-, -, hl, -⟩ := MulFn.powerModulo (mulFn_evalAt (X : (ZMod p.toNat)[X]) 0 0 0) (p := p) (by omega) hK
    ((curvePol_isX a b).mono fun _ h => h.nonneg) he
  have h5 : ee.polyX (ZMod p.toNat) = (X ^ 3 + C (a : ZMod p.toNat) * X + C (b : ZMod p.toNat)) ^ h.toNat := by
    rw [← curvePol_polyX]
    unfold polyX
    rw [evalAt_eq_lin, evalAt_eq_lin, hl, show max h 1 = h by omega]
  have hmon : (X ^ 3 + C (a : ZMod p.toNat) * X + C (b : ZMod p.toNat)).Monic ∧
      (X ^ 3 + C (a : ZMod p.toNat) * X + C (b : ZMod p.toNat)).natDegree = 3 := by
    constructor
    · monicity!
    · compute_degree!
  have h6 := (hmon.1.pow h.toNat).coeff_natDegree
  rw [hmon.1.natDegree_pow, hmon.2, ← h5, show h.toNat * 3 = (3 * h).toNat by omega, polyX_coeff hXX] at h6
  have hhas : ee.Has (Key.xn (3 * h).toNat) := by
    refine mem_of_coef_ne fun hz => ?_
    rw [hz] at h6
    simp at h6
  have h3 : 3 * h ≤ 2147483647 := by
    obtain ⟨e, hm, hk⟩ := hhas
    have := (hi e hm).2
    rw [hk] at this
    simp only [Key.xn] at this
    omega
  refine ⟨?_, h6, h3⟩
  obtain ⟨ee', hee', hall⟩ := graded_XLe.powerModulo (n := h) (p := p) (by omega) (by omega) (by norm_num)
    (curvePol_XLe a b) (by rw [show max h 1 = h by omega]; omega)
  rw [he] at hee'
  cases hee'
  refine hall.mono ?_
  rintro k ⟨k1, k2⟩
  rw [show max h 1 = h by omega] at k2
  exact ⟨k1, by omega⟩

end Poly

/-- C90: `f.reduction(a,b)` returns exactly when, for every stored monomial `x^i y^j ..` with `j ≥ 2`, the power
`(x^3 + a x + b)^(j/2)` can be formed and, unless the stored coefficient is zero, multiplied by `x^i`: the exponents
`3 (j/2)` and `i + 3 (j/2)` fit in `i32`.  Otherwise it panics. -/
theorem C90_reduction (f : Poly) (a b : ℤ) (hf : ∀ e ∈ f.entries, InI32 e.1.xpow ∧ InI32 e.1.qpow) :
    (∃ c, f.reduction a b = .ok c) ↔ ∀ e ∈ f.entries, 2 ≤ e.1.ypow →
      3 * (e.1.ypow / 2) ≤ 2147483647 ∧ (e.2 ≠ 0 → e.1.xpow + 3 * (e.1.ypow / 2) ≤ 2147483647) := by
  rw [reduction_eq]
  refine redFold_iff hf (fun h hh => ⟨?_, fun h3 => ?_⟩) (fun h ee hh he => ?_)
  · rintro ⟨ee, he⟩; exact (power_curve_has hh he).2.2
  · obtain ⟨ee, hee, -⟩ := graded_XLe.power (n := h) (by omega) (by norm_num) (curvePol_XLe a b) (by omega)
    exact ⟨ee, hee⟩
  · exact ⟨(power_curve_has hh he).1, (power_curve_has hh he).2.1⟩

/-- C90: the same for `f.reduction_modular(a,b,p)`, `p ≥ 2`. -/
theorem C90_reduction_modular (f : Poly) (a b p : ℤ) (hp : 2 ≤ p)
    (hf : ∀ e ∈ f.entries, InI32 e.1.xpow ∧ InI32 e.1.qpow) :
    (∃ c, f.reductionModular a b p = .ok c) ↔ ∀ e ∈ f.entries, 2 ≤ e.1.ypow →
      3 * (e.1.ypow / 2) ≤ 2147483647 ∧ (e.2 ≠ 0 → e.1.xpow + 3 * (e.1.ypow / 2) ≤ 2147483647) := by
  -- the inner call changes nothing
  have inner : ∀ h ee, 1 ≤ h → (curvePol a b).powerModulo h p = .ok ee →
      ∃ g, reductionModularAux a b p 1 ee = .ok g ∧ g.All (fun k => k.IsX ∧ k.x ≤ 3 * h) ∧ g.Has (Key.xn (3 * h).toNat) := by
    intro h ee hh he
    obtain ⟨h1, h2, h3⟩ := powerModulo_curve_has hp hh he
    have hnt : Nontrivial (ZMod p.toNat) := ZMod.nontrivial_iff.2 (by omega)
    have hy : ee.All fun k => k.y < 2 := h1.mono fun k hk => by rw [hk.1.2.1]; norm_num
    have e1 : reductionModularAux a b p 1 ee = ee.reductionModular a b p := (reductionModular_inner hy a b p 1).symm
    obtain ⟨g, hg⟩ := C21_returns ee a b p (by omega) (fun e he => by
      obtain ⟨⟨a1, a2, a3, a4⟩, a5⟩ := h1 e he
      simp only [Monomial.key] at a1 a2 a3 a5
      exact ⟨a1, ⟨by omega, by omega⟩, fun h => by omega⟩)
    refine ⟨g, e1.trans hg, redMod_all (by omega) hg h1 (fun k hk _ => hk) ?_, ?_⟩
    · intro k k' hk hk2 _ _
      rw [hk.1.2.1] at hk2; omega
    · have hz : (p : ZMod p.toNat) = 0 := (zmod_eq_zero_iff (by omega) p).2 dvd_rfl
      have hK : ∀ m : ZMod p.toNat, p • m = 0 := by
        intro m
        rw [zsmul_eq_mul, hz, zero_mul]
      have h4 := redMod_lin (by omega) hK hg hy (fun k => if k = Key.xn (3 * h).toNat then (1 : ZMod p.toNat) else 0)
      have h5 : ∀ P : Poly, (P.coef (Key.xn (3 * h).toNat) : ZMod p.toNat) =
          P.lin (fun k => if k = Key.xn (3 * h).toNat then (1 : ZMod p.toNat) else 0) := by
        intro P
        unfold coef lin
        rw [← eq_intCast (Int.castRingHom (ZMod p.toNat)), map_list_sum, List.map_map]
        congr 1
        apply List.map_congr_left
        intro e _
        simp only [Function.comp]
        split_ifs <;> simp
      rw [← h5, ← h5, h2] at h4
      refine mem_of_coef_ne fun h0 => ?_
      rw [h0] at h4
      simp at h4
  unfold reductionModular
  rw [reductionModularAux_eq]
  rw [← redFold_iff (pw := fun y => (curvePol a b).powerModulo y p >>= reductionModularAux a b p 1) hf
    (fun h hh => ⟨?_, fun h3 => ?_⟩) (fun h ee hh he => ?_)]
  · constructor
    · rintro ⟨c, h⟩
      obtain ⟨t, ht, -⟩ := Res.bind_eq_ok.1 h
      exact ⟨t, ht⟩
    · rintro ⟨t, ht⟩
      obtain ⟨r, hr, -⟩ := modularAssign_ok t (p := p) (by omega)
      exact ⟨r, by rw [ht, Res.ok_bind, hr]⟩
  · rintro ⟨ee, he⟩
    obtain ⟨e1, he1, -⟩ := Res.bind_eq_ok.1 he
    exact (powerModulo_curve_has hp hh he1).2.2
  · obtain ⟨ee, hee, -⟩ := graded_XLe.powerModulo (n := h) (p := p) (by omega) (by omega) (by norm_num)
      (curvePol_XLe a b) (by rw [show max h 1 = h by omega]; omega)
    obtain ⟨g, hg, -⟩ := inner h ee hh hee
    exact ⟨g, by rw [hee, Res.ok_bind, hg]⟩
  · obtain ⟨e1, he1, he2⟩ := Res.bind_eq_ok.1 he
    obtain ⟨g, hg, h1, h2⟩ := inner h e1 hh he1
    rw [hg] at he2
    cases he2
    exact ⟨h1, h2⟩

/-- C90: none of these calls loops for ever: where they do not return, they panic. -/
theorem C90_no_loop (f : Poly) (n a b p : ℤ) : f.power n ≠ .timeout ∧ f.toFrob n ≠ .timeout ∧ f.toYPower n ≠ .timeout ∧
    f.toQPower n ≠ .timeout ∧ f.reduction a b ≠ .timeout ∧ f.reductionModular a b p ≠ .timeout := by
  refine ⟨power_ne_timeout f n, ?_, ?_, toQPower_ne_timeout f n, ?_, (C21_recursion_stops f a b p).2⟩
  · unfold toFrob Term.toFrob
    nt
  · unfold toYPower Term.toYPower
    nt
  · unfold reduction
    refine foldlM_ne_timeout (fun t e => ?_) _ _
    dsimp only
    split
    · refine Res.bind_ne_timeout (div_ne_timeout _ _) fun _ => Res.bind_ne_timeout (power_ne_timeout _ _) fun _ =>
        Res.bind_ne_timeout (mul_ne_timeout _ _) fun _ => Res.ok_ne_timeout _
    · exact Res.ok_ne_timeout _

-- `(x + 1)^5` is formed; `(x^(2^30))^2` and a square with a subscripted variable are not
example : ∃ c, sampleX1.power 5 = .ok c :=
  (C90_power sampleX1 5 (by decide +kernel)).1.2 ⟨by norm_num, fun _ => by decide +kernel⟩
example : ¬ ∃ c, (TermBuilder.new.xpow 1073741824).build.toPol.power 2 = .ok c := by
  rw [(C90_power _ 2 (by decide +kernel)).1]
  intro h
  have : ¬ ∀ e ∈ (TermBuilder.new.xpow 1073741824).build.toPol.entries, e.1.var.empty = true ∧
      InI32 (2 * e.1.xpow) ∧ InI32 (2 * e.1.ypow) ∧ InI32 (2 * e.1.qpow) := by decide +kernel
  exact this (h.2 le_rfl)
example : ∃ c, sampleRed.reduction 1 1 = .ok c :=
  (C90_reduction sampleRed 1 1 (by decide +kernel)).2 (by decide +kernel)
-- `y^1431655766` cannot be reduced, `y^1431655765` is within the range
example : ¬ ∃ c, (TermBuilder.new.ypow 1431655766).build.toPol.reductionModular 1 1 5 = .ok c := by
  rw [C90_reduction_modular _ 1 1 5 (by norm_num) (by decide +kernel)]
  decide +kernel
example : ∃ c, (TermBuilder.new.ypow 1431655765).build.toPol.reductionModular 1 1 5 = .ok c := by
  rw [C90_reduction_modular _ 1 1 5 (by norm_num) (by decide +kernel)]
  decide +kernel

end EC
