import Verif.Lemmas.Fuel
import Verif.Lemmas.SchoofSign
import Verif.Props.DivPoly

/-! Bounds on exponents, under which the steps of `schoof` return. -/

namespace EC
namespace Poly
open Polynomial

/-- `x^i y^j` with `0 ≤ i ≤ X`, `0 ≤ j ≤ Y`. -/
def Bd (X Y : ℤ) (k : Key) : Prop := k.IsXY ∧ k.x ≤ X ∧ k.y ≤ Y

variable {X Y X' Y' : ℤ} {f g : Poly} {a b p : ℤ}

theorem Bd.mono {k : Key} (h : Bd X Y k) (hX : X ≤ X') (hY : Y ≤ Y') : Bd X' Y' k :=
  ⟨h.1, h.2.1.trans hX, h.2.2.trans hY⟩

theorem Bd.mul {k k' : Key} (h : Bd X Y k) (h' : Bd X' Y' k') : Bd (X + X') (Y + Y') (k.mul k') := by
  obtain ⟨x, y, q, v⟩ := k
  obtain ⟨x', y', q', v'⟩ := k'
  obtain ⟨⟨h1, h2, h3, h4⟩, h5, h6⟩ := h
  obtain ⟨⟨h1', h2', h3', h4'⟩, h5', h6'⟩ := h'
  simp only at *
  subst h3 h4 h3' h4'
  refine ⟨⟨?_, ?_, ?_, ?_⟩, ?_, ?_⟩ <;> simp only [Key.mul, Option.or_none, add_zero] <;> omega

theorem Bd.compat {k k' : Key} (h : Bd X Y k) (h' : Bd X' Y' k') (hX : X + X' ≤ 2147483647)
    (hY : Y + Y' ≤ 2147483647) : k.Compat k' := by
  obtain ⟨x, y, q, v⟩ := k
  obtain ⟨x', y', q', v'⟩ := k'
  obtain ⟨⟨h1, h2, h3, h4⟩, h5, h6⟩ := h
  obtain ⟨⟨h1', h2', h3', h4'⟩, h5', h6'⟩ := h'
  simp only at *
  subst h3 h4 h3' h4'
  refine ⟨by simp, ⟨?_, ?_⟩, ⟨?_, ?_⟩, ⟨?_, ?_⟩⟩ <;> simp only <;> omega

theorem bd_mono (h : f.All (Bd X Y)) (hX : X ≤ X') (hY : Y ≤ Y') : f.All (Bd X' Y') :=
  fun e he => (h e he).mono hX hY

theorem bd_mul (hf : f.All (Bd X Y)) (hg : g.All (Bd X' Y')) (hX : X + X' ≤ 2147483647)
    (hY : Y + Y' ≤ 2147483647) : ∃ c, f.mul g = .ok c ∧ c.All (Bd (X + X') (Y + Y')) := by
  obtain ⟨c, hc⟩ := mul_ok (a := f) (b := g) (fun ie hi je hj => (hf ie hi).compat (hg je hj) hX hY)
  exact ⟨c, hc, all_mul hf hg (fun _ _ h1 h2 _ => h1.mul h2) hc⟩

theorem bd_power {n : ℤ} (hn : 0 ≤ n) (hX0 : 0 ≤ X) (hY0 : 0 ≤ Y) (hf : f.All (Bd X Y)) (hX : n * X ≤ 2147483647)
    (hY : n * Y ≤ 2147483647) : ∃ c, f.power n = .ok c ∧ c.All (Bd (n * X) (n * Y)) := by
  have hg : Graded n (fun i k => 0 ≤ i ∧ Bd (i * X) (i * Y) k) := by
    refine ⟨⟨le_refl _, by simp [Bd, Key.IsXY, Key.one]⟩, ?_, ?_⟩
    · rintro m n k k' ⟨h0, h⟩ ⟨h0', h'⟩
      refine ⟨by omega, ?_⟩
      have := h.mul h'; rwa [← add_mul, ← add_mul] at this
    · rintro m n k k' ⟨h0, h⟩ ⟨h0', h'⟩ hmn
      refine h.compat h' ?_ ?_
      · nlinarith
      · nlinarith
  obtain ⟨c, hc, h1⟩ := hg.power (f := f) (n := n) (j := 1) hn (by norm_num)
    (by intro e he; exact ⟨by norm_num, by simpa using hf e he⟩) (by omega)
  refine ⟨c, hc, fun e he => ?_⟩
  have := (h1 e he).2
  rwa [mul_one] at this

theorem bd_sub (hf : f.All (Bd X Y)) (hg : g.All (Bd X' Y')) : (f.sub g).All (Bd (max X X') (max Y Y')) :=
  all_sub (bd_mono hf (le_max_left _ _) (le_max_left _ _)) (bd_mono hg (le_max_right _ _) (le_max_right _ _))

theorem bd_add (hf : f.All (Bd X Y)) (hg : g.All (Bd X' Y')) : (f.add g).All (Bd (max X X') (max Y Y')) :=
  all_add (bd_mono hf (le_max_left _ _) (le_max_left _ _)) (bd_mono hg (le_max_right _ _) (le_max_right _ _))

theorem bd_neg (hf : f.All (Bd X Y)) : f.neg.All (Bd X Y) := all_neg hf

theorem bd_rem (hp : 0 < p) (hf : f.All (Bd X Y)) : ∃ c, f.rem p = .ok c ∧ c.All (Bd X Y) := by
  obtain ⟨c, hc, hm⟩ := rem_ok f hp
  exact ⟨c, hc, hm.all hf⟩

theorem bd_modular (hp : 0 < p) (hf : f.All (Bd X Y)) : ∃ c, f.modularAssign p = .ok c ∧ c.All (Bd X Y) := by
  obtain ⟨c, hc, hm⟩ := modularAssign_ok f hp
  exact ⟨c, hc, hm.all hf⟩

theorem bd_reduce (hp : 1 ≤ p) (hY0 : 0 ≤ Y) (hf : f.All (Bd X Y)) (hX : X + 3 * (Y / 2) ≤ 2147483647) :
    ∃ c, f.reductionModular a b p = .ok c ∧ c.All (Bd (X + 3 * (Y / 2)) 1) := by
  obtain ⟨c, hc⟩ := C21_returns f a b p hp (by
    intro e he
    obtain ⟨⟨h1, h2, h3, h4⟩, h5, h6⟩ := hf e he
    simp only [Monomial.key] at *
    refine ⟨h1, by rw [h3]; decide, fun _ => by omega⟩)
  refine ⟨c, hc, ?_⟩
  unfold reductionModular at hc
  rw [reductionModularAux_eq, Res.bind_eq_ok] at hc
  obtain ⟨t, ht, h⟩ := hc
  refine (modularAssign_eq_ok (by omega) h).all ?_
  refine redFold_all (W := fun y k => y ≤ 715827882 → XLe y k) ?_ hf ?_ ?_ ht
  · intro y ee hy he
    by_cases hb : y ≤ 715827882
    swap
    · exact fun e _ h => absurd h hb
    rw [Res.bind_eq_ok] at he
    obtain ⟨e1, h1, h2⟩ := he
    have h3 : e1.All (XLe y) := by
      obtain ⟨c', hc', hall⟩ := graded_XLe.powerModulo (p := p) (by omega) (n := y) (by omega)
        (by norm_num) (curvePol_XLe a b) (by omega)
      rw [h1] at hc'
      cases hc'
      rwa [show max y 1 * 1 = y by omega] at hall
    rw [reductionModularAux_eq, Res.bind_eq_ok] at h2
    obtain ⟨t1, ht1, h2⟩ := h2
    have h4 : t1.All (XLe y) := by
      refine redFold_all (W := fun _ _ => False) ?_ h3 (fun k hk _ => hk) (fun _ _ _ _ h _ => h.elim) ht1
      intro y ee' _ he''
      rw [Res.bind_eq_ok] at he''
      obtain ⟨_, -, h⟩ := he''
      simp [reductionModularAux] at h
    exact fun e he _ => (modularAssign_eq_ok (by omega) h2).all h4 e he
  · rintro k ⟨k1, k2, k3⟩ h
    exact ⟨k1, by omega, by omega⟩
  · rintro k k' ⟨⟨k1, k2, k3, k4⟩, k5, k6⟩ hy hk' -
    obtain ⟨⟨j1, j2, j3, j4⟩, j5⟩ := hk' (by omega)
    refine ⟨⟨?_, ?_, ?_, ?_⟩, ?_, ?_⟩ <;> simp only [Key.mul, Key.setY, k3, k4, j2, j3, j4] <;> first | omega | simp

/-- `x^i y^j` that reduces to terms with exponent of `x` at most `X`. -/
def Wd (X : ℤ) (k : Key) : Prop := k.IsXY ∧ k.x + 3 * (k.y / 2) ≤ X

theorem wd_reduce (hp : 1 ≤ p) (hf : f.All (Wd X)) (hX : X ≤ 2147483647) :
    ∃ c, f.reductionModular a b p = .ok c ∧ c.All (Bd X 1) := by
  obtain ⟨c, hc⟩ := C21_returns f a b p hp (by
    intro e he
    obtain ⟨⟨h1, h2, h3, h4⟩, h5⟩ := hf e he
    simp only [Monomial.key] at *
    refine ⟨h1, by rw [h3]; decide, fun _ => by omega⟩)
  refine ⟨c, hc, ?_⟩
  unfold reductionModular at hc
  rw [reductionModularAux_eq, Res.bind_eq_ok] at hc
  obtain ⟨t, ht, h⟩ := hc
  refine (modularAssign_eq_ok (by omega) h).all ?_
  refine redFold_all (W := fun y k => y ≤ 715827882 → XLe y k) ?_ hf ?_ ?_ ht
  · intro y ee hy he
    by_cases hb : y ≤ 715827882
    swap
    · exact fun e _ h => absurd h hb
    rw [Res.bind_eq_ok] at he
    obtain ⟨e1, h1, h2⟩ := he
    have h3 : e1.All (XLe y) := by
      obtain ⟨c', hc', hall⟩ := graded_XLe.powerModulo (p := p) (by omega) (n := y) (by omega)
        (by norm_num) (curvePol_XLe a b) (by omega)
      rw [h1] at hc'
      cases hc'
      rwa [show max y 1 * 1 = y by omega] at hall
    rw [reductionModularAux_eq, Res.bind_eq_ok] at h2
    obtain ⟨t1, ht1, h2⟩ := h2
    have h4 : t1.All (XLe y) := by
      refine redFold_all (W := fun _ _ => False) ?_ h3 (fun k hk _ => hk) (fun _ _ _ _ h _ => h.elim) ht1
      intro y ee' _ he''
      rw [Res.bind_eq_ok] at he''
      obtain ⟨_, -, h⟩ := he''
      simp [reductionModularAux] at h
    exact fun e he _ => (modularAssign_eq_ok (by omega) h2).all h4 e he
  · rintro k ⟨k1, k2⟩ h
    exact ⟨k1, by have := k1.2.1; omega, by omega⟩
  · rintro k k' ⟨⟨k1, k2, k3, k4⟩, k5⟩ hy hk' -
    obtain ⟨⟨j1, j2, j3, j4⟩, j5⟩ := hk' (by omega)
    refine ⟨⟨?_, ?_, ?_, ?_⟩, ?_, ?_⟩ <;> simp only [Key.mul, Key.setY, k3, k4, j2, j3, j4] <;> first | omega | simp

theorem bd_frob {n : ℤ} (hn : 0 ≤ n) (hf : f.All (Bd X Y)) (hX : X * n ≤ 2147483647) (hY : Y * n ≤ 2147483647) :
    ∃ c, f.toFrob n = .ok c ∧ c.All (Bd (X * n) (Y * n)) := by
  unfold toFrob
  refine foldlM_total _ (fun _ (c : Poly) => c.All (Bd (X * n) (Y * n))) f.entries new all_new ?_
  rintro pre e t ⟨suf, hsuf⟩ ht
  obtain ⟨⟨h1, h2, h3, h4⟩, h5, h6⟩ := hf e (by rw [hsuf]; simp)
  simp only [Monomial.key] at h1 h2 h3 h4 h5 h6
  have x0 : 0 ≤ e.1.xpow * n := by positivity
  have y0 : 0 ≤ e.1.ypow * n := by positivity
  have x1 : e.1.xpow * n ≤ X * n := by nlinarith
  have y1 : e.1.ypow * n ≤ Y * n := by nlinarith
  have hu := (Term.toFrob_eq_ok (t := Term.from' e.1 e.2) (n := n)
    (u := { coef := e.2, monomial := { xpow := e.1.xpow * n, ypow := e.1.ypow * n, qpow := e.1.qpow, var := e.1.var } })).2
    ⟨⟨by simp only [Term.from', Term.xpow]; omega, by simp only [Term.from', Term.xpow]; omega⟩,
      ⟨by simp only [Term.from', Term.ypow]; omega, by simp only [Term.from', Term.ypow]; omega⟩, rfl⟩
  refine ⟨_, by rw [hu, Res.ok_bind], ?_⟩
  refine all_insert ht ?_ _
  exact ⟨⟨x0, y0, h3, h4⟩, x1, y1⟩

/-- Terms `x^i y^j` with `j` between -1 and 1, as the division step on polynomials meets them. -/
def Bu (X : ℤ) (k : Key) : Prop := k.IsXU ∧ -1 ≤ k.y ∧ k.y ≤ 1 ∧ k.x ≤ X

theorem Bd.bu {k : Key} (h : Bd X 1 k) : Bu X k := ⟨⟨h.1.1, h.1.2.2.1, h.1.2.2.2⟩, by have := h.1.2.1; omega, h.2.2, h.2.1⟩

theorem bu_modular (hp : 0 < p) (hf : f.All (Bu X)) : ∃ c, f.modularAssign p = .ok c ∧ c.All (Bu X) := by
  obtain ⟨c, hc, hm⟩ := modularAssign_ok f hp
  exact ⟨c, hc, hm.all hf⟩

theorem bd_divY (hf : f.All (Bd X 1)) (hX : X ≤ 2147483647) :
    ∃ c, f.divTerm (TermBuilder.new.ypow 1).build = .ok c ∧ c.All (Bu X) := by
  obtain ⟨c, hc⟩ : ∃ c, f.divTerm (TermBuilder.new.ypow 1).build = .ok c := by
    unfold divTerm
    apply div_single_ok (ypow_entries 1) rfl one_ne_zero
    intro e he
    obtain ⟨⟨h1, h2, h3, h4⟩, h5, h6⟩ := hf e he
    simp only [Monomial.key] at *
    refine ⟨⟨?_, ?_⟩, ⟨?_, ?_⟩, ⟨?_, ?_⟩⟩ <;> omega
  refine ⟨c, hc, ?_⟩
  unfold divTerm at hc
  obtain ⟨-, -, h3, h4⟩ := div_single (ypow_entries 1) hc
  rw [all_iff]
  intro k v hkv
  obtain ⟨e, he, rfl, -⟩ := (h3 k v).1 hkv
  obtain ⟨⟨h1, h2, h3, h4⟩, h5, h6⟩ := hf e he
  simp only [Monomial.key] at *
  refine ⟨⟨?_, ?_, ?_⟩, ?_, ?_, ?_⟩ <;> simp only [Key.div] <;> first | omega | simpa using h4

theorem coef_eq_lin (P : Poly) (k : Key) : P.coef k = P.lin (fun k' => if k' = k then (1 : ℤ) else 0) := by
  unfold coef lin
  congr 1
  apply List.map_congr_left
  intro e _
  by_cases h : e.1.key = k <;> simp [h]

/-- The loop of `polynomial_modular` ends. -/
theorem polyModLoop_total (hp : Nat.Prime p.toNat) {other : Poly} (ho : other.All Key.IsX)
    (hox : 0 < other.highestTermX.xpow) (hoc : ¬ p ∣ other.highestTermX.coef) : ∀ (n : ℕ) (r : Poly),
    r.All (fun k => Bu 2147483647 k ∧ 3 * k.x + k.y + 2 ≤ n) →
    ∃ g, polyModLoop other.highestTermX other p (n + 1) r = .ok g := by
  have hp2 : 2 ≤ p := by have := hp.two_le; omega
  have hp0 : 0 < p := by omega
  have hone : other.entries ≠ [] := by
    intro h0
    rw [highestTermX_of_nil h0] at hox
    simp [Term.new, Term.xpow] at hox
  obtain ⟨oe, hoe, hoh, homax⟩ := highestTermX_of_ne hone
  have hoX := ho oe hoe
  rw [hoh] at hox hoc ⊢
  simp only [Term.from', Term.xpow] at hox
  simp only [Term.from'] at hoc
  intro n
  induction n with
  | zero =>
    intro r hr
    have : r.entries = [] := by
      by_contra hne
      obtain ⟨e, he, -⟩ := highestTermX_of_ne hne
      obtain ⟨⟨⟨h1, -⟩, h2, -, -⟩, h3⟩ := hr e he
      push_cast at h3; omega
    refine ⟨r, ?_⟩
    rw [polyModLoop]
    simp only
    rw [if_pos]
    rw [highestTermX_of_nil this]
    simpa [Term.new, Term.xpow, Term.from'] using hox
  | succ n ih =>
    intro r hr
    rw [polyModLoop]
    simp only
    split_ifs with hlt
    · exact ⟨r, rfl⟩
    have hne : r.entries ≠ [] := by
      intro h0
      apply hlt
      rw [highestTermX_of_nil h0]
      simpa [Term.new, Term.xpow, Term.from'] using hox
    obtain ⟨re, hre, hrh, hrmax⟩ := highestTermX_of_ne hne
    rw [hrh] at hlt ⊢
    simp only [Term.from', Term.xpow, Term.ypow, Term.qpow] at hlt ⊢
    obtain ⟨⟨⟨r1, r2, r3⟩, r4, r5, r6⟩, r7⟩ := hr re hre
    obtain ⟨o1, o2, o3, o4⟩ := hoX
    simp only [Monomial.key] at r1 r2 r3 r4 r5 r6 r7 o1 o2 o3 o4
    obtain ⟨inv, hinv, i1, i2, -, i3⟩ := inverse_spec oe.2 p hp
    rw [hinv, Res.ok_bind, chk_of ⟨by omega, by omega⟩, Res.ok_bind, modularAssign_term hp0, Res.ok_bind]
    set qt : Term := { ((((TermBuilder.new.coef (re.2 * inv)).xpow (re.1.xpow - oe.1.xpow)).ypow re.1.ypow).qpow
      re.1.qpow).build with coef := ((((TermBuilder.new.coef (re.2 * inv)).xpow (re.1.xpow - oe.1.xpow)).ypow re.1.ypow).qpow
      re.1.qpow).build.coef % p } with hqt
    have hqk : qt.monomial.key = { x := re.1.xpow - oe.1.xpow, y := re.1.ypow, q := re.1.qpow, v := none } := rfl
    have hqc : qt.coef = (re.2 * inv) % p := rfl
    have hqT : qt.toPol.All (fun k => k = qt.monomial.key) := all_toPol (fun _ => rfl)
    have hoT : other.All (fun k => k.IsX ∧ k.x ≤ oe.1.xpow ∧ (k.x = oe.1.xpow → k = oe.1.key)) := fun e he => by
      refine ⟨ho e he, ?_, fun hx => ?_⟩
      · rcases homax e he with h | h
        · rw [h]; rfl
        · rw [Key.lt_iff] at h
          simp only [Monomial.key] at h ⊢
          omega
      · obtain ⟨u1, u2, u3, u4⟩ := ho e he
        simp only [Monomial.key] at u1 u2 u3 u4 hx ⊢
        rw [hx, u2, u3, u4, o2, o3, o4]
    obtain ⟨d0, hd0⟩ : ∃ d, termMul qt other = .ok d := mul_ok (fun ie hi je hj => by
      rw [hqT ie hi, hqk]
      obtain ⟨⟨u1, u2, u3, u4⟩, u5, -⟩ := hoT je hj
      refine ⟨Or.inl rfl, ⟨?_, ?_⟩, ⟨?_, ?_⟩, ⟨?_, ?_⟩⟩ <;> simp only <;> omega)
    obtain ⟨d, hd, hdm⟩ := modularAssign_ok d0 hp0
    obtain ⟨r', hr', hrm⟩ := modularAssign_ok (r.subAssign d) hp0
    rw [hd0, Res.ok_bind, hd, Res.ok_bind, hr', Res.ok_bind]
    apply ih
    -- the monomials of the new polynomial
    have hall : r'.All (fun k => Bu 2147483647 k ∧ (3 * k.x + k.y < 3 * re.1.xpow + re.1.ypow ∨ k = re.1.key)) := by
      refine hrm.all (all_subAssign ?_ (hdm.all ?_))
      · intro e he
        refine ⟨(hr e he).1, ?_⟩
        obtain ⟨⟨⟨v1, v2, v3⟩, v4, v5, v6⟩, -⟩ := hr e he
        rcases hrmax e he with h | h
        · exact .inr h
        · left
          rw [Key.lt_iff] at h
          simp only [Monomial.key] at *
          rcases h with h | ⟨h, h | ⟨h', h'' | ⟨-, h''⟩⟩⟩
          · omega
          · omega
          · omega
          · exfalso
            have : e.1.key = re.1.key := by
              simp only [Monomial.key, Key.mk.injEq]; exact ⟨h, h', by omega, by rw [v3, r3]⟩
            have hk : (e.1.key).Lt re.1.key := by
              rw [Key.lt_iff]; simp only [Monomial.key]; exact .inr ⟨h, .inr ⟨h', .inr ⟨by omega, h''⟩⟩⟩
            exact hk.ne this
      · refine all_mul hqT hoT ?_ hd0
        rintro k k' rfl ⟨⟨u1, u2, u3, u4⟩, u5, u6⟩ -
        rw [hqk]
        refine ⟨⟨⟨?_, ?_, ?_⟩, ?_, ?_, ?_⟩, ?_⟩
        · simp only [Key.mul]; omega
        · simp only [Key.mul]; omega
        · simp only [Key.mul, u4]; rfl
        · simp only [Key.mul]; omega
        · simp only [Key.mul]; omega
        · simp only [Key.mul]; omega
        · by_cases hx : k'.x = oe.1.xpow
          · right
            simp only [Key.mul, Monomial.key, Key.mk.injEq, u4]
            exact ⟨by omega, by omega, by omega, by rw [r3]; rfl⟩
          · left
            simp only [Key.mul]
            omega
    -- the leading term cancels
    have hcan : r'.coef re.1.key = 0 := by
      rw [hrm.coef, coef_eq_lin, lin_subAssign, ← coef_eq_lin, ← coef_eq_lin, hdm.coef, coef_of_mem hre]
      have h1 : d0.coef re.1.key = qt.coef * oe.2 := by
        rw [coef_eq_lin, lin_mul (φ := fun _ => (1 : ℤ)) (ψ := fun k' => if k' = oe.1.key then (1 : ℤ) else 0) hd0,
          ← coef_eq_lin, coef_of_mem hoe, lin_toPol]
        · simp
        · intro ie hi je hj _
          rw [hqT ie hi, hqk, one_mul]
          obtain ⟨⟨u1, u2, u3, u4⟩, u5, u6⟩ := hoT je hj
          by_cases hx : je.1.key.x = oe.1.xpow
          · rw [if_pos (u6 hx), if_pos]
            simp only [Key.mul, Monomial.key, Key.mk.injEq]
            simp only [Monomial.key] at hx u2 u3 u4
            exact ⟨by omega, by omega, by omega, by rw [r3, u4]; rfl⟩
          · rw [if_neg, if_neg]
            · intro h0; exact hx (by rw [h0]; rfl)
            · intro h0
              apply hx
              have := congrArg Key.x h0
              simp only [Key.mul, Monomial.key] at this ⊢
              omega
      rw [h1, hqc]
      have : Fact (Nat.Prime p.toNat) := ⟨hp⟩
      have hz : ∀ n : ℤ, (n : ZMod p.toNat) = 0 → n % p = 0 := by
        intro n hn
        have := (ZMod.intCast_zmod_eq_zero_iff_dvd n p.toNat).1 hn
        rw [Int.toNat_of_nonneg hp0.le] at this
        exact Int.emod_eq_zero_of_dvd this
      have ho0 : (oe.2 : ZMod p.toNat) ≠ 0 := by
        intro h0
        exact hoc (Int.dvd_of_emod_eq_zero (hz _ h0))
      apply hz
      rw [Int.cast_sub, zmod_emod hp0.le, Int.cast_mul, zmod_emod hp0.le, Int.cast_mul, i3 (.inl ho0), mul_assoc,
        inv_mul_cancel₀ ho0, mul_one, sub_self]
    intro e he
    obtain ⟨h1, h2 | h2⟩ := hall e he
    · refine ⟨h1, ?_⟩
      push_cast at r7
      omega
    · exfalso
      apply hrm.canon e he
      rw [← coef_of_mem he, h2, hcan]

/-- `polynomial_modular` returns. -/
theorem polynomialModular_total (hp : Nat.Prime p.toNat) {other : Poly} (ho : other.All Key.IsX)
    (hox : 0 < other.highestTermX.xpow) (hoc : ¬ p ∣ other.highestTermX.coef) {r : Poly} (hr : r.All (Bu X))
    (hX : X ≤ 2147483647) : ∃ g, Returns (fun fuel => r.polynomialModular fuel other p) g := by
  have hp0 : 0 < p := by have := hp.two_le; omega
  obtain ⟨g, hg⟩ := polyModLoop_total hp ho hox hoc (3 * X + 3).toNat r (fun e he => by
    obtain ⟨h1, h2, h3, h4⟩ := hr e he
    refine ⟨⟨h1, h2, h3, by omega⟩, ?_⟩
    have := h1.1
    omega)
  obtain ⟨c, hc, -⟩ := modularAssign_ok g hp0
  refine ⟨c, (mono_polynomialModular r other p).returns (n := (3 * X + 3).toNat + 1) ?_⟩
  unfold polynomialModular
  rw [hasY_of_isX ho, hasQ_of_isX ho]
  change (polyModLoop _ _ _ _ _ >>= _) = _
  rw [hg, Res.ok_bind, hc]

end Poly
end EC

namespace EC
namespace Poly
open Polynomial WeierstrassCurve
variable {X Y : ℤ} {f : Poly} {a b q : ℤ}

theorem bd_reduction (hY0 : 0 ≤ Y) (hf : f.All (Bd X Y)) (hX : X + 3 * (Y / 2) ≤ 2147483647) :
    ∃ c, f.reduction a b = .ok c ∧ c.All (Bd (X + 3 * (Y / 2)) 1) := by
  obtain ⟨c, hc⟩ := C20_reduction_returns f a b (by
    intro e he
    obtain ⟨⟨h1, h2, h3, h4⟩, h5, h6⟩ := hf e he
    simp only [Monomial.key] at *
    refine ⟨h1, by rw [h3]; decide, fun _ => by omega⟩)
  refine ⟨c, hc, ?_⟩
  rw [reduction_eq] at hc
  refine redFold_all (W := fun y k => y ≤ 715827882 → XLe y k) ?_ hf ?_ ?_ hc
  · intro y ee hy he
    by_cases hb : y ≤ 715827882
    swap
    · exact fun e _ h => absurd h hb
    obtain ⟨c', hc', hall⟩ := graded_XLe.power (n := y) (by omega) (by norm_num) (curvePol_XLe a b) (by omega)
    rw [he] at hc'
    cases hc'
    rw [mul_one] at hall
    exact fun e he _ => hall e he
  · rintro k ⟨k1, k2, k3⟩ h
    exact ⟨k1, by omega, by omega⟩
  · rintro k k' ⟨⟨k1, k2, k3, k4⟩, k5, k6⟩ hy hk' -
    obtain ⟨⟨j1, j2, j3, j4⟩, j5⟩ := hk' (by omega)
    refine ⟨⟨?_, ?_, ?_, ?_⟩, ?_, ?_⟩ <;> simp only [Key.mul, Key.setY, k3, k4, j2, j3, j4] <;> first | omega | simp

theorem bd_psi {n : ℤ} (h0 : 0 ≤ n) (h6 : n ≤ 6) : ∃ c, psi a b n = .ok c ∧ c.All (Bd 17 1) := by
  obtain ⟨c, hc⟩ := psi_total a b n h0 (by omega)
  refine ⟨c, hc, (psi_spec a b n c hc).2.wk.mono ?_⟩
  rintro k ⟨⟨k1, k2, k3, k4⟩, k5, k6⟩
  have : n ^ 2 ≤ 36 := by nlinarith
  exact ⟨⟨k1, k2, k3, k4⟩, by omega, by omega⟩

theorem bd_phi {n : ℤ} (h0 : 1 ≤ n) (h6 : n ≤ 5) : ∃ c, phi a b n = .ok c ∧ c.All (Bd 40 1) := by
  obtain ⟨c, hc⟩ := phi_total a b n h0 (by omega)
  refine ⟨c, hc, ?_⟩
  rw [phi_eq a b n h0 (by omega)] at hc
  obtain ⟨p, hp, bp⟩ := bd_psi (a := a) (b := b) (n := n) (by omega) (by omega)
  obtain ⟨e, he, be⟩ := bd_psi (a := a) (b := b) (n := n + 1) (by omega) (by omega)
  obtain ⟨g, hg, bg⟩ := bd_psi (a := a) (b := b) (n := n - 1) (by omega) (by omega)
  obtain ⟨p2, hp2, bp2⟩ := bd_power (n := 2) (by norm_num) (by norm_num) (by norm_num) bp (by norm_num) (by norm_num)
  have bx : (TermBuilder.new.xpow 1).build.toPol.All (Bd 1 0) := all_toPol fun _ => by
    simp [TermBuilder.new, TermBuilder.build, TermBuilder.xpow, Monomial.key, SubVar.key, SubVar.new, Bd, Key.IsXY]
  obtain ⟨t, ht, bt⟩ := bd_mul bx bp2 (by norm_num) (by norm_num)
  obtain ⟨u, hu, bu⟩ := bd_mul be bg (by norm_num) (by norm_num)
  obtain ⟨c', hc', bc⟩ := bd_reduction (a := a) (b := b) (by norm_num) (bd_sub bt bu) (by norm_num)
  have ht' : Poly.termMul (TermBuilder.new.xpow 1).build p2 = .ok t := ht
  simp only [hp, he, hg, hp2, ht', hu, hc', Res.ok_bind, Res.ok.injEq] at hc
  subst hc
  exact bd_mono bc (by norm_num) (by norm_num)

/-- The exact degree of `phi`. -/
theorem bd_phi' {n : ℤ} (h0 : 1 ≤ n) (h6 : n ≤ 5) : ∃ c, phi a b n = .ok c ∧ c.All (Bd (n ^ 2) 0) := by
  obtain ⟨c, hc⟩ := phi_total a b n h0 (by omega)
  refine ⟨c, hc, ?_⟩
  rw [phi_eq a b n h0 (by omega)] at hc
  simp only [Res.bind_eq_ok] at hc
  obtain ⟨p, hp, p2, hp2, t, ht, e, he, g, hg, u, hu, hc⟩ := hc
  obtain ⟨s1, -, -⟩ := phi_shape (psi_spec a b _ _ hp).2 (psi_spec a b _ _ he).2 (psi_spec a b _ _ hg).2 hp2 ht hu
  rw [reduction_eq] at hc
  refine redFold_all (W := XLe) (fun y ee _ h => power_XLe h) s1 ?_ ?_ hc
  · rintro k ⟨k1, k2, k3⟩ k4
    exact ⟨k1, by omega, by omega⟩
  · rintro ⟨x, y, q, v⟩ ⟨x', y', q', v'⟩ ⟨⟨l1, l2, l3, l4⟩, k2, k3⟩ k4 ⟨⟨m1, m2, m3, m4⟩, m5⟩ -
    simp only at *
    subst l3 l4 m2 m3 m4
    refine ⟨⟨?_, ?_, ?_, ?_⟩, ?_, ?_⟩ <;> simp only [Key.mul, Key.setY, Option.or_none, add_zero] <;> omega

theorem bd_psi' {n : ℤ} (h0 : 1 ≤ n) (h6 : n ≤ 2) : ∃ c, psi a b n = .ok c ∧ c.All (Bd 0 1) := by
  obtain ⟨c, hc⟩ := psi_total a b n (by omega) (by omega)
  refine ⟨c, hc, (psi_spec a b n c hc).2.wk.mono ?_⟩
  rintro k ⟨⟨k1, k2, k3, k4⟩, k5, k6⟩
  have : n = 1 ∨ n = 2 := by omega
  rcases this with rfl | rfl
  · exact ⟨⟨k1, k2, k3, k4⟩, by omega, by omega⟩
  · exact ⟨⟨k1, k2, k3, k4⟩, by omega, by omega⟩

theorem bd_omega' {n : ℤ} (h0 : 1 ≤ n) (h6 : n ≤ 2) : ∃ c, omega a b n = .ok c ∧ c.All (Bd 6 1) := by
  obtain ⟨c, hc⟩ := omega_total a b n h0 (by omega)
  refine ⟨c, hc, ?_⟩
  by_cases h1 : n = 1
  · subst h1
    rw [omega_one] at hc
    cases hc
    exact all_toPol fun _ => by
      simp [TermBuilder.new, TermBuilder.build, TermBuilder.ypow, Monomial.key, SubVar.key, SubVar.new, Bd, Key.IsXY]
  · refine (omega_spec hc (by omega)).2.1.mono ?_
    rintro k ⟨⟨k1, k2, k3, k4⟩, k5, k6⟩
    obtain rfl : n = 2 := by omega
    exact ⟨⟨k1, k2, k3, k4⟩, by omega, by omega⟩

theorem bd_omega {n : ℤ} (h0 : 1 ≤ n) (h6 : n ≤ 5) : ∃ c, omega a b n = .ok c ∧ c.All (Bd 40 1) := by
  obtain ⟨c, hc⟩ := omega_total a b n h0 (by omega)
  refine ⟨c, hc, ?_⟩
  by_cases h1 : n = 1
  · subst h1
    rw [omega_one] at hc
    cases hc
    exact all_toPol fun _ => by
      simp [TermBuilder.new, TermBuilder.build, TermBuilder.ypow, Monomial.key, SubVar.key, SubVar.new, Bd, Key.IsXY]
  · refine (omega_spec hc (by omega)).2.1.mono ?_
    rintro k ⟨⟨k1, k2, k3, k4⟩, k5, k6⟩
    have : n ^ 2 ≤ 25 := by nlinarith
    exact ⟨⟨k1, k2, k3, k4⟩, by omega, by omega⟩

/-- The reduced division polynomial for an odd `l < q` has degree `(l^2 - 1)/2` and leading coefficient `l`. -/
theorem psi_lead {l : ℕ} (hl : l % 2 = 1) (hl1 : 3 ≤ l) (hlq : (l : ℤ) < q) {ps psL : Poly} (hps : psi a b l = .ok ps)
    (hpsL : ps.rem q = .ok psL) : psL.All Key.IsX ∧ 0 < psL.highestTermX.xpow ∧ ¬ q ∣ psL.highestTermX.coef := by
  have hok := (psi_spec a b l ps hps).2
  have hm := rem_eq_ok (show 0 < q by omega) hpsL
  have hl2 : (l : ℤ) % 2 = 1 := by omega
  have hX : ps.All (fun k => k.IsX ∧ 2 * k.x ≤ (l : ℤ) ^ 2 - 1) := by
    refine hok.wk.mono ?_
    rintro k ⟨⟨k1, k2, k3, k4⟩, k5, k6⟩
    exact ⟨⟨k1, by omega, k3, k4⟩, by omega⟩
  have hXL := hm.all hX
  set N := (l ^ 2 - 1) / 2 with hN
  have hsq : l ^ 2 % 2 = 1 := by rw [Nat.pow_mod, hl]
  have h9 : 9 ≤ l ^ 2 := by nlinarith
  have hcoef : ps.coef (Key.xn N) = l := by
    have hc := (shortW a b).coeff_preΨ l
    have hev : ¬ Even (l : ℤ) := by rw [Int.even_iff]; omega
    rw [if_neg hev, if_neg hev] at hc
    have h1 := polyXY_coeff (R := ℤ) hok.isXY N 0
    rw [hok.val, WeierstrassCurve.Ψ, if_neg hev, mul_one, coeff_C_zero] at h1
    simp only [Int.natAbs_natCast] at hc
    rw [hc] at h1
    simpa [Key.xn] using h1.symm
  have hcL : psL.coef (Key.xn N) = l := by
    rw [hm.coef, hcoef, Int.emod_eq_of_lt (by omega) hlq]
  have hb : ∀ e ∈ psL.entries, e.1.xpow ≤ N := by
    intro e he
    have h7 : ((l ^ 2 : ℕ) : ℤ) = (l : ℤ) ^ 2 := by push_cast; rfl
    have u5 := (hXL e he).2
    simp only [Monomial.key] at u5
    omega
  have hXs : psL.All Key.IsX := hXL.mono fun _ h => h.1
  obtain ⟨hd, hc⟩ := deg_of_coef hXs hb (by rw [hcL]; omega)
  refine ⟨hXs, ?_, ?_⟩
  · rw [highest_xpow hXs, hd]
    omega
  · rw [hc, hcL]
    intro h
    have := Int.le_of_dvd (by omega) h
    omega

end Poly
end EC
