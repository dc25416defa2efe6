import Verif.Props.Sea
import Verif.Props.SeaThree
import Verif.Props.RingLaws
import Verif.Props.Output

/-! C39, C92: exactly which terms `modular_polynomial(p)` stores. -/

namespace EC

open Poly

/-- The key of `x^i y^j`. -/
def xyKey (i j : ℤ) : Key := { x := i, y := j, q := 0, v := none }

/-- Adding a term with a monomial that is not stored. -/
theorem look_addAssignTerm_new {P : Poly} {t : Term} (h : P.look t.monomial.key = none) (k : Key) :
    (P.addAssignTerm t).look k = if k = t.monomial.key then some t.coef else P.look k := by
  unfold addAssignTerm addEntry
  rw [get?_eq, h]
  simp only [look_insert]

theorem build_key (c i j : ℤ) : (((TermBuilder.new.coef c).xpow i).ypow j).build.monomial.key = xyKey i j := rfl

theorem assemble_look {p : ℕ} (hp : p ≤ 46340) (b : Mat) (m : ℕ) (hm : m ≤ (vis p).length) (P : Poly)
    (h : (List.range m).foldlM (modularAssemble { p := (p : ℤ) } b ((vis p).length + 1)) Poly.new = .ok P) (k : Key) :
    (P.look k).isSome ↔ ∃ r < m, k = xyKey ((vis p).getD r (0, 0)).1 ((vis p).getD r (0, 0)).2 ∨
      k = xyKey ((vis p).getD r (0, 0)).2 ((vis p).getD r (0, 0)).1 := by
  induction m generalizing P k with
  | zero =>
    cases h
    simp [Poly.new, look, lookL]
  | succ m ih =>
    rw [List.range_succ, List.foldlM_append] at h
    obtain ⟨P0, hP0, h⟩ := Res.bind_eq_ok.1 h
    have ih := ih (by omega) P0 hP0
    rw [List.foldlM_cons] at h
    unfold modularAssemble at h
    rw [variableFromIndex_vis hp (by omega)] at h
    simp only [Res.ok_bind, Nat.add_sub_cancel, List.foldlM_nil, Res.pure_eq, Res.ok.injEq] at h
    have fresh : ∀ i j, (i, j) = (vis p).getD m (0, 0) ∨ (j, i) = (vis p).getD m (0, 0) → P0.look (xyKey i j) = none := by
      intro i j hij
      rw [← Option.not_isSome_iff_eq_none, ih]
      rintro ⟨r, hr, hk⟩
      obtain ⟨u, v, huv, hv, e⟩ := mem_vis.1 (getD_vis_mem (p := p) (k := m) (by omega))
      obtain ⟨u', v', huv', hv', e'⟩ := mem_vis.1 (getD_vis_mem (p := p) (k := r) (by omega))
      have hne : (vis p).getD r (0, 0) ≠ (vis p).getD m (0, 0) := by
        rw [List.getD_eq_getElem _ _ (by omega), List.getD_eq_getElem _ _ (by omega)]
        intro he
        exact absurd ((nodup_vis p).getElem_inj_iff.1 he) (by omega)
      rw [e, e'] at hne
      rw [e] at hij
      rw [e'] at hk
      simp only [xyKey, Key.mk.injEq, Prod.mk.injEq, and_true, ne_eq] at hk hij hne
      omega
    have hsucc : (∃ r < m + 1, k = xyKey ((vis p).getD r (0, 0)).1 ((vis p).getD r (0, 0)).2 ∨
        k = xyKey ((vis p).getD r (0, 0)).2 ((vis p).getD r (0, 0)).1) ↔
        (P0.look k).isSome ∨ (k = xyKey ((vis p).getD m (0, 0)).1 ((vis p).getD m (0, 0)).2 ∨
          k = xyKey ((vis p).getD m (0, 0)).2 ((vis p).getD m (0, 0)).1) := by
      rw [ih]
      constructor
      · rintro ⟨r, hr, hk⟩
        rcases Nat.lt_succ_iff_lt_or_eq.1 hr with h | rfl
        · exact Or.inl ⟨r, h, hk⟩
        · exact Or.inr hk
      · rintro (⟨r, hr, hk⟩ | hk)
        · exact ⟨r, by omega, hk⟩
        · exact ⟨m, by omega, hk⟩
    rw [hsucc]
    set v := (vis p).getD m (0, 0) with hv
    have f1 : P0.look (xyKey v.1 v.2) = none := fresh _ _ (Or.inl rfl)
    have f2 : P0.look (xyKey v.2 v.1) = none := fresh _ _ (Or.inr rfl)
    split_ifs at h with hne
    · subst h
      rw [look_addAssignTerm_new (by
        rw [look_addAssignTerm_new (by rw [build_key]; exact f1), build_key, build_key, if_neg, f2]
        intro he
        simp only [xyKey, Key.mk.injEq] at he
        exact hne he.2.1), look_addAssignTerm_new (by rw [build_key]; exact f1), build_key, build_key]
      split_ifs with h1 h2
      · exact ⟨fun _ => Or.inr (Or.inr h1), fun _ => rfl⟩
      · exact ⟨fun _ => Or.inr (Or.inl h2), fun _ => rfl⟩
      · exact ⟨Or.inl, by rintro (h | h | h); exacts [h, absurd h h2, absurd h h1]⟩
    · subst h
      have hne : v.1 = v.2 := not_not.1 hne
      rw [look_addAssignTerm_new (by rw [build_key]; exact f1), build_key]
      split_ifs with h1
      · simp [h1]
      · rw [hne] at h1 ⊢
        simp [h1]

theorem modularPolynomial_look (p : ℕ) (f : Poly) (h : modularPolynomial p = .ok f) (k : Key) :
    (f.look k).isSome ↔ (∃ i j : ℕ, i ≤ p ∧ j ≤ p ∧ k = xyKey i j) ∨ k = xyKey (p + 1) 0 ∨ k = xyKey 0 (p + 1) := by
  obtain ⟨hp, h2, hb⟩ := modularPolynomial_prime h
  simp only [Int.toNat_natCast] at hp
  unfold modularPolynomial at h
  obtain ⟨list, -, h⟩ := Res.bind_eq_ok.1 h
  rw [new_vis hp, Res.ok_bind, count_vis (show p ≤ 46340 by omega), Res.ok_bind] at h
  obtain ⟨A, -, h⟩ := Res.bind_eq_ok.1 h
  obtain ⟨B, -, h⟩ := Res.bind_eq_ok.1 h
  obtain ⟨P, hP, h⟩ := Res.bind_eq_ok.1 h
  obtain ⟨p1, hp1, h⟩ := Res.bind_eq_ok.1 h
  rw [chk_eq_ok] at hp1
  obtain ⟨-, rfl⟩ := hp1
  simp only [Res.ok.injEq] at h
  subst h
  have hl : ∀ k, (P.look k).isSome ↔ ∃ i j : ℕ, i ≤ p ∧ j ≤ p ∧ k = xyKey i j := by
    intro k
    rw [assemble_look (by omega) B _ (by simp) P hP, Nat.add_sub_cancel]
    constructor
    · rintro ⟨r, hr, hk⟩
      obtain ⟨u, v, huv, hv, e⟩ := mem_vis.1 (getD_vis_mem (p := p) (k := r) hr)
      rw [e] at hk
      rcases hk with rfl | rfl
      · exact ⟨u, v, by omega, hv, rfl⟩
      · exact ⟨v, u, hv, by omega, rfl⟩
    · rintro ⟨i, j, hi, hj, rfl⟩
      rcases le_total i j with hij | hij
      · obtain ⟨r, hr, e⟩ := List.mem_iff_getElem.1 (mem_vis.2 ⟨i, j, hij, hj, rfl⟩ : ((i : ℤ), (j : ℤ)) ∈ vis p)
        exact ⟨r, hr, Or.inl (by rw [List.getD_eq_getElem _ _ hr, e])⟩
      · obtain ⟨r, hr, e⟩ := List.mem_iff_getElem.1 (mem_vis.2 ⟨j, i, hij, hi, rfl⟩ : ((j : ℤ), (i : ℤ)) ∈ vis p)
        exact ⟨r, hr, Or.inr (by rw [List.getD_eq_getElem _ _ hr, e])⟩
  have f1 : P.look (xyKey (p + 1) 0) = none := by
    rw [← Option.not_isSome_iff_eq_none, hl]
    rintro ⟨i, j, hi, hj, e⟩
    simp only [xyKey, Key.mk.injEq] at e
    omega
  have f2 : P.look (xyKey 0 (p + 1)) = none := by
    rw [← Option.not_isSome_iff_eq_none, hl]
    rintro ⟨i, j, hi, hj, e⟩
    simp only [xyKey, Key.mk.injEq] at e
    omega
  have k1 : (TermBuilder.new.xpow ((p : ℤ) + 1)).build.monomial.key = xyKey (p + 1) 0 := rfl
  have k2 : (TermBuilder.new.ypow ((p : ℤ) + 1)).build.monomial.key = xyKey 0 (p + 1) := rfl
  rw [look_addAssignTerm_new (by
    rw [look_addAssignTerm_new (by rw [k1]; exact f1), k1, k2, if_neg, f2]
    intro he
    simp only [xyKey, Key.mk.injEq] at he
    omega), look_addAssignTerm_new (by rw [k1]; exact f1), k1, k2, ← hl]
  split_ifs with h1 h2
  · exact ⟨fun _ => Or.inr (Or.inr h1), fun _ => rfl⟩
  · exact ⟨fun _ => Or.inr (Or.inl h2), fun _ => rfl⟩
  · exact ⟨Or.inl, by rintro (h | h | h); exacts [h, absurd h h2, absurd h h1]⟩

/-- **C39.**  `modular_polynomial(p)` stores exactly the monomials `x^(p+1)`, `y^(p+1)` and `x^i y^j` with
`0 ≤ i, j ≤ p` — also those whose coefficient is 0. -/
theorem C39_stored (p : ℕ) (f : Poly) (h : modularPolynomial p = .ok f) (i j : ℤ) :
    (∃ e ∈ f.entries, e.1.xpow = i ∧ e.1.ypow = j) ↔
      (0 ≤ i ∧ i ≤ p ∧ 0 ≤ j ∧ j ≤ p) ∨ (i = p + 1 ∧ j = 0) ∨ (i = 0 ∧ j = p + 1) := by
  constructor
  · rintro ⟨e, he, rfl, rfl⟩
    have := (modularPolynomial_look p f h e.1.key).1 (by rw [look_of_mem he]; rfl)
    rcases this with ⟨a, b, ha, hb, e⟩ | e | e <;> simp only [xyKey, Monomial.key, Key.mk.injEq] at e <;> omega
  · intro hij
    have : (f.look (xyKey i j)).isSome := by
      rw [modularPolynomial_look p f h]
      rcases hij with ⟨h1, h2, h3, h4⟩ | ⟨rfl, rfl⟩ | ⟨rfl, rfl⟩
      · exact Or.inl ⟨i.toNat, j.toNat, by omega, by omega, by
          rw [Int.toNat_of_nonneg h1, Int.toNat_of_nonneg h3]⟩
      · exact Or.inr (Or.inl rfl)
      · exact Or.inr (Or.inr rfl)
    obtain ⟨c, hc⟩ := Option.isSome_iff_exists.1 this
    obtain ⟨e, he, hk, _⟩ := look_eq_some hc
    simp only [xyKey, Monomial.key, Key.mk.injEq] at hk
    exact ⟨e, he, hk.1, hk.2.1⟩

/-! ### The results for 2, 3 and 5, and the example program -/

/-- The stored terms of `modular_polynomial(2)`. -/
def lit2 : Poly where
  entries := [
    (⟨0, 0, 0, SubVar.new⟩, -157464000000000), (⟨0, 1, 0, SubVar.new⟩, 8748000000), (⟨0, 2, 0, SubVar.new⟩,
    -162000), (⟨0, 3, 0, SubVar.new⟩, 1), (⟨1, 0, 0, SubVar.new⟩, 8748000000), (⟨1, 1, 0, SubVar.new⟩,
    40773375), (⟨1, 2, 0, SubVar.new⟩, 1488), (⟨2, 0, 0, SubVar.new⟩, -162000), (⟨2, 1, 0, SubVar.new⟩, 1488),
    (⟨2, 2, 0, SubVar.new⟩, -1), (⟨3, 0, 0, SubVar.new⟩, 1)]
  sorted := by decide +kernel

/-- The text of `modular_polynomial(2)`. -/
def text2 : List String :=
  ["x^3 ", "- x^2 y^2 ", "+ 1488 x^2 y ", "- 162000 x^2 ", "+ 1488 x y^2 ", "+ 40773375 x y ", "+ 8748000000 x ",
    "+ y^3 ", "- 162000 y^2 ", "+ 8748000000 y ", "- 157464000000000"]

/-- The stored terms of `modular_polynomial(3)`. -/
def lit3 : Poly where
  entries := [
    (⟨0, 0, 0, SubVar.new⟩, 0), (⟨0, 1, 0, SubVar.new⟩, 1855425871872000000000), (⟨0, 2, 0, SubVar.new⟩,
    452984832000000), (⟨0, 3, 0, SubVar.new⟩, 36864000), (⟨0, 4, 0, SubVar.new⟩, 1), (⟨1, 0, 0, SubVar.new⟩,
    1855425871872000000000), (⟨1, 1, 0, SubVar.new⟩, -770845966336000000), (⟨1, 2, 0, SubVar.new⟩,
    8900222976000), (⟨1, 3, 0, SubVar.new⟩, -1069956), (⟨2, 0, 0, SubVar.new⟩, 452984832000000), (⟨2, 1, 0,
    SubVar.new⟩, 8900222976000), (⟨2, 2, 0, SubVar.new⟩, 2587918086), (⟨2, 3, 0, SubVar.new⟩, 2232), (⟨3, 0, 0,
    SubVar.new⟩, 36864000), (⟨3, 1, 0, SubVar.new⟩, -1069956), (⟨3, 2, 0, SubVar.new⟩, 2232), (⟨3, 3, 0,
    SubVar.new⟩, -1), (⟨4, 0, 0, SubVar.new⟩, 1)]
  sorted := by decide +kernel

/-- The text of `modular_polynomial(3)`. -/
def text3 : List String :=
  ["x^4 ", "- x^3 y^3 ", "+ 2232 x^3 y^2 ", "- 1069956 x^3 y ", "+ 36864000 x^3 ", "+ 2232 x^2 y^3 ",
    "+ 2587918086 x^2 y^2 ", "+ 8900222976000 x^2 y ", "+ 452984832000000 x^2 ", "- 1069956 x y^3 ",
    "+ 8900222976000 x y^2 ", "- 770845966336000000 x y ", "+ 1855425871872000000000 x ", "+ y^4 ",
    "+ 36864000 y^3 ", "+ 452984832000000 y^2 ", "+ 1855425871872000000000 y"]

/-- The stored terms of `modular_polynomial(5)`. -/
def lit5 : Poly where
  entries := [
    (⟨0, 0, 0, SubVar.new⟩, 141359947154721358697753474691071362751004672000), (⟨0, 1, 0, SubVar.new⟩,
    53274330803424425450420160273356509151232000), (⟨0, 2, 0, SubVar.new⟩,
    6692500042627997708487149415015068467200), (⟨0, 3, 0, SubVar.new⟩, 280244777828439527804321565297868800),
    (⟨0, 4, 0, SubVar.new⟩, 1284733132841424456253440), (⟨0, 5, 0, SubVar.new⟩, 1963211489280), (⟨0, 6, 0,
    SubVar.new⟩, 1), (⟨1, 0, 0, SubVar.new⟩, 53274330803424425450420160273356509151232000), (⟨1, 1, 0,
    SubVar.new⟩, -264073457076620596259715790247978782949376), (⟨1, 2, 0, SubVar.new⟩,
    36554736583949629295706472332656640000), (⟨1, 3, 0, SubVar.new⟩, -192457934618928299655108231168000), (⟨1,
    4, 0, SubVar.new⟩, 128541798906828816384000), (⟨1, 5, 0, SubVar.new⟩, -246683410950), (⟨2, 0, 0,
    SubVar.new⟩, 6692500042627997708487149415015068467200), (⟨2, 1, 0, SubVar.new⟩,
    36554736583949629295706472332656640000), (⟨2, 2, 0, SubVar.new⟩, 5110941777552418083110765199360000), (⟨2,
    3, 0, SubVar.new⟩, 26898488858380731577417728000), (⟨2, 4, 0, SubVar.new⟩, 383083609779811215375), (⟨2, 5,
    0, SubVar.new⟩, 2028551200), (⟨3, 0, 0, SubVar.new⟩, 280244777828439527804321565297868800), (⟨3, 1, 0,
    SubVar.new⟩, -192457934618928299655108231168000), (⟨3, 2, 0, SubVar.new⟩, 26898488858380731577417728000),
    (⟨3, 3, 0, SubVar.new⟩, -441206965512914835246100), (⟨3, 4, 0, SubVar.new⟩, 107878928185336800), (⟨3, 5, 0,
    SubVar.new⟩, -4550940), (⟨4, 0, 0, SubVar.new⟩, 1284733132841424456253440), (⟨4, 1, 0, SubVar.new⟩,
    128541798906828816384000), (⟨4, 2, 0, SubVar.new⟩, 383083609779811215375), (⟨4, 3, 0, SubVar.new⟩,
    107878928185336800), (⟨4, 4, 0, SubVar.new⟩, 1665999364600), (⟨4, 5, 0, SubVar.new⟩, 3720), (⟨5, 0, 0,
    SubVar.new⟩, 1963211489280), (⟨5, 1, 0, SubVar.new⟩, -246683410950), (⟨5, 2, 0, SubVar.new⟩, 2028551200),
    (⟨5, 3, 0, SubVar.new⟩, -4550940), (⟨5, 4, 0, SubVar.new⟩, 3720), (⟨5, 5, 0, SubVar.new⟩, -1), (⟨6, 0, 0,
    SubVar.new⟩, 1)]
  sorted := by decide +kernel

/-- The text of `modular_polynomial(5)`. -/
def text5 : List String :=
  ["x^6 ", "- x^5 y^5 ", "+ 3720 x^5 y^4 ", "- 4550940 x^5 y^3 ", "+ 2028551200 x^5 y^2 ", "- 246683410950 x^5 y ",
    "+ 1963211489280 x^5 ", "+ 3720 x^4 y^5 ", "+ 1665999364600 x^4 y^4 ", "+ 107878928185336800 x^4 y^3 ",
    "+ 383083609779811215375 x^4 y^2 ", "+ 128541798906828816384000 x^4 y ", "+ 1284733132841424456253440 x^4 ",
    "- 4550940 x^3 y^5 ", "+ 107878928185336800 x^3 y^4 ", "- 441206965512914835246100 x^3 y^3 ",
    "+ 26898488858380731577417728000 x^3 y^2 ", "- 192457934618928299655108231168000 x^3 y ",
    "+ 280244777828439527804321565297868800 x^3 ", "+ 2028551200 x^2 y^5 ", "+ 383083609779811215375 x^2 y^4 ",
    "+ 26898488858380731577417728000 x^2 y^3 ", "+ 5110941777552418083110765199360000 x^2 y^2 ",
    "+ 36554736583949629295706472332656640000 x^2 y ", "+ 6692500042627997708487149415015068467200 x^2 ",
    "- 246683410950 x y^5 ", "+ 128541798906828816384000 x y^4 ", "- 192457934618928299655108231168000 x y^3 ",
    "+ 36554736583949629295706472332656640000 x y^2 ", "- 264073457076620596259715790247978782949376 x y ",
    "+ 53274330803424425450420160273356509151232000 x ", "+ y^6 ", "+ 1963211489280 y^5 ",
    "+ 1284733132841424456253440 y^4 ", "+ 280244777828439527804321565297868800 y^3 ",
    "+ 6692500042627997708487149415015068467200 y^2 ", "+ 53274330803424425450420160273356509151232000 y ",
    "+ 141359947154721358697753474691071362751004672000"]

theorem monomial_val (i j : ℤ) : (⟨i, j, 0, SubVar.new⟩ : Monomial).key.val = mono i j 0 := rfl

theorem lit2_val : lit2.val = modularShape 2 phi2 := by
  unfold modularShape Poly.val lit2
  simp only [List.map_cons, List.map_nil, List.sum_cons, List.sum_nil, monomial_val, Finset.sum_range_succ,
    Finset.sum_range_zero, Finset.sum_Ico_eq_sum_range, Nat.reduceAdd, Nat.reduceSub, phi2, smul_add, zero_add]
  push_cast
  norm_num only
  abel

theorem lit3_val : lit3.val = modularShape 3 phi3 := by
  unfold modularShape Poly.val lit3
  simp only [List.map_cons, List.map_nil, List.sum_cons, List.sum_nil, monomial_val, Finset.sum_range_succ,
    Finset.sum_range_zero, Finset.sum_Ico_eq_sum_range, Nat.reduceAdd, Nat.reduceSub, phi3, smul_add, zero_add]
  push_cast
  norm_num only
  abel

theorem lit5_val : lit5.val = modularShape 5 phi5 := by
  unfold modularShape Poly.val lit5
  simp only [List.map_cons, List.map_nil, List.sum_cons, List.sum_nil, monomial_val, Finset.sum_range_succ,
    Finset.sum_range_zero, Finset.sum_Ico_eq_sum_range, Nat.reduceAdd, Nat.reduceSub, phi5, smul_add, zero_add]
  push_cast
  norm_num only
  abel

theorem displayStep_congr {m m' : Monomial} (h : m.key = m'.key) (c : ℤ) (acc : List Char × ℕ) :
    Poly.displayStep acc (m, c) = Poly.displayStep acc (m', c) := by
  obtain ⟨x, y, q, i, j, e⟩ := m
  obtain ⟨x', y', q', i', j', e'⟩ := m'
  simp only [Monomial.key, Key.mk.injEq, SubVar.key] at h
  obtain ⟨rfl, rfl, rfl, h⟩ := h
  have : (Term.from' ⟨x, y, q, i, j, e⟩ c).display = (Term.from' ⟨x, y, q, i', j', e'⟩ c).display := by
    cases e <;> cases e' <;> simp at h
    · obtain ⟨rfl, rfl⟩ := h; rfl
    · simp [Term.from', Term.display, Monomial.display, Term.xpow, Term.ypow, Term.qpow, Term.var]
  simp only [Poly.displayStep, this]

/-- Equal polynomials (`==`) print the same text, stored zeros or not. -/
theorem display_congr {P Q : Poly} (h : P.eq Q = true) : P.display = Q.display := by
  rw [eq_iff_kv] at h
  have hl : P.len = Q.len := by
    have := congrArg List.length h
    simpa [kv, len] using this
  have key : ∀ (l l' : List (Monomial × Int)), l.map (fun e => (e.1.key, e.2)) = l'.map (fun e => (e.1.key, e.2)) →
      ∀ acc, l.foldl Poly.displayStep acc = l'.foldl Poly.displayStep acc := by
    intro l
    induction l with
    | nil => intro l' h acc; cases l' with
      | nil => rfl
      | cons => simp at h
    | cons e t ih => intro l' h acc; cases l' with
      | nil => simp at h
      | cons e' t' =>
        simp only [List.map_cons, List.cons.injEq, Prod.mk.injEq] at h
        obtain ⟨m, c⟩ := e
        obtain ⟨m', c'⟩ := e'
        obtain ⟨⟨h1, h2⟩, h3⟩ := h
        dsimp only at h1 h2
        subst h2
        rw [List.foldl_cons, List.foldl_cons, displayStep_congr h1]
        exact ih t' h3 _
  unfold Poly.display Poly.isZero
  rw [hl, key P.entries.reverse Q.entries.reverse (by
    rw [List.map_reverse, List.map_reverse]; exact congrArg List.reverse h)]

/-- A literal with the right value and the right stored monomials is what `modular_polynomial` returns. -/
theorem eq_lit {p : ℕ} {f L : Poly} {c : ℕ → ℕ → ℤ} (h : modularPolynomial p = .ok f) (hf : f.val = modularShape p c)
    (hL : L.val = modularShape p c)
    (h1 : ∀ k ∈ L.kv.map (·.1), k.q = 0 ∧ k.v = none ∧
      ((0 ≤ k.x ∧ k.x ≤ (p : ℤ) ∧ 0 ≤ k.y ∧ k.y ≤ (p : ℤ)) ∨ (k.x = (p : ℤ) + 1 ∧ k.y = 0) ∨
        (k.x = 0 ∧ k.y = (p : ℤ) + 1)))
    (h2 : ∀ i < p + 1, ∀ j < p + 1, xyKey ((i : ℕ) : ℤ) ((j : ℕ) : ℤ) ∈ L.kv.map (·.1))
    (h3 : xyKey (p + 1) 0 ∈ L.kv.map (·.1)) (h4 : xyKey 0 (p + 1) ∈ L.kv.map (·.1)) : f.eq L = true := by
  have hdom : ∀ k, (L.look k).isSome ↔ k ∈ L.kv.map (·.1) := by
    intro k
    rw [Option.isSome_iff_exists, List.mem_map]
    constructor
    · rintro ⟨c, hc⟩; exact ⟨(k, c), mem_kv.2 hc, rfl⟩
    · rintro ⟨⟨k', c⟩, hc, rfl⟩; exact ⟨c, mem_kv.1 hc⟩
  refine eq_of_dom (fun k => ?_) (hf.trans hL.symm)
  rw [modularPolynomial_look p f h, hdom]
  constructor
  · rintro (⟨i, j, hi, hj, rfl⟩ | rfl | rfl)
    · exact h2 i (by omega) j (by omega)
    · exact h3
    · exact h4
  · intro hk
    obtain ⟨x, y, q, v⟩ := k
    obtain ⟨e1, e2, e3⟩ := h1 _ hk
    dsimp only at e1 e2 e3
    subst e1 e2
    rcases e3 with ⟨a, b, c, d⟩ | ⟨rfl, rfl⟩ | ⟨rfl, rfl⟩
    · exact Or.inl ⟨x.toNat, y.toNat, by omega, by omega, by
        rw [Int.toNat_of_nonneg a, Int.toNat_of_nonneg c]; rfl⟩
    · exact Or.inr (Or.inl rfl)
    · exact Or.inr (Or.inr rfl)

theorem modular2 : ∃ f, modularPolynomial 2 = .ok f ∧ f.eq lit2 = true := by
  obtain ⟨f, h1, h2, _⟩ := C40_phi2
  exact ⟨f, h1, eq_lit (p := 2) h1 h2 lit2_val (by decide +kernel) (by decide +kernel) (by decide +kernel) (by decide +kernel)⟩

theorem modular3 : ∃ f, modularPolynomial 3 = .ok f ∧ f.eq lit3 = true := by
  obtain ⟨f, h1, h2, _⟩ := C92_phi3
  exact ⟨f, h1, eq_lit (p := 3) h1 h2 lit3_val (by decide +kernel) (by decide +kernel) (by decide +kernel) (by decide +kernel)⟩

theorem modular5 : ∃ f, modularPolynomial 5 = .ok f ∧ f.eq lit5 = true := by
  obtain ⟨f, h1, h2, _⟩ := C92_phi5
  exact ⟨f, h1, eq_lit (p := 5) h1 h2 lit5_val (by decide +kernel) (by decide +kernel) (by decide +kernel) (by decide +kernel)⟩

/-- The text one term adds to the line, when it is not the first: a sign, the term, a blank. -/
def piece (e : Monomial × ℤ) : List Char :=
  (if e.2 > 0 then ['+', ' '] else []) ++ (if e.2 ≠ 0 then (Term.from' e.1 e.2).display ++ [' '] else [])

theorem foldl_pieces (l : List (Monomial × ℤ)) (s : List Char) (i : ℕ) :
    (l.foldl Poly.displayStep (s, i + 1)).1 = s ++ l.flatMap piece := by
  induction l generalizing s i with
  | nil => simp
  | cons e t ih =>
    have : Poly.displayStep (s, i + 1) e = (s ++ piece e, i + 1 + 1) := by
      unfold Poly.displayStep piece
      by_cases h1 : e.2 > 0 <;> by_cases h2 : e.2 = 0 <;> simp [h1, h2]
    rw [List.foldl_cons, this, ih, List.flatMap_cons, List.append_assoc]

theorem trimEnd_last (A B : List Char) (c : Char) (hc : c ≠ ' ') :
    trimEnd (A ++ (B ++ [c] ++ [' '])) = A ++ (B ++ [c]) := by
  unfold trimEnd
  have : (A ++ (B ++ [c] ++ [' '])).reverse = ' ' :: c :: (A ++ B).reverse := by simp
  rw [this, List.dropWhile_cons_of_pos (by simp), List.dropWhile_cons_of_neg (by simpa using hc)]
  simp

theorem display_pieces (P : Poly) (e : Monomial × ℤ) (t : List (Monomial × ℤ)) (ps : List String) (B : List Char) (c : Char)
    (h : P.entries.reverse = e :: t) (hc : c ≠ ' ')
    (ht : ((Poly.displayStep ([], 0) e).1 :: t.map piece).filter (fun l => !l.isEmpty) =
      ps.map String.toList ++ [B ++ [c] ++ [' ']]) : P.display = ps.flatMap String.toList ++ (B ++ [c]) := by
  have hz : P.isZero = false := by
    have : P.entries ≠ [] := by rintro h'; rw [h'] at h; simp at h
    unfold Poly.isZero Poly.len
    simpa using this
  have h1 : Poly.displayStep ([], 0) e = ((Poly.displayStep ([], 0) e).1, 0 + 1) := rfl
  have h2 := congrArg List.flatten ht
  rw [List.flatten_filter_not_isEmpty, List.flatten_cons, List.flatten_append, ← List.flatMap_def, ← List.flatMap_def,
    List.flatten_cons, List.flatten_nil, List.append_nil] at h2
  unfold Poly.display
  rw [hz, h, List.foldl_cons, h1, foldl_pieces, h2]
  exact trimEnd_last _ _ _ hc

theorem display2 : lit2.display = text2.flatMap String.toList :=
  (display_pieces lit2 _ _ text2.dropLast (text2.getLast (by decide)).toList.dropLast '0' rfl (by decide)
    (by decide +kernel)).trans (by decide +kernel)

theorem display3 : lit3.display = text3.flatMap String.toList :=
  (display_pieces lit3 _ _ text3.dropLast (text3.getLast (by decide)).toList.dropLast 'y' rfl (by decide)
    (by decide +kernel)).trans (by decide +kernel)

theorem display5 : lit5.display = text5.flatMap String.toList :=
  (display_pieces lit5 _ _ text5.dropLast (text5.getLast (by decide)).toList.dropLast '0' rfl (by decide)
    (by decide +kernel)).trans (by decide +kernel)

theorem helloWorld_eq {f2 f3 f5 : Poly} (e2 : modularPolynomial 2 = .ok f2) (e3 : modularPolynomial 3 = .ok f3)
    (e5 : modularPolynomial 5 = .ok f5) : helloWorld = ⟨[f2.display, f3.display, f5.display], .ok ()⟩ := by
  unfold helloWorld
  rw [e2, e3, e5]
  rfl

/-- **C99.**  The example program prints exactly three lines, the classical modular polynomials of level 2, 3 and 5,
and returns. -/
theorem C99_example_program : helloWorld =
    ⟨[text2.flatMap String.toList, text3.flatMap String.toList, text5.flatMap String.toList], .ok ()⟩ := by
  obtain ⟨f2, e2, d2⟩ := modular2
  obtain ⟨f3, e3, d3⟩ := modular3
  obtain ⟨f5, e5, d5⟩ := modular5
  rw [helloWorld_eq e2 e3 e5, display_congr d2, display_congr d3, display_congr d5, display2, display3, display5]

/-- **C11, C39.**  A consequence of the stored zeros: `modular_polynomial(3)` has the constant term `0` among its stored
terms, so it is not `==` to the polynomial `Q` without stored zeros, although the two are the same polynomial and print the
same text. -/
theorem C39_stored_zero : ∃ f Q : Poly, modularPolynomial 3 = .ok f ∧ f.val = Q.val ∧ f.display = Q.display ∧
    Q.Canon ∧ f.eq Q = false := by
  obtain ⟨f, h1, h2⟩ := modular3
  let Q : Poly := { entries := lit3.entries.tail, sorted := by decide +kernel }
  have hd : lit3.display = Q.display := by decide +kernel
  refine ⟨f, Q, h1, ?_, (display_congr h2).trans hd, by unfold Poly.Canon; decide +kernel, ?_⟩
  · rw [C11_eq_imp_val _ _ h2]
    exact C57_display_injective _ _ hd
  · rw [Bool.eq_false_iff]
    intro h
    have h3 : lit3.kv = Q.kv := (eq_iff_kv.1 h2).symm.trans (eq_iff_kv.1 h)
    exact absurd h3 (by decide +kernel)

/-- The hypothesis of `C39_stored` is met for every prime up to 214. -/
example : ∃ f, modularPolynomial 211 = .ok f := C40_returns 211 (by norm_num) (by norm_num)

end EC
