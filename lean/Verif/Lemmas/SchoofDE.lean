import Mathlib.FieldTheory.Finite.Basic
import Verif.Lemmas.RootsFp
import Verif.Lemmas.Fuel
import Verif.Props.DivPoly
import Verif.Props.Schoof

/-! The branch of `schoof` in which no `j` was found, for `l = 3` and `q = 1` modulo 3. -/

namespace EC
open Poly Polynomial

namespace Poly

theorem lin_indicator {n : ℕ} (f : Poly) (k0 : Key) :
    f.lin (fun k => if k = k0 then (1 : ZMod n) else 0) = (f.coef k0 : ZMod n) := by
  unfold lin coef
  rw [Int.cast_list_sum, List.map_map]
  congr 1
  apply List.map_congr_left
  intro e _
  by_cases h : e.1.key = k0 <;> simp [h]

/-- `to_monic` of a nonzero polynomial whose leading coefficient is a unit modulo `p` is not zero. -/
theorem toMonic_ne {p : ℤ} [Fact (Nat.Prime p.toNat)] {f m : Poly} (hf : f.entries ≠ [])
    (hl : (f.highestTermX.coef : ZMod p.toNat) ≠ 0) (h : f.toMonic p = .ok m) : m.entries ≠ [] := by
  have hp := two_le_of_prime (p := p) Fact.out
  intro hm
  unfold toMonic at h
  split_ifs at h with h0
  · exact hf (isZero_iff.1 h0)
  obtain ⟨inv, hinv, h⟩ := Res.bind_eq_ok.1 h
  obtain ⟨c, hc, h⟩ := Res.bind_eq_ok.1 h
  obtain ⟨inv', h1, -, -, -, h2⟩ := inverse_spec f.highestTermX.coef p Fact.out
  cases Res.ok.inj (h1.symm.trans hinv)
  have hi := h2 (.inl hl)
  obtain ⟨e, he, he2, -⟩ := highestTermX_of_ne hf
  have hmo := modularAssign_eq_ok (show 0 < p by omega) h
  have hchar : ∀ m : ZMod p.toNat, p • m = 0 := by
    intro m
    rw [zsmul_eq_mul, (zmod_eq_zero_iff (show 0 ≤ p by omega) p).2 dvd_rfl, zero_mul]
  have e1 := hmo.lin (fun k => if k = e.1.key then (1 : ZMod p.toNat) else 0) hchar
  have htT : ((TermBuilder.new.coef inv).build).toPol.All (fun k => k = Key.xn 0) := all_toPol (fun _ => rfl)
  have e2 := lin_mul (χ := fun k => if k = e.1.key then (1 : ZMod p.toNat) else 0)
    (φ := fun k => if k = e.1.key then (1 : ZMod p.toNat) else 0) (ψ := fun _ => 1) hc (by
      intro ie _ je hj _
      rw [htT je hj, mul_one]
      have : ie.1.key.mul (Key.xn 0) = ie.1.key := by
        simp [Key.mul, Key.xn]
      rw [this])
  rw [e2, lin_indicator f, lin_toPol, coef_of_mem he] at e1
  have e3 : m.lin (fun k => if k = e.1.key then (1 : ZMod p.toNat) else 0) = 0 := by
    unfold lin; rw [hm]; rfl
  rw [e3] at e1
  have e4 : (TermBuilder.new.coef inv).build.coef = inv := rfl
  rw [e4, zsmul_eq_mul, mul_one, hi] at e1
  have e5 : f.highestTermX.coef = e.2 := by rw [he2]; rfl
  rw [e5] at e1 hl
  exact mul_ne_zero hl (inv_ne_zero hl) e1.symm

/-- `gcd` of two polynomials with leading coefficients that are units modulo `p` is never zero, whatever their
monomials are. -/
theorem gcd_ne {p : ℤ} [Fact (Nat.Prime p.toNat)] : ∀ (fuel : ℕ) (f g m : Poly), f.entries ≠ [] →
    (f.highestTermX.coef : ZMod p.toNat) ≠ 0 → g.entries ≠ [] → (g.highestTermX.coef : ZMod p.toNat) ≠ 0 →
    gcd fuel f g p = .ok m → m.entries ≠ [] := by
  have hp := two_le_of_prime (p := p) Fact.out
  intro fuel
  induction fuel with
  | zero => intro f g m _ _ _ _ h; simp [gcd] at h
  | succ n ih =>
    intro f g m hf hfl hg hgl h
    unfold gcd at h
    dsimp only at h
    split_ifs at h with h1
    · exact ih g f m hg hgl hf hfl h
    · obtain ⟨r, hr, h⟩ := Res.bind_eq_ok.1 h
      split_ifs at h with h2
      · exact toMonic_ne hg hgl h
      · have hr0 : r.entries ≠ [] := fun h0 => h2 (isZero_iff.2 h0)
        unfold polynomialModular at hr
        obtain ⟨_, -, hr⟩ := Res.bind_eq_ok.1 hr
        obtain ⟨_, -, hr⟩ := Res.bind_eq_ok.1 hr
        obtain ⟨_, -, hr⟩ := Res.bind_eq_ok.1 hr
        have hmo := modularAssign_eq_ok (show 0 < p by omega) hr
        exact ih g r m hg hgl hr0 (highest_coef_ne (by omega) hmo.canon (hmo.reduced (by omega)) hr0) h

/-- `is_gcd_one` only ever answers `true`. -/
theorem isGcdOne_true {p : ℤ} [Fact (Nat.Prime p.toNat)] {fuel : ℕ} {f g : Poly} {o : Bool} (hf : f.Canon)
    (hfr : f.Reduced p) (hg : g.All Key.IsX) (hgi : g.deg ≤ 2147483647)
    (hgd : 0 < g.deg) (hgl : (g.highestTermX.coef : ZMod p.toNat) ≠ 0)
    (h : isGcdOne fuel f g p = .ok o) : o = true := by
  have hp := two_le_of_prime (p := p) Fact.out
  have hg0 : g.entries ≠ [] := by
    intro h0
    rw [highestTermX_of_nil h0] at hgl
    simp [Term.new] at hgl
  unfold isGcdOne at h
  obtain ⟨m, hm, h⟩ := Res.bind_eq_ok.1 h
  rw [Res.ok.injEq] at h
  rw [← h]
  by_cases hf0 : f.entries = []
  · exfalso
    cases fuel with
    | zero => simp [gcd] at hm
    | succ fuel =>
      unfold gcd at hm
      dsimp only at hm
      have hx : f.highestTermX.xpow = 0 := by rw [highestTermX_of_nil hf0]; rfl
      have hgx : 0 < g.highestTermX.xpow := by unfold deg at hgd; omega
      rw [if_pos (by omega)] at hm
      cases fuel with
      | zero => simp [gcd] at hm
      | succ fuel =>
        unfold gcd at hm
        dsimp only at hm
        rw [if_neg (by omega)] at hm
        have hfX : f.All Key.IsX := fun e he => by rw [hf0] at he; cases he
        rw [polynomialModular_const hp hg hfX (by unfold deg; omega) hgi fuel] at hm
        cases hm
  · have := gcd_ne fuel f g m hf0 (highest_coef_ne (by omega) hf hfr hf0) hg0 hgl hm
    cases hz : m.isZero with
    | true => exact absurd (isZero_iff.1 hz) this
    | false => rfl

/-- `reduction_modular` of a polynomial in `x` alone only reduces the coefficients. -/
theorem reductionModular_polyX {f c : Poly} {a b p : ℤ} (hp : 1 ≤ p) (hf : f.All Key.IsX)
    (h : f.reductionModular a b p = .ok c) :
    c.All Key.IsX ∧ c.Canon ∧ c.Reduced p ∧ c.polyX (ZMod p.toNat) = f.polyX (ZMod p.toNat) := by
  unfold reductionModular at h
  rw [reductionModularAux_eq] at h
  obtain ⟨t, ht, h⟩ := Res.bind_eq_ok.1 h
  have hm := modularAssign_eq_ok (show 0 < p by omega) h
  have key := foldlM_inv (redStep fun y => (curvePol a b).powerModulo y p >>= reductionModularAux a b p 1)
    (fun l (t : Poly) => t.All Key.IsX ∧ t.lin (Key.evalAt (X : (ZMod p.toNat)[X]) 0 0 0) =
      (l.map fun e => e.2 • Key.evalAt (X : (ZMod p.toNat)[X]) 0 0 0 e.1.key).sum) f.entries new
    ⟨all_new, by simp⟩
    (by
      rintro pre e t t' he ⟨hA, hL⟩ hs
      rw [redStep_lt (by rw [(hf e he).2.1]; norm_num)] at hs
      cases hs
      refine ⟨all_addAssignTerm hA (hf e he), ?_⟩
      rw [lin_addAssignTerm, hL]
      simp only [List.map_append, List.sum_append, List.map_cons, List.map_nil, List.sum_cons,
        List.sum_nil, add_zero]
      rfl) t ht
  refine ⟨hm.all key.1, hm.canon, hm.reduced (by omega), ?_⟩
  rw [polyX_modOf (by omega) hm]
  unfold polyX
  rw [evalAt_eq_lin, evalAt_eq_lin, key.2]
  rfl

end Poly

section
variable {a b q : ℤ} [Fact (Nat.Prime q.toNat)] {fuel : ℕ}

theorem find_one : (irange 1 3).find? (fun i => Int.fmod (i ^ 2) 3 = 1) = some 1 := by decide

theorem frob_prod (p : ℕ) [Fact p.Prime] : (X ^ p - X : (ZMod p)[X]) = ∏ a : ZMod p, (X - C a) := by
  have h1 := FiniteField.X_pow_card_sub_X_natDegree_eq (ZMod p) (Fact.out (p := p.Prime)).one_lt
  have h2 : (X ^ p - X : (ZMod p)[X]).roots = Finset.univ.val := by
    have := FiniteField.roots_X_pow_card_sub_X (ZMod p)
    rwa [ZMod.card] at this
  have hm : (X ^ p - X : (ZMod p)[X]).Monic := by
    apply Polynomial.monic_X_pow_sub
    rw [Polynomial.degree_X]
    exact_mod_cast (Fact.out (p := p.Prime)).one_lt
  have h3 := Polynomial.prod_multiset_X_sub_C_of_monic_of_roots_card_eq hm (by rw [h2, h1]; simp [ZMod.card])
  rw [h2] at h3
  rw [← h3]; rfl

/-- A primitive cube root of unity modulo `p = 1` modulo 3. -/
theorem exists_omega {p : ℕ} [Fact p.Prime] (h1 : p % 3 = 1) :
    ∃ w : ZMod p, w ≠ 1 ∧ w ≠ 0 ∧ 1 + w + w ^ 2 = 0 := by
  have hp : p.Prime := Fact.out
  have : Fact (Nat.Prime 3) := ⟨Nat.prime_three⟩
  obtain ⟨u, hu⟩ := exists_prime_orderOf_dvd_card (G := (ZMod p)ˣ) 3 (by
    rw [ZMod.card_units]
    have := hp.two_le
    omega)
  have h3 : (u : ZMod p) ^ 3 = 1 := by
    have := pow_orderOf_eq_one u
    rw [hu] at this
    rw [← Units.val_pow_eq_pow_val, this, Units.val_one]
  have hne : (u : ZMod p) ≠ 1 := by
    intro h0
    have : u = 1 := Units.ext h0
    rw [this, orderOf_one] at hu
    omega
  refine ⟨u, hne, u.ne_zero, ?_⟩
  have : ((u : ZMod p) - 1) * (1 + u + u ^ 2) = 0 := by linear_combination h3
  exact (mul_eq_zero.1 this).resolve_left (sub_ne_zero.2 hne)

/-- The polynomial `3 x (x^3 + 4 b)` divides `x^q - x` iff `-4 b` is the cube of a nonzero element. -/
theorem cube_iff {p : ℕ} [Fact p.Prime] (h1 : p % 3 = 1) (B : ZMod p) :
    (C 3 * (X * (X ^ 3 + C (4 * B))) ∣ (X ^ p - X : (ZMod p)[X])) ↔ ∃ c : ZMod p, c ≠ 0 ∧ c ^ 3 = -4 * B := by
  have hp : p.Prime := Fact.out
  have h3 : (3 : ZMod p) ≠ 0 := by
    intro h0
    have := (ZMod.natCast_eq_zero_iff 3 p).1 (by exact_mod_cast h0)
    have := (Nat.prime_dvd_prime_iff_eq hp Nat.prime_three).1 this
    omega
  constructor
  · intro h
    have hd : (X ^ 3 + C (4 * B) : (ZMod p)[X]) ∣ X ^ p - X := (Dvd.intro_left _ rfl).trans ((Dvd.intro_left _ rfl).trans h)
    obtain ⟨x, hx⟩ : ∃ x : ZMod p, (X ^ 3 + C (4 * B) : (ZMod p)[X]).eval x = 0 := by
      by_contra hc
      push Not at hc
      have := (isCoprime_frob_iff _).2 hc
      have hu := this.isUnit_of_dvd hd
      have hdeg : (X ^ 3 + C (4 * B) : (ZMod p)[X]).natDegree = 3 := by compute_degree!
      rw [Polynomial.natDegree_eq_zero_of_isUnit hu] at hdeg
      omega
    rw [eval_add, eval_pow, eval_X, eval_C] at hx
    refine ⟨x, ?_, by linear_combination hx⟩
    rintro rfl
    rw [zero_pow (by norm_num), zero_add] at hx
    rw [hx, C_0, add_zero] at hd
    obtain ⟨k, hk⟩ := hd
    have := congrArg (fun f => (derivative f).eval 0) hk
    simp [derivative_mul, derivative_X_pow, hp.ne_zero] at this
  · rintro ⟨c, hc, hcb⟩
    obtain ⟨w, hw1, hw0, hw⟩ := exists_omega (p := p) h1
    have hw2 : w ^ 2 = -1 - w := by linear_combination hw
    have hww : w ^ 2 ≠ 1 := by
      intro h0
      have : w ^ 2 = w * w := by ring
      have h3' : w = -2 := by linear_combination hw - h0
      apply h3
      rw [h3'] at h0
      linear_combination h0
    have hd : (X * ((X - C c) * ((X - C (c * w)) * (X - C (c * w ^ 2)))) : (ZMod p)[X]) ∣ X ^ p - X := by
      have hs := Finset.prod_dvd_prod_of_subset ({0, c, c * w, c * w ^ 2} : Finset (ZMod p)) Finset.univ
        (fun a => (X - C a : (ZMod p)[X])) (Finset.subset_univ _)
      rw [frob_prod]
      refine Dvd.dvd.trans (dvd_of_eq ?_) hs
      rw [Finset.prod_insert, Finset.prod_insert, Finset.prod_insert, Finset.prod_singleton, C_0, sub_zero]
      · rw [Finset.mem_singleton]
        intro h0
        have := mul_left_cancel₀ hc h0
        apply hw1
        apply mul_left_cancel₀ hw0
        linear_combination -this
      · rw [Finset.mem_insert, Finset.mem_singleton]
        rintro (h0 | h0)
        · exact hw1 (mul_left_cancel₀ hc (by linear_combination -h0))
        · exact hww (mul_left_cancel₀ hc (by linear_combination -h0))
      · rw [Finset.mem_insert, Finset.mem_insert, Finset.mem_singleton]
        rintro (h0 | h0 | h0)
        · exact hc h0.symm
        · exact mul_ne_zero hc hw0 h0.symm
        · exact mul_ne_zero hc (pow_ne_zero 2 hw0) h0.symm
    have he : (X * ((X - C c) * ((X - C (c * w)) * (X - C (c * w ^ 2)))) : (ZMod p)[X]) = X * (X ^ 3 + C (4 * B)) := by
      have e0 : C (4 * B) = -(C c ^ 3 : (ZMod p)[X]) := by
        rw [← C_pow, ← C_neg]; congr 1; linear_combination hcb
      have e1 : (1 + C w + C w ^ 2 : (ZMod p)[X]) = 0 := by
        rw [← C_1, ← C_pow, ← C_add, ← C_add, hw, C_0]
      rw [e0, C_mul, C_mul, C_pow]
      linear_combination (X * (-X ^ 2 * C c + X * C c ^ 2 * C w - C c ^ 3 * (C w - 1))) * e1
    rw [he] at hd
    have hu : IsUnit (C 3 : (ZMod p)[X]) := isUnit_C.2 (isUnit_iff_ne_zero.2 h3)
    exact (hu.mul_left_dvd).2 hd

theorem psi3_polyX {c : Poly} (h : psi a b 3 = .ok c) (R : Type) [CommRing R] :
    c.All Key.IsX ∧ c.polyX R = C 3 * X ^ 4 + C (6 * (a : R)) * X ^ 2 + C (12 * (b : R)) * X - C ((a : R) ^ 2) := by
  rw [psi_three] at h
  cases h
  constructor
  · refine all_addTerm (all_addTerm (all_termAdd (fun _ => ?_) ?_) fun _ => ?_) fun _ => ?_ <;>
    simp [Key.IsX, TermBuilder.new, TermBuilder.build, TermBuilder.coef, TermBuilder.xpow,
      Monomial.key, SubVar.key, SubVar.new]
  · unfold polyX
    rw [evalAt_eq_lin, lin_addTerm, lin_addTerm, lin_termAddTerm]
    simp [TermBuilder.new, TermBuilder.build, TermBuilder.coef, TermBuilder.xpow,
      Monomial.key, SubVar.key, SubVar.new, Key.evalAt]
    simp only [map_ofNat]
    ring

theorem psi3_deg {c : Poly} (h : psi a b 3 = .ok c) : c.deg = 4 ∧ c.highestTermX.coef = 3 := by
  obtain ⟨h1, h2⟩ := psi3_polyX h ℤ
  have hx := (psi_spec _ _ _ _ h).2.wk
  have hc : c.coef (Key.xn 4) = 3 := by
    have := polyX_coeff (R := ℤ) h1 4
    rw [h2] at this
    rw [coeff_sub, coeff_add, coeff_add, coeff_C_mul, coeff_C_mul, coeff_C_mul, coeff_X_pow, coeff_X_pow, coeff_X,
      coeff_C] at this
    simpa using this.symm
  have := deg_of_coef (n := 4) h1 (fun e he => by
    have h5 := (hx e he).2.2
    have h6 := (h1 e he).2.1
    norm_num at h5
    simp only [Monomial.key] at h5 h6
    push_cast
    omega) (by rw [hc]; norm_num)
  rwa [hc] at this

theorem de_three_zero (hi : q ≤ 2147483647) (h1 : q % 3 = 1) {s1 s2 s3 ph p12 p13 ps p14 p15 : Poly}
    (hs1 : psi a b 1 = .ok s1) (hs2 : s1.power 2 = .ok s2)
    (hs3 : Poly.termMul (TermBuilder.new.xpow q).build s2 = .ok s3) (hph : phi a b 1 = .ok ph)
    (hp12 : (s3.sub ph).modularAssign q = .ok p12) (hp13 : p12.reductionModular a b q = .ok p13)
    (hps : psi q b 3 = .ok ps) (hp14 : ps.rem q = .ok p14) (hp15 : p13.polynomialModular fuel p14 q = .ok p15) :
    p15.isZero = true ↔ ∃ c : ZMod q.toNat, c ≠ 0 ∧ c ^ 3 = -4 * (b : ZMod q.toNat) := by
  have hpr : Nat.Prime q.toNat := Fact.out
  have hq := two_le_of_prime (p := q) hpr
  have hz : ((q : ℤ) : ZMod q.toNat) = 0 := (zmod_eq_zero_iff (show 0 ≤ q by omega) q).2 dvd_rfl
  have h3 : (3 : ZMod q.toNat) ≠ 0 := by
    intro h0
    have := (zmod_eq_zero_iff (show 0 ≤ q by omega) 3).1 (by exact_mod_cast h0)
    have := Int.le_of_dvd (by norm_num) this
    omega
  rw [← cube_iff (p := q.toNat) (by omega)]
  -- the dividend
  rw [← Res.ok.inj ((psi_one a b).symm.trans hs1)] at hs2
  have hXq : (TermBuilder.new.xpow q).build.toPol.All Key.IsX := all_toPol fun _ => by
    simp [Key.IsX, TermBuilder.new, TermBuilder.build, TermBuilder.xpow, Monomial.key, SubVar.key, SubVar.new]
    omega
  have h1X : (TermBuilder.new.build.toPol).All Key.IsX := all_toPol fun _ => by
    simp [Key.IsX, TermBuilder.new, TermBuilder.build, Monomial.key, SubVar.key, SubVar.new]
  obtain ⟨-, hs2X, hs2v⟩ := MulFn.power (isX_mulFn (R := ZMod q.toNat)) h1X hs2
  obtain ⟨hs3X, hs3v⟩ := MulFn.mul (isX_mulFn (R := ZMod q.toNat)) hXq hs2X hs3
  obtain ⟨-, hphX, hphv⟩ := C30_phi a b 1 ph hph
  have hphX' : ph.All Key.IsX := fun e he => by
    obtain ⟨k1, k2, k3, k4⟩ := hphX e he
    exact ⟨k1, k2, k3, SubVar.key_eq_none.2 k4⟩
  have hphv' : ph.polyX (ZMod q.toNat) = X := by
    have : ph.polyX (ZMod q.toNat) = (ph.polyX ℤ).map (Int.castRingHom _) := by
      ext n
      rw [coeff_map, polyX_coeff hphX', polyX_coeff hphX']
      simp
    rw [this, hphv, WeierstrassCurve.Φ_one, map_X]
  have hm12 := modularAssign_eq_ok (show 0 < q by omega) hp12
  have h12X := hm12.all (all_sub hs3X hphX')
  obtain ⟨h13X, h13c, h13r, h13v⟩ := reductionModular_polyX (by omega) h12X hp13
  have hv : p13.polyX (ZMod q.toNat) = X ^ q.toNat - X := by
    rw [h13v, polyX_modOf (by omega) hm12]
    unfold polyX at hphv' ⊢
    rw [evalAt_eq_lin] at hphv' ⊢
    rw [lin_sub, hphv', hs3v, hs2v, lin_toPol, lin_toPol]
    simp [TermBuilder.new, TermBuilder.build, TermBuilder.xpow, Monomial.key, SubVar.key, SubVar.new, Key.evalAt]
  have hnd : (X ^ q.toNat - X : (ZMod q.toNat)[X]).natDegree = q.toNat :=
    FiniteField.X_pow_card_sub_X_natDegree_eq (ZMod q.toNat) hpr.one_lt
  have h13d : p13.deg ≤ 2147483647 := by
    by_cases h0 : p13.entries = []
    · unfold deg; rw [highestTermX_of_nil h0]; simp [Term.new, Term.xpow]
    · have := (polyX_natDegree h13X (highest_coef_ne (p := q) (by omega) h13c h13r h0)).1
      rw [hv, hnd] at this
      omega
  -- the divisor
  obtain ⟨hpsX, hpsv⟩ := psi3_polyX hps (ZMod q.toNat)
  have hm14 := rem_eq_ok (show 0 < q by omega) hp14
  have h14X := hm14.all hpsX
  have h14v : p14.polyX (ZMod q.toNat) = C 3 * (X * (X ^ 3 + C (4 * (b : ZMod q.toNat)))) := by
    rw [polyX_modOf (by omega) hm14, hpsv, hz]
    have : C (12 * (b : ZMod q.toNat)) = C 3 * C (4 * (b : ZMod q.toNat)) := by
      rw [← C_mul]; congr 1; ring
    rw [this, mul_zero, zero_pow (by norm_num), C_0]
    ring
  have h14n : (C 3 * (X * (X ^ 3 + C (4 * (b : ZMod q.toNat)))) : (ZMod q.toNat)[X]).natDegree = 4 := by
    compute_degree!
  have h14e : p14.entries ≠ [] := by
    intro h0
    rw [polyX_eq_zero_of_nil h0] at h14v
    rw [← h14v] at h14n
    simp at h14n
  have h14l := highest_coef_ne (p := q) (by omega) hm14.canon (hm14.reduced (by omega)) h14e
  have h14d := (polyX_natDegree h14X h14l).1
  rw [h14v, h14n] at h14d
  obtain ⟨v, v1, v2, v3, v4, -, v6⟩ := polynomialModular_spec (p := q) hq h13X h13d h14X h14l (by omega)
  have hv15 := (mono_polynomialModular p13 p14 q).unique hp15 ⟨_, fun n hn => v1 n (show p13.deg + 1 < n from hn)⟩
  subst hv15
  rw [hv, h14v] at v6
  rw [← EuclideanDomain.mod_eq_zero, ← v6, polyX_eq_zero_iff (p := q) (by omega) v2 v3 v4, isZero_iff]

theorem schoofDE_three {r : ModResult} (hi : q ≤ 2147483647) (h1 : q % 3 = 1)
    (h : schoofDE fuel a b q 3 1 = .ok r) :
    (r.r = 1 ∧ ∃ c : ZMod q.toNat, c ≠ 0 ∧ c ^ 3 = -4 * (b : ZMod q.toNat)) ∨
    (r.r = 0 ∧ ¬ ∃ c : ZMod q.toNat, c ≠ 0 ∧ c ^ 3 = -4 * (b : ZMod q.toNat)) := by
  have hpr : Nat.Prime q.toNat := Fact.out
  have hq := two_le_of_prime (p := q) hpr
  have h3 : (3 : ZMod q.toNat) ≠ 0 := by
    intro h0
    have := (zmod_eq_zero_iff (show 0 ≤ q by omega) 3).1 (by exact_mod_cast h0)
    have := Int.le_of_dvd (by norm_num) this
    omega
  unfold schoofDE at h
  rw [find_one] at h
  dsimp only at h
  obtain ⟨s1, hs1, h⟩ := Res.bind_eq_ok.1 h
  obtain ⟨s2, hs2, h⟩ := Res.bind_eq_ok.1 h
  obtain ⟨s3, hs3, h⟩ := Res.bind_eq_ok.1 h
  obtain ⟨ph, hph, h⟩ := Res.bind_eq_ok.1 h
  obtain ⟨p12, hp12, h⟩ := Res.bind_eq_ok.1 h
  obtain ⟨p13, hp13, h⟩ := Res.bind_eq_ok.1 h
  obtain ⟨ps, hps, h⟩ := Res.bind_eq_ok.1 h
  obtain ⟨p14, hp14, h⟩ := Res.bind_eq_ok.1 h
  obtain ⟨p15, hp15, h⟩ := Res.bind_eq_ok.1 h
  rw [← de_three_zero hi h1 hs1 hs2 hs3 hph hp12 hp13 hps hp14 hp15]
  by_cases hc : p15.isZero = true
  swap
  · right
    rw [if_pos (by simpa using hc)] at h
    rw [Res.ok.injEq] at h
    exact ⟨by rw [← h], hc⟩
  · left
    refine ⟨?_, hc⟩
    rw [if_neg (by simpa using hc)] at h
    by_cases hI : InI32 a
    swap
    · rw [if_pos hI] at h; cases h
    rw [if_neg (not_not.2 hI)] at h
    obtain ⟨_, -, h⟩ := Res.bind_eq_ok.1 h
    obtain ⟨_, -, h⟩ := Res.bind_eq_ok.1 h
    obtain ⟨_, -, h⟩ := Res.bind_eq_ok.1 h
    obtain ⟨_, -, h⟩ := Res.bind_eq_ok.1 h
    obtain ⟨p16, -, h⟩ := Res.bind_eq_ok.1 h
    obtain ⟨p16', -, h⟩ := Res.bind_eq_ok.1 h
    obtain ⟨p17, h17, h⟩ := Res.bind_eq_ok.1 h
    obtain ⟨ps', hps', h⟩ := Res.bind_eq_ok.1 h
    obtain ⟨o, ho, h⟩ := Res.bind_eq_ok.1 h
    obtain ⟨-, -, r1, r2⟩ := C21_reduction_modular _ _ _ _ _ (by omega) h17
    have d := psi3_deg hps'
    have := isGcdOne_true r2 r1 (psi3_polyX hps' (ZMod q.toNat)).1 (by omega) (by omega)
      (by rw [d.2]; exact_mod_cast h3) ho
    subst this
    cases h
    rfl

end
end EC
