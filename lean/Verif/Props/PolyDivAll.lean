import Verif.Props.PolyDiv

/-! C88: `polynomial_modular`, `gcd` and `is_gcd_one` over GF(p) for all polynomials in `x`, including divisors whose
leading coefficient is divisible by `p` and polynomials with stored zero coefficients. -/

namespace EC
open Poly Polynomial

namespace Poly
variable {p : ℤ} [Fact (Nat.Prime p.toNat)]

theorem deg_eq_natDegree (hp : 0 < p) {r : Poly} (h : r.All Key.IsX) (hc : r.Canon) (hr : r.Reduced p) :
    r.deg = (r.polyX (ZMod p.toNat)).natDegree := by
  by_cases h0 : r.entries = []
  · rw [polyX_eq_zero_of_nil h0, natDegree_zero]
    unfold deg; rw [highestTermX_of_nil h0]; rfl
  · exact (polyX_natDegree h (highest_coef_ne hp hc hr h0)).1.symm

/-- A leading coefficient divisible by `p`: the degree over GF(p) is smaller. -/
theorem degree_lt_of_lead {g : Poly} (hg : g.All Key.IsX) (hl : (g.highestTermX.coef : ZMod p.toNat) = 0) :
    (g.polyX (ZMod p.toNat)).degree < g.deg := by
  rw [Polynomial.degree_lt_iff_coeff_zero]
  intro m hm
  rcases hm.lt_or_eq with h | h
  · rw [polyX_coeff hg, coef_eq_zero_of_deg_lt h, Int.cast_zero]
  · rw [← h, polyX_coeff hg, ← highest_coef hg, hl]

omit [Fact (Nat.Prime p.toNat)] in
theorem top_of_lt {K : Type} [Field K] {P Q R : K[X]} (h : R.degree < P.degree) (e : Q = P - R) :
    Q.natDegree = P.natDegree ∧ Q ≠ 0 := by
  have hd : Q.degree = P.degree := by rw [e]; exact degree_sub_eq_left_of_degree_lt h
  refine ⟨natDegree_eq_of_degree_eq hd, ?_⟩
  rintro rfl
  rw [← hd, degree_zero] at h
  exact not_lt_bot h

/-- The loop never ends on a dividend whose top coefficient survives modulo `p`. -/
theorem polyModLoop_stuck (hp : 2 ≤ p) {g : Poly} (hg : g.All Key.IsX)
    (hl : (g.highestTermX.coef : ZMod p.toNat) = 0) : ∀ (fuel : ℕ) (r : Poly), r.All Key.IsX →
      r.deg ≤ 2147483647 → g.deg ≤ r.deg → (r.highestTermX.coef : ZMod p.toNat) ≠ 0 →
      polyModLoop g.highestTermX g p fuel r = .timeout := by
  have hp0 : 0 < p := by omega
  intro fuel
  induction fuel with
  | zero => intros; rfl
  | succ n ih =>
    intro r hr hm hd hrl
    obtain ⟨inv, r', hinv, h1, h2, h3, h4, h5, h6⟩ := polyModLoop_step hp hr hg hd hm
    rw [h1]
    have hR := polyX_natDegree hr hrl
    have hlt : (C ((r.highestTermX.coef : ZMod p.toNat) * (inv : ZMod p.toNat)) *
            X ^ (r.deg - g.deg) * g.polyX (ZMod p.toNat)).degree < (r.polyX (ZMod p.toNat)).degree := by
      rw [degree_eq_natDegree hR.2.2, hR.1]
      by_cases hg0 : g.polyX (ZMod p.toNat) = 0
      · rw [hg0, mul_zero, degree_zero]; exact WithBot.bot_lt_coe _
      · have hgd := degree_lt_of_lead hg hl
        rw [degree_eq_natDegree hg0, Nat.cast_lt] at hgd
        refine lt_of_le_of_lt (degree_mul_le _ _) ?_
        rw [degree_eq_natDegree hg0]
        refine lt_of_le_of_lt (add_le_add (degree_C_mul_X_pow_le _ _) le_rfl) ?_
        rw [← Nat.cast_add, Nat.cast_lt]
        omega
    obtain ⟨hdeg, hne⟩ := top_of_lt hlt h6
    rw [hR.1] at hdeg
    have hr'd : r'.deg = r.deg := by rw [deg_eq_natDegree hp0 h2 h3 h4, hdeg]
    refine ih r' h2 (by omega) (by omega) (highest_coef_ne hp0 h3 h4 fun h0 => hne (polyX_eq_zero_of_nil h0))

/-- `polynomial_modular` by a polynomial whose leading coefficient is divisible by `p`. -/
theorem polynomialModular_bad (hp : 2 ≤ p) {f g : Poly} (hf : f.All Key.IsX) (hm : f.deg ≤ 2147483647)
    (hg : g.All Key.IsX) (hl : (g.highestTermX.coef : ZMod p.toNat) = 0) (hd : 0 < g.deg) :
    ((f.polyX (ZMod p.toNat)).natDegree < g.deg →
      ∃ v, (∀ fuel, 2 ≤ fuel → f.polynomialModular fuel g p = .ok v) ∧ v.All Key.IsX ∧ v.Canon ∧ v.Reduced p ∧
        v.deg < g.deg ∧ v.polyX (ZMod p.toNat) = f.polyX (ZMod p.toNat)) ∧
    (g.deg ≤ (f.polyX (ZMod p.toNat)).natDegree → ∀ fuel, f.polynomialModular fuel g p = .timeout) := by
  have hp0 : 0 < p := by omega
  have fin : ∀ w : Poly, w.All Key.IsX → w.deg < g.deg → ∃ v, w.modularAssign p = .ok v ∧ v.All Key.IsX ∧ v.Canon ∧
      v.Reduced p ∧ v.deg < g.deg ∧ v.polyX (ZMod p.toNat) = w.polyX (ZMod p.toNat) := by
    intro w hw hwd
    obtain ⟨v, hv, hvm⟩ := modularAssign_ok w hp0
    have hvAll : v.All (fun k => k.IsX ∧ k.x ≤ w.deg) := hvm.all (fun e he => ⟨hw e he, xpow_le_deg he⟩)
    exact ⟨v, hv, hvAll.mono (fun _ h => h.1), hvm.canon, hvm.reduced hp0,
      lt_of_le_of_lt (deg_le_of_forall (fun e he => (hvAll e he).2)) hwd, polyX_modOf hp0.le hvm⟩
  have top : ∀ fuel, f.polynomialModular fuel g p = (polyModLoop g.highestTermX g p fuel f >>= fun r =>
      r.modularAssign p) := by
    intro fuel
    unfold polynomialModular
    rw [hasY_of_isX hg, hasQ_of_isX hg]
    rfl
  by_cases hlt : f.deg < g.deg
  · have hnd : (f.polyX (ZMod p.toNat)).natDegree < g.deg := lt_of_le_of_lt (polyX_natDegree_le hf) hlt
    refine ⟨fun _ => ?_, fun h => by omega⟩
    obtain ⟨v, hv, h1⟩ := fin f hf hlt
    refine ⟨v, fun fuel hfu => ?_, h1⟩
    obtain ⟨f', rfl⟩ : ∃ f', fuel = f' + 1 := ⟨fuel - 1, by omega⟩
    rw [top, polyModLoop_stop hf hg hlt]
    exact hv
  · by_cases hfl : (f.highestTermX.coef : ZMod p.toNat) = 0
    · obtain ⟨inv, r', hinv, h1, h2, h3, h4, h5, h6⟩ := polyModLoop_step hp hf hg (by omega) hm
      rw [hfl, zero_mul, map_zero, zero_mul, zero_mul, sub_zero] at h6
      have hrd := deg_eq_natDegree hp0 h2 h3 h4
      rw [h6] at hrd
      constructor
      · intro hnd
        obtain ⟨v, hv, e1, e2, e3, e4, e5⟩ := fin r' h2 (by omega)
        refine ⟨v, fun fuel hfu => ?_, e1, e2, e3, e4, by rw [e5, h6]⟩
        obtain ⟨f', rfl⟩ : ∃ f', fuel = f' + 2 := ⟨fuel - 2, by omega⟩
        rw [top, h1, polyModLoop_stop h2 hg (by omega)]
        exact hv
      · intro hnd fuel
        have hne : r'.entries ≠ [] := by
          intro h0
          rw [← h6, polyX_eq_zero_of_nil h0, natDegree_zero] at hnd
          omega
        rw [top]
        cases fuel with
        | zero => rfl
        | succ n =>
          rw [h1, polyModLoop_stuck hp hg hl n r' h2 (by omega) (by omega) (highest_coef_ne hp0 h3 h4 hne)]
          rfl
    · have hF := polyX_natDegree hf hfl
      refine ⟨fun h => by omega, fun _ fuel => ?_⟩
      rw [top, polyModLoop_stuck hp hg hl fuel f hf hm (by omega) hfl]
      rfl

/-- `to_monic` of a polynomial whose leading coefficient is divisible by `p`. -/
theorem toMonic_bad (hp : 2 ≤ p) {f : Poly} (hf : f.All Key.IsX) (hm : f.deg ≤ 2147483647)
    (hf0 : f.entries ≠ []) (hl : (f.highestTermX.coef : ZMod p.toNat) = 0) :
    ∃ v, f.toMonic p = .ok v ∧ v.All Key.IsX ∧ v.Canon ∧ v.Reduced p ∧
      v.polyX (ZMod p.toNat) = if p = 2 then f.polyX (ZMod p.toNat) else 0 := by
  have hp0 : 0 < p := by omega
  obtain ⟨inv, hinv, hi0, hi1, hi2, hi⟩ := inverse_spec f.highestTermX.coef p Fact.out
  set t : Term := (TermBuilder.new.coef inv).build with ht
  have htk : t.monomial.key = Key.xn 0 := rfl
  have htT : t.toPol.All (fun k => k = Key.xn 0) := all_toPol (fun _ => htk)
  have hfT : f.All (fun k => k.IsX ∧ k.x ≤ f.deg) := fun e he => ⟨hf e he, xpow_le_deg he⟩
  obtain ⟨c, hc⟩ : ∃ c, f.mulTerm t = .ok c := mul_ok (fun ie hi je hj => by
    obtain ⟨⟨h3, h4, h5, h6⟩, h7⟩ := hfT ie hi
    rw [htT je hj]
    refine ⟨Or.inr rfl, ⟨?_, ?_⟩, ⟨?_, ?_⟩, ⟨?_, ?_⟩⟩ <;> simp only [Key.xn] <;> omega)
  have hcAll : c.All Key.IsX := all_mul hfT htT (by
    rintro k k' ⟨⟨h3, h4, h5, h6⟩, h7⟩ rfl _
    refine ⟨?_, ?_, ?_, ?_⟩ <;> simp only [Key.mul, Key.xn]
    · simpa using h3
    · simp [h4]
    · simp [h5]
    · simp [h6]) hc
  obtain ⟨v, hv, hvm⟩ := modularAssign_ok c hp0
  have hvX : v.polyX (ZMod p.toNat) = C ((inv : ℤ) : ZMod p.toNat) * f.polyX (ZMod p.toNat) := by
    rw [polyX_modOf hp0.le hvm]
    have h2 := (MulFn.mul (isX_mulFn (R := ZMod p.toNat)) hf
      (htT.mono (fun k hk => by rw [hk]; exact xn_isX _)) hc).2
    unfold polyX
    rw [evalAt_eq_lin, evalAt_eq_lin, h2, lin_toPol, htk, evalAt_isX (xn_isX _), mul_comm]
    congr 1
    rw [zsmul_eq_mul]
    simp [ht, Key.xn, TermBuilder.build, TermBuilder.coef]
  refine ⟨v, ?_, hvm.all hcAll, hvm.canon, hvm.reduced hp0, ?_⟩
  · unfold toMonic
    rw [if_neg (by rw [isZero_iff]; exact hf0)]
    simp only [hinv, Res.ok_bind]
    rw [← ht, hc]; exact hv
  · rw [hvX]
    split_ifs with h2
    · rw [hi2 h2]; simp
    · rw [hi (Or.inr h2), hl]; simp

omit [Fact (Nat.Prime p.toNat)] in
theorem polynomialModular_or {f g r : Poly} {N : ℕ} (h : ∀ fuel, N ≤ fuel → f.polynomialModular fuel g p = .ok r)
    (n : ℕ) : f.polynomialModular n g p = .timeout ∨ f.polynomialModular n g p = .ok r := by
  by_cases ht : f.polynomialModular n g p = .timeout
  · exact Or.inl ht
  · right
    have := polynomialModular_mono ht N
    rw [h _ (by omega)] at this
    exact this.symm

/-- `gcd` of an arbitrary polynomial and one of not larger degree with leading coefficient prime to `p`. -/
theorem gcd_good (hp : 2 ≤ p) {f g : Poly} (hf : f.All Key.IsX) (hm : f.deg ≤ 2147483647) (hg : UniOK p g)
    (hd : g.deg ≤ f.deg) :
    (¬ IsCoprime (f.polyX (ZMod p.toNat)) (g.polyX (ZMod p.toNat)) →
      ∃ v N, (∀ fuel, N ≤ fuel → gcd fuel f g p = .ok v) ∧ v.All Key.IsX ∧ v.Canon ∧ v.Reduced p ∧
        (v.polyX (ZMod p.toNat)).Monic ∧ Associated (v.polyX (ZMod p.toNat))
          (EuclideanDomain.gcd (f.polyX (ZMod p.toNat)) (g.polyX (ZMod p.toNat)))) ∧
    (IsCoprime (f.polyX (ZMod p.toNat)) (g.polyX (ZMod p.toNat)) → ∀ fuel, gcd fuel f g p = .timeout) := by
  have hG := polyX_natDegree hg.isX hg.lead
  rcases Nat.eq_zero_or_pos g.deg with h0 | h0
  · have h1 : IsUnit (g.polyX (ZMod p.toNat)) := by
      rw [Polynomial.isUnit_iff_degree_eq_zero, degree_eq_natDegree hG.2.2, hG.1, h0]; rfl
    refine ⟨fun hco => ?_, fun _ fuel => ?_⟩
    · exfalso; apply hco
      obtain ⟨u, hu⟩ := h1.exists_left_inv
      exact ⟨0, u, by rw [hu]; simp⟩
    · cases fuel with
      | zero => rfl
      | succ n => rw [gcd_noswap hf hg.isX hd, polynomialModular_const hp hf hg.isX h0 hm]; rfl
  obtain ⟨r, hr1, hr2, hr3, hr4, hr5, hr6⟩ := polynomialModular_spec hp hf hm hg.isX hg.lead h0
  have hmod := EuclideanDomain.mod_add_div (f.polyX (ZMod p.toNat)) (g.polyX (ZMod p.toNat))
  have hgcd : Associated (EuclideanDomain.gcd (g.polyX (ZMod p.toNat)) (r.polyX (ZMod p.toNat)))
      (EuclideanDomain.gcd (f.polyX (ZMod p.toNat)) (g.polyX (ZMod p.toNat))) := by
    rw [hr6]
    refine associated_of_dvd_dvd (EuclideanDomain.dvd_gcd ?_ (EuclideanDomain.gcd_dvd_left _ _))
      (EuclideanDomain.dvd_gcd (EuclideanDomain.gcd_dvd_right _ _) ?_)
    · conv_rhs => rw [← hmod]
      exact dvd_add (EuclideanDomain.gcd_dvd_right _ _)
        (dvd_mul_of_dvd_left (EuclideanDomain.gcd_dvd_left _ _) _)
    · rw [EuclideanDomain.dvd_mod_iff (EuclideanDomain.gcd_dvd_right _ _)]
      exact EuclideanDomain.gcd_dvd_left _ _
  have hcop : IsCoprime (f.polyX (ZMod p.toNat)) (g.polyX (ZMod p.toNat)) ↔
      IsCoprime (g.polyX (ZMod p.toNat)) (r.polyX (ZMod p.toNat)) := by
    rw [← EuclideanDomain.gcd_isUnit_iff, ← EuclideanDomain.gcd_isUnit_iff]
    exact hgcd.isUnit_iff.symm
  by_cases hz : r.entries = []
  · have hr0 := polyX_eq_zero_of_nil (R := ZMod p.toNat) hz
    refine ⟨fun hco => ?_, fun hco => ?_⟩
    · obtain ⟨v, hv1, hv2, hv3, hv4, hv5, hv6, hv7⟩ := toMonic_spec hp hg.isX hg.i32 hg.lead
      refine ⟨v, f.deg + 3, fun fuel hfu => ?_, hv2, hv3, hv4, ?_, ?_⟩
      · obtain ⟨f', rfl⟩ : ∃ f', fuel = f' + 1 := ⟨fuel - 1, by omega⟩
        rw [gcd_noswap hf hg.isX hd, hr1 f' (by omega), Res.ok_bind, if_pos (isZero_iff.2 hz), hv1]
      · rw [Polynomial.Monic, hv7, leadingCoeff_mul, leadingCoeff_C, hG.2.1, inv_mul_cancel₀ hg.lead]
      · refine Associated.trans ?_ hgcd
        rw [hr0, EuclideanDomain.gcd_zero_right, hv7]
        exact associated_unit_mul_left _ _ (Polynomial.isUnit_C.2 (isUnit_iff_ne_zero.2 (inv_ne_zero hg.lead)))
    · exfalso
      rw [hcop, hr0, isCoprime_zero_right, Polynomial.isUnit_iff_degree_eq_zero, degree_eq_natDegree hG.2.2,
        hG.1] at hco
      have : g.deg = 0 := by exact_mod_cast hco
      omega
  · have hr : UniOK p r := UniOK.of_mod hp hr2 hr3 hr4 hr5 hg.i32 hz
    refine ⟨fun hco => ?_, fun hco fuel => ?_⟩
    · obtain ⟨v, hv1, hv2, hv3, hv4, hv5, hv6, hv7⟩ := gcd_spec hp _ g r hg hr le_rfl (fun h => hco (hcop.2 h))
      refine ⟨v, f.deg + (g.deg + 2 * r.deg) + 5, fun fuel hfu => ?_, hv2, hv3, hv4, hv5, hv7.trans hgcd⟩
      obtain ⟨f', rfl⟩ : ∃ f', fuel = f' + 1 := ⟨fuel - 1, by omega⟩
      rw [gcd_noswap hf hg.isX hd, hr1 f' (by omega), Res.ok_bind, if_neg (by rw [isZero_iff]; exact hz)]
      exact hv1 f' (by omega)
    · cases fuel with
      | zero => rfl
      | succ n =>
        rw [gcd_noswap hf hg.isX hd]
        rcases polynomialModular_or (N := f.deg + 2) (fun fuel h => hr1 fuel (by omega)) n with h | h
        · rw [h]; rfl
        · rw [h, Res.ok_bind, if_neg (by rw [isZero_iff]; exact hz)]
          exact gcd_diverges hp n g r hg hr (hcop.1 hco)

/-- `gcd` with a second argument whose leading coefficient is divisible by `p`. -/
theorem gcd_bad (hp : 2 ≤ p) {f g : Poly} (hf : f.All Key.IsX) (hm : f.deg ≤ 2147483647) (hg : g.All Key.IsX)
    (hgm : g.deg ≤ 2147483647) (hl : (g.highestTermX.coef : ZMod p.toNat) = 0) (hd : g.deg ≤ f.deg) :
    (0 < g.deg → (f.polyX (ZMod p.toNat)).natDegree < g.deg → f.polyX (ZMod p.toNat) ≠ 0 →
      ¬ IsCoprime (f.polyX (ZMod p.toNat)) (g.polyX (ZMod p.toNat)) →
      ∃ v N, (∀ fuel, N ≤ fuel → gcd fuel f g p = .ok v) ∧ v.All Key.IsX ∧ v.Canon ∧ v.Reduced p ∧
        (v.polyX (ZMod p.toNat)).Monic ∧ Associated (v.polyX (ZMod p.toNat))
          (EuclideanDomain.gcd (f.polyX (ZMod p.toNat)) (g.polyX (ZMod p.toNat)))) ∧
    (0 < g.deg → f.polyX (ZMod p.toNat) = 0 →
      ∃ v N, (∀ fuel, N ≤ fuel → gcd fuel f g p = .ok v) ∧ v.All Key.IsX ∧ v.Canon ∧ v.Reduced p ∧
        v.polyX (ZMod p.toNat) = if p = 2 then g.polyX (ZMod p.toNat) else 0) ∧
    (g.deg = 0 ∨ g.deg ≤ (f.polyX (ZMod p.toNat)).natDegree ∨ (f.polyX (ZMod p.toNat) ≠ 0 ∧
      IsCoprime (f.polyX (ZMod p.toNat)) (g.polyX (ZMod p.toNat))) → ∀ fuel, gcd fuel f g p = .timeout) := by
  have hp0 : 0 < p := by omega
  rcases Nat.eq_zero_or_pos g.deg with h0 | h0
  · refine ⟨fun h => by omega, fun h => by omega, fun _ fuel => ?_⟩
    cases fuel with
    | zero => rfl
    | succ n => rw [gcd_noswap hf hg hd, polynomialModular_const hp hf hg h0 hm]; rfl
  obtain ⟨hb1, hb2⟩ := polynomialModular_bad hp hf hm hg hl h0
  have hg0 : g.entries ≠ [] := by
    intro h
    have : g.deg = 0 := by unfold deg; rw [highestTermX_of_nil h]; rfl
    omega
  by_cases hlt : (f.polyX (ZMod p.toNat)).natDegree < g.deg
  · obtain ⟨r, hr1, hr2, hr3, hr4, hr5, hr6⟩ := hb1 hlt
    by_cases hz : f.polyX (ZMod p.toNat) = 0
    · have hrz : r.isZero = true := by
        rw [isZero_iff]
        by_contra hne
        have := (polyX_natDegree hr2 (highest_coef_ne hp0 hr3 hr4 hne)).2.2
        exact this (hr6.trans hz)
      refine ⟨fun _ _ h => absurd hz h, fun _ _ => ?_, fun h => ?_⟩
      · obtain ⟨v, hv, hv1⟩ := toMonic_bad hp hg hgm hg0 hl
        refine ⟨v, 3, fun fuel hfu => ?_, hv1⟩
        obtain ⟨f', rfl⟩ : ∃ f', fuel = f' + 1 := ⟨fuel - 1, by omega⟩
        rw [gcd_noswap hf hg hd, hr1 f' (by omega), Res.ok_bind, if_pos hrz, hv]
      · rcases h with h | h | h
        · omega
        · omega
        · exact absurd hz h.1
    · have hrn : r.entries ≠ [] := fun h => hz (hr6.symm.trans (polyX_eq_zero_of_nil h))
      have hrnz : ¬ r.isZero = true := by rw [isZero_iff]; exact hrn
      have hr : UniOK p r := ⟨hr2, highest_coef_ne hp0 hr3 hr4 hrn, by omega⟩
      obtain ⟨hg1, hg2⟩ := gcd_good hp hg hgm hr (by omega)
      rw [hr6] at hg1 hg2
      refine ⟨fun _ _ _ hco => ?_, fun _ h => absurd h hz, fun h fuel => ?_⟩
      · obtain ⟨v, N, hv, e1, e2, e3, e4, e5⟩ := hg1 (fun h => hco h.symm)
        refine ⟨v, N + 3, fun fuel hfu => ?_, e1, e2, e3, e4, e5.trans ?_⟩
        · obtain ⟨f', rfl⟩ : ∃ f', fuel = f' + 1 := ⟨fuel - 1, by omega⟩
          rw [gcd_noswap hf hg hd, hr1 f' (by omega), Res.ok_bind, if_neg hrnz, hv f' (by omega)]
        · exact associated_of_dvd_dvd
            (EuclideanDomain.dvd_gcd (EuclideanDomain.gcd_dvd_right _ _) (EuclideanDomain.gcd_dvd_left _ _))
            (EuclideanDomain.dvd_gcd (EuclideanDomain.gcd_dvd_right _ _) (EuclideanDomain.gcd_dvd_left _ _))
      · have hco : IsCoprime (f.polyX (ZMod p.toNat)) (g.polyX (ZMod p.toNat)) := by
          rcases h with h | h | h
          · omega
          · omega
          · exact h.2
        cases fuel with
        | zero => rfl
        | succ n =>
          rw [gcd_noswap hf hg hd]
          rcases polynomialModular_or hr1 n with h | h
          · rw [h]; rfl
          · rw [h, Res.ok_bind, if_neg hrnz]
            exact hg2 hco.symm n
  · refine ⟨fun _ h => absurd h hlt, fun _ h => ?_, fun _ fuel => ?_⟩
    · rw [h, natDegree_zero] at hlt; omega
    · cases fuel with
      | zero => rfl
      | succ n => rw [gcd_noswap hf hg hd, hb2 (by omega) n]; rfl

end Poly

theorem lead_eq {p : ℤ} (hp : Nat.Prime p.toNat) {f : Poly} (h : p ∣ f.highestTermX.coef) :
    (f.highestTermX.coef : ZMod p.toNat) = 0 := by
  have := two_le_of_prime hp
  rwa [zmod_eq_zero_iff (by omega)]

/-- C88: for all polynomials `f`, `g` in `x` and every prime `p`, `polynomial_modular` returns exactly when `g` has
a stored power of `x` and, in case its leading coefficient is divisible by `p`, the degree of `f` modulo `p` is
below the stored degree of `g`.  In that last case the answer is `f` modulo `p`.  Otherwise it runs for ever. -/
theorem C88_polynomial_modular (p : ℤ) [Fact (Nat.Prime p.toNat)] (f g : Poly)
    (hf : f.All Key.IsX) (hfi : ∀ e ∈ f.entries, e.1.xpow ≤ 2147483647) (hg : g.All Key.IsX) :
    ((∃ r, Returns (fun fuel => f.polynomialModular fuel g p) r) ↔ 0 < g.highestTermX.xpow ∧
      (p ∣ g.highestTermX.coef → (f.polyX (ZMod p.toNat)).natDegree < g.highestTermX.xpow)) ∧
    ((¬ ∃ r, Returns (fun fuel => f.polynomialModular fuel g p) r) →
      Diverges (fun fuel => f.polynomialModular fuel g p)) ∧
    (p ∣ g.highestTermX.coef → ∀ r, Returns (fun fuel => f.polynomialModular fuel g p) r →
      r.polyX (ZMod p.toNat) = f.polyX (ZMod p.toNat) ∧ r.Reduced p ∧ r.Canon ∧ r.All Key.IsX) := by
  have hp2 : 2 ≤ p := two_le_of_prime Fact.out
  have hdx := highest_xpow hg
  have nodiv : ∀ r, Returns (fun fuel => f.polynomialModular fuel g p) r →
      ¬ Diverges (fun fuel => f.polynomialModular fuel g p) := by
    rintro r ⟨N, h⟩ hd
    have := (h N le_rfl).symm.trans (hd N)
    simp at this
  have uniq : ∀ r s, Returns (fun fuel => f.polynomialModular fuel g p) r →
      Returns (fun fuel => f.polynomialModular fuel g p) s → r = s := by
    rintro r s ⟨N, h⟩ ⟨M, h'⟩
    have h1 : f.polynomialModular (N + M) g p = .ok r := h (N + M) (by omega)
    have h2 : f.polynomialModular (N + M) g p = .ok s := h' (N + M) (by omega)
    rw [h1] at h2; exact Res.ok.inj h2
  rw [hdx]
  have hN : (0 : ℤ) < (g.deg : ℤ) ↔ 0 < g.deg := by omega
  have hM : ((f.polyX (ZMod p.toNat)).natDegree : ℤ) < (g.deg : ℤ) ↔
    (f.polyX (ZMod p.toNat)).natDegree < g.deg := by omega
  rw [hN, hM]
  rcases Nat.eq_zero_or_pos g.deg with h0 | h0
  · have hdv : Diverges (fun fuel => f.polynomialModular fuel g p) := fun fuel =>
      polynomialModular_const hp2 hf hg h0 (deg_le_i32 hfi) fuel
    exact ⟨⟨fun ⟨r, hr⟩ => absurd hdv (nodiv r hr), fun h => by omega⟩, fun _ => hdv,
      fun _ r hr => absurd hdv (nodiv r hr)⟩
  · by_cases hl : p ∣ g.highestTermX.coef
    · obtain ⟨hb1, hb2⟩ := polynomialModular_bad hp2 hf (deg_le_i32 hfi) hg (lead_eq Fact.out hl) h0
      by_cases hlt : (f.polyX (ZMod p.toNat)).natDegree < g.deg
      · obtain ⟨v, hv, h1, h2, h3, h4, h5⟩ := hb1 hlt
        have hv' : Returns (fun fuel => f.polynomialModular fuel g p) v := ⟨2, hv⟩
        refine ⟨⟨fun _ => ⟨h0, fun _ => hlt⟩, fun _ => ⟨v, hv'⟩⟩, fun h => absurd ⟨v, hv'⟩ h, fun _ r hr => ?_⟩
        rw [uniq r v hr hv']
        exact ⟨h5, h3, h2, h1⟩
      · have hdv : Diverges (fun fuel => f.polynomialModular fuel g p) := hb2 (by omega)
        exact ⟨⟨fun ⟨r, hr⟩ => absurd hdv (nodiv r hr), fun h => absurd (h.2 hl) hlt⟩, fun _ => hdv,
          fun _ r hr => absurd hdv (nodiv r hr)⟩
    · obtain ⟨r, hr, _⟩ := C15_remainder p f g hf hfi hg hl (by omega)
      exact ⟨⟨fun _ => ⟨h0, fun h => absurd h hl⟩, fun _ => ⟨r, hr⟩⟩, fun h => absurd ⟨r, hr⟩ h,
        fun h => absurd h hl⟩

/-- C88: `gcd` exchanges its arguments when the first has the smaller stored degree. -/
theorem C88_gcd_swap (p : ℤ) (f g : Poly) (h : f.highestTermX.xpow < g.highestTermX.xpow) :
    (∀ d, Returns (fun fuel => Poly.gcd fuel f g p) d ↔ Returns (fun fuel => Poly.gcd fuel g f p) d) ∧
    (Diverges (fun fuel => Poly.gcd fuel f g p) ↔ Diverges (fun fuel => Poly.gcd fuel g f p)) := by
  have hs : ∀ fuel, Poly.gcd (fuel + 1) f g p = Poly.gcd fuel g f p := fun fuel => by
    rw [Poly.gcd]; rw [if_pos h]
  refine ⟨fun d => ⟨?_, ?_⟩, ⟨?_, ?_⟩⟩
  · rintro ⟨N, hN⟩
    exact ⟨N, fun fuel hfu => (hs fuel).symm.trans (hN (fuel + 1) (by omega))⟩
  · rintro ⟨N, hN⟩
    refine ⟨N + 1, fun fuel hfu => ?_⟩
    obtain ⟨f', rfl⟩ : ∃ f', fuel = f' + 1 := ⟨fuel - 1, by omega⟩
    exact (hs f').trans (hN f' (by omega))
  · exact fun hd fuel => (hs fuel).symm.trans (hd (fuel + 1))
  · intro hd fuel
    cases fuel with
    | zero => rfl
    | succ n => exact (hs n).trans (hd n)

/-- C88: for all polynomials in `x` with the stored degree of `g` not above that of `f`: `gcd` returns the monic
greatest common divisor, or (when `f` is zero modulo `p` and the leading coefficient of `g` is divisible by `p`) the
zero polynomial for odd `p` and `g` modulo 2 for `p = 2`, exactly under the stated condition; otherwise it runs for
ever. -/
theorem C88_gcd (p : ℤ) [Fact (Nat.Prime p.toNat)] (f g : Poly)
    (hf : f.All Key.IsX) (hfi : ∀ e ∈ f.entries, e.1.xpow ≤ 2147483647)
    (hg : g.All Key.IsX) (hgi : ∀ e ∈ g.entries, e.1.xpow ≤ 2147483647)
    (hle : g.highestTermX.xpow ≤ f.highestTermX.xpow) (F G : (ZMod p.toNat)[X])
    (hF : F = f.polyX (ZMod p.toNat)) (hG : G = g.polyX (ZMod p.toNat)) :
    (0 < g.highestTermX.xpow ∧ (p ∣ g.highestTermX.coef → (F.natDegree : ℤ) < g.highestTermX.xpow) ∧
        (F = 0 ∨ ¬ IsCoprime F G) →
      ∃ d, Returns (fun fuel => Poly.gcd fuel f g p) d ∧ d.Reduced p ∧ d.Canon ∧ d.All Key.IsX ∧
        (F ≠ 0 ∨ ¬ p ∣ g.highestTermX.coef → (d.polyX (ZMod p.toNat)).Monic ∧
          ∀ e : (ZMod p.toNat)[X], e ∣ d.polyX (ZMod p.toNat) ↔ e ∣ F ∧ e ∣ G) ∧
        (F = 0 → p ∣ g.highestTermX.coef → d.polyX (ZMod p.toNat) = if p = 2 then G else 0)) ∧
    (¬ (0 < g.highestTermX.xpow ∧ (p ∣ g.highestTermX.coef → (F.natDegree : ℤ) < g.highestTermX.xpow) ∧
        (F = 0 ∨ ¬ IsCoprime F G)) → Diverges (fun fuel => Poly.gcd fuel f g p)) := by
  have hp2 : 2 ≤ p := two_le_of_prime Fact.out
  have dv : ∀ v : (ZMod p.toNat)[X], Associated v (EuclideanDomain.gcd F G) → ∀ e, e ∣ v ↔ e ∣ F ∧ e ∣ G := by
    intro v hv e
    rw [hv.dvd_iff_dvd_right]
    exact ⟨fun h => ⟨h.trans (EuclideanDomain.gcd_dvd_left _ _), h.trans (EuclideanDomain.gcd_dvd_right _ _)⟩,
      fun h => EuclideanDomain.dvd_gcd h.1 h.2⟩
  rw [highest_xpow hf, highest_xpow hg] at hle
  rw [highest_xpow hg]
  have hle' : g.deg ≤ f.deg := by omega
  have hN : (0 : ℤ) < (g.deg : ℤ) ↔ 0 < g.deg := by omega
  have hM : (F.natDegree : ℤ) < (g.deg : ℤ) ↔ F.natDegree < g.deg := by omega
  rw [hN, hM]
  by_cases hl : p ∣ g.highestTermX.coef
  · obtain ⟨h1, h2, h3⟩ := gcd_bad hp2 hf (deg_le_i32 hfi) hg (deg_le_i32 hgi) (lead_eq Fact.out hl) hle'
    rw [← hF, ← hG] at h1 h3
    rw [← hF, ← hG] at h2
    constructor
    · rintro ⟨e1, e2, e3⟩
      by_cases hF0 : F = 0
      · obtain ⟨v, N, hv, a1, a2, a3, a4⟩ := h2 e1 hF0
        exact ⟨v, ⟨N, hv⟩, a3, a2, a1, fun h => (h.elim (absurd hF0) (absurd hl)), fun _ _ => a4⟩
      · obtain ⟨v, N, hv, a1, a2, a3, a4, a5⟩ := h1 e1 (e2 hl) hF0 (e3.resolve_left hF0)
        exact ⟨v, ⟨N, hv⟩, a3, a2, a1, fun _ => ⟨a4, dv _ a5⟩, fun h => absurd h hF0⟩
    · intro hn
      refine h3 ?_
      by_contra hc
      push Not at hc
      exact hn ⟨by omega, fun _ => by omega, by
        by_cases hF0 : F = 0
        · exact Or.inl hF0
        · exact Or.inr (hc.2.2 hF0)⟩
  · have hgu : UniOK p g := ⟨hg, lead_ne Fact.out hl, deg_le_i32 hgi⟩
    obtain ⟨h1, h2⟩ := gcd_good hp2 hf (deg_le_i32 hfi) hgu hle'
    rw [← hF, ← hG] at h1 h2
    have hGd := polyX_natDegree hg hgu.lead
    rw [← hG] at hGd
    constructor
    · rintro ⟨e1, e2, e3⟩
      have hco : ¬ IsCoprime F G := by
        rcases e3 with h | h
        · rw [h, isCoprime_zero_left, Polynomial.isUnit_iff_degree_eq_zero, degree_eq_natDegree hGd.2.2, hGd.1]
          intro hh
          have : g.deg = 0 := by exact_mod_cast hh
          omega
        · exact h
      obtain ⟨v, N, hv, a1, a2, a3, a4, a5⟩ := h1 hco
      exact ⟨v, ⟨N, hv⟩, a3, a2, a1, fun _ => ⟨a4, dv _ a5⟩, fun _ h => absurd h hl⟩
    · intro hn
      refine h2 ?_
      by_contra hc
      refine hn ⟨?_, fun h => absurd h hl, Or.inr hc⟩
      rcases Nat.eq_zero_or_pos g.deg with h0 | h0
      · exfalso; apply hc
        have h1 : IsUnit G := by
          rw [Polynomial.isUnit_iff_degree_eq_zero, degree_eq_natDegree hGd.2.2, hGd.1, h0]; rfl
        exact (isCoprime_comm.1 (IsCoprime.of_isCoprime_of_dvd_left (isCoprime_one_left) h1.dvd))
      · exact h0

/-- C88: `is_gcd_one` answers exactly when `gcd` does, and never answers `false` except for the zero result. -/
theorem C88_is_gcd_one (p : ℤ) (f g : Poly) :
    (∀ b, Returns (fun fuel => Poly.isGcdOne fuel f g p) b →
      ∃ N, ∀ fuel, N ≤ fuel → ∃ d, Poly.gcd fuel f g p = .ok d ∧ b = !d.isZero) ∧
    (∀ d, Returns (fun fuel => Poly.gcd fuel f g p) d → Returns (fun fuel => Poly.isGcdOne fuel f g p) (!d.isZero)) ∧
    (Diverges (fun fuel => Poly.isGcdOne fuel f g p) ↔ Diverges (fun fuel => Poly.gcd fuel f g p)) := by
  refine ⟨?_, ?_, ⟨?_, ?_⟩⟩
  · rintro b ⟨N, h⟩
    refine ⟨N, fun fuel hfu => ?_⟩
    have h1 : Poly.isGcdOne fuel f g p = .ok b := h fuel hfu
    unfold isGcdOne at h1
    obtain ⟨d, hd, h2⟩ := Res.bind_eq_ok.1 h1
    exact ⟨d, hd, (Res.ok.inj h2).symm⟩
  · rintro d ⟨N, h⟩
    refine ⟨N, fun fuel hfu => ?_⟩
    have h1 : Poly.gcd fuel f g p = .ok d := h fuel hfu
    change Poly.isGcdOne fuel f g p = _
    unfold isGcdOne
    rw [h1]; rfl
  · intro h fuel
    have h1 : Poly.isGcdOne fuel f g p = .timeout := h fuel
    unfold isGcdOne at h1
    change Poly.gcd fuel f g p = _
    cases hg : Poly.gcd fuel f g p with
    | ok d => rw [hg] at h1; simp at h1
    | panic w => rw [hg] at h1; simp at h1
    | timeout => rfl
  · intro h fuel
    have h1 : Poly.gcd fuel f g p = .timeout := h fuel
    change Poly.isGcdOne fuel f g p = _
    unfold isGcdOne
    rw [h1]; rfl

/-- Sample `5 x + 1`: leading coefficient zero modulo 5. -/
def sample5X1 : Poly := ((TermBuilder.new.coef 5).xpow 1).build.add Term.one
theorem isX_sample5X1 : sample5X1.All Key.IsX := by
  have : ∀ e ∈ sample5X1.entries, 0 ≤ e.1.key.x ∧ e.1.key.y = 0 ∧ e.1.key.q = 0 ∧ e.1.key.v = none := by
    decide +kernel
  exact this
-- `x^3 + 2` by `5 x + 1` over GF(5) does not end, although the divisor is the unit 1
example : sampleX3.polynomialModular 40 sample5X1 5 = .timeout := by decide +kernel
-- `1` by `5 x + 1`: returns
example : (Poly.one.polynomialModular 9 sample5X1 5 >>= fun c => .ok (c.entries.map (·.2))) = .ok [1] := by
  decide +kernel
-- the gcd of `5 x^2` and `5 x + 1` over GF(5) (that is, of 0 and 1) is reported as 0
example : (Poly.gcd 9 ((TermBuilder.new.coef 5).xpow 2).build.toPol sample5X1 5 >>= fun c =>
    .ok (c.entries.map (·.2))) = .ok [] := by decide +kernel
example : Poly.isGcdOne 9 ((TermBuilder.new.coef 5).xpow 2).build.toPol sample5X1 5 = .ok false := by decide +kernel
example : ¬ ∃ r, Returns (fun fuel => sampleX3.polynomialModular fuel Poly.one 5) r := by
  rw [(C88_polynomial_modular 5 sampleX3 Poly.one isX_sampleX3 (by decide +kernel) (all_one (xn_isX 0))).1]
  have : ¬ 0 < Poly.one.highestTermX.xpow := by decide +kernel
  exact fun h => this h.1

end EC
