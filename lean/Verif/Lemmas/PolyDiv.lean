import Verif.Lemmas.PolyX

/-! Helper lemmas: `polynomial_modular`, `gcd`, `to_monic`. -/

namespace EC
namespace Poly
open Polynomial

theorem modularAssign_term {t : Term} {p : ℤ} (hp : 0 < p) :
    t.modularAssign p = .ok { t with coef := t.coef % p } := by
  unfold Term.modularAssign; rw [if_neg hp.ne', fmod_pos_eq hp]

theorem xn_isX (n : ℕ) : (Key.xn n).IsX := ⟨by simp [Key.xn], rfl, rfl, rfl⟩

/-- One turn of the loop of `polynomial_modular`. -/
theorem polyModLoop_step {p : ℤ} (hp : 2 ≤ p) {r other : Poly} (hr : r.All Key.IsX)
    (ho : other.All Key.IsX) (hdeg : other.deg ≤ r.deg) (hmax : r.deg ≤ 2147483647) :
    ∃ inv r', inverse other.highestTermX.coef p = .ok inv ∧
      (∀ fuel, polyModLoop other.highestTermX other p (fuel + 1) r =
        polyModLoop other.highestTermX other p fuel r') ∧
      r'.All Key.IsX ∧ r'.Canon ∧ r'.Reduced p ∧ r'.deg ≤ r.deg ∧
      r'.polyX (ZMod p.toNat) = r.polyX (ZMod p.toNat) -
        C ((r.highestTermX.coef : ZMod p.toNat) * (inv : ZMod p.toNat)) * X ^ (r.deg - other.deg) *
          other.polyX (ZMod p.toNat) := by
  have hp0 : 0 < p := by omega
  obtain ⟨inv, hinv⟩ : ∃ inv, inverse other.highestTermX.coef p = .ok inv := ⟨_, inverse_eq _ _ hp⟩
  set q : Term := Term.mk ((r.highestTermX.coef * inv) % p)
    (Monomial.mk ((r.deg : ℤ) - other.deg) 0 0 SubVar.new) with hq
  have hqk : q.monomial.key = Key.xn (r.deg - other.deg) := by
    simp only [hq, Monomial.key, Key.xn, Key.mk.injEq]
    exact ⟨by omega, trivial, trivial, rfl⟩
  have hqT : q.toPol.All (fun k => k = Key.xn (r.deg - other.deg)) := all_toPol (fun _ => hqk)
  have hoT : other.All (fun k => k.IsX ∧ k.x ≤ other.deg) := fun e he => ⟨ho e he, xpow_le_deg he⟩
  obtain ⟨d0, hd0⟩ : ∃ d, termMul q other = .ok d := mul_ok (fun ie hi je hj => by
    have h1 := hqT ie hi
    have h2 := hoT je hj
    obtain ⟨⟨h3, h4, h5, h6⟩, h7⟩ := h2
    rw [h1]
    refine ⟨Or.inl rfl, ⟨?_, ?_⟩, ⟨?_, ?_⟩, ⟨?_, ?_⟩⟩ <;> simp only [Key.xn] <;> omega)
  obtain ⟨d, hd, hdm⟩ := modularAssign_ok d0 hp0
  obtain ⟨r', hr', hrm⟩ := modularAssign_ok (r.subAssign d) hp0
  have hd0All : d0.All (fun k => k.IsX ∧ k.x ≤ r.deg) := all_mul hqT hoT (by
    rintro k k' rfl ⟨⟨h3, h4, h5, h6⟩, h7⟩ _
    refine ⟨⟨?_, ?_, ?_, ?_⟩, ?_⟩ <;> simp only [Key.mul, Key.xn]
    · omega
    · omega
    · omega
    · rw [h6]; rfl
    · omega) hd0
  have hrAll : r.All (fun k => k.IsX ∧ k.x ≤ r.deg) := fun e he => ⟨hr e he, xpow_le_deg he⟩
  have hr'All : r'.All (fun k => k.IsX ∧ k.x ≤ r.deg) := hrm.all (all_subAssign hrAll (hdm.all hd0All))
  refine ⟨inv, r', hinv, ?_, hr'All.mono (fun _ h => h.1), hrm.canon, hrm.reduced hp0,
    deg_le_of_forall (fun e he => (hr'All e he).2), ?_⟩
  · intro fuel
    rw [polyModLoop]
    simp only
    rw [if_neg (by rw [highest_xpow hr, highest_xpow ho]; omega)]
    have hchk : chk (r.highestTermX.xpow - other.highestTermX.xpow) =
        .ok ((r.deg : ℤ) - other.deg) := by
      rw [highest_xpow hr, highest_xpow ho]
      exact chk_of (show InI32 _ from ⟨by omega, by omega⟩)
    have hqe : ((((TermBuilder.new.coef (r.highestTermX.coef * inv)).xpow
        ((r.deg : ℤ) - other.deg)).ypow r.highestTermX.ypow).qpow r.highestTermX.qpow).build.modularAssign p
        = .ok q := by
      rw [modularAssign_term hp0, highest_ypow hr, highest_qpow hr]
      rfl
    simp only [hinv, hchk, hqe, hd0, hd, hr', Res.ok_bind]
  · rw [polyX_modOf hp0.le hrm]
    have h1 : (r.subAssign d).polyX (ZMod p.toNat) = r.polyX (ZMod p.toNat) - d.polyX (ZMod p.toNat) := by
      unfold polyX; simp only [evalAt_eq_lin, lin_subAssign]
    rw [h1, polyX_modOf hp0.le hdm]
    congr 1
    have h2 := (MulFn.mul (isX_mulFn (R := ZMod p.toNat)) (hqT.mono (fun k hk => by rw [hk]; exact xn_isX _))
      ho hd0).2
    unfold polyX
    rw [evalAt_eq_lin, evalAt_eq_lin, h2, lin_toPol, hqk, evalAt_isX (xn_isX _)]
    congr 1
    rw [zsmul_eq_mul]
    simp only [hq, Key.xn, Int.toNat_natCast]
    congr 1
    rw [← map_intCast (Polynomial.C : ZMod p.toNat →+* _), zmod_emod hp0.le]
    push_cast; rfl

theorem polyModLoop_stop {p : ℤ} {r other : Poly} (hr : r.All Key.IsX)
    (ho : other.All Key.IsX) (hdeg : r.deg < other.deg) (fuel : ℕ) :
    polyModLoop other.highestTermX other p (fuel + 1) r = .ok r := by
  rw [polyModLoop]
  simp only
  rw [if_pos (by rw [highest_xpow hr, highest_xpow ho]; omega)]

theorem hasY_of_isX {P : Poly} (h : P.All Key.IsX) : P.hasY = false :=
  hasY_eq_false.2 (fun e he => (h e he).2.1)
theorem hasQ_of_isX {P : Poly} (h : P.All Key.IsX) : P.hasQ = false :=
  hasQ_eq_false.2 (fun e he => (h e he).2.2.1)

/-- The loop never ends for a divisor of degree 0. -/
theorem polyModLoop_const {p : ℤ} (hp : 2 ≤ p) {other : Poly} (ho : other.All Key.IsX)
    (hd : other.deg = 0) : ∀ (fuel : ℕ) (r : Poly), r.All Key.IsX → r.deg ≤ 2147483647 →
      polyModLoop other.highestTermX other p fuel r = .timeout := by
  intro fuel
  induction fuel with
  | zero => intros; rfl
  | succ n ih =>
    intro r hr hm
    obtain ⟨_, r', _, h1, h2, _, _, h3, _⟩ := polyModLoop_step hp hr ho (by omega) hm
    rw [h1]
    exact ih r' h2 (by omega)

theorem polynomialModular_const {p : ℤ} (hp : 2 ≤ p) {f other : Poly} (hf : f.All Key.IsX)
    (ho : other.All Key.IsX) (hd : other.deg = 0) (hm : f.deg ≤ 2147483647) (fuel : ℕ) :
    f.polynomialModular fuel other p = .timeout := by
  unfold polynomialModular
  rw [hasY_of_isX ho, hasQ_of_isX ho, polyModLoop_const hp ho hd fuel f hf hm]
  rfl

section Field
variable {p : ℤ} [Fact (Nat.Prime p.toNat)]

/-- The loop ends and preserves the class modulo the divisor. -/
theorem polyModLoop_spec (hp : 2 ≤ p) {other : Poly} (ho : other.All Key.IsX)
    (hl : (other.highestTermX.coef : ZMod p.toNat) ≠ 0) (hd : 0 < other.deg) :
    ∀ (n : ℕ) (r : Poly), r.All Key.IsX → r.Canon → r.Reduced p → r.deg ≤ 2147483647 → r.deg ≤ n →
      ∃ v, (∀ fuel, n < fuel → polyModLoop other.highestTermX other p fuel r = .ok v) ∧
        v.All Key.IsX ∧ v.deg < other.deg ∧
        other.polyX (ZMod p.toNat) ∣ r.polyX (ZMod p.toNat) - v.polyX (ZMod p.toNat) := by
  have hp0 : 0 < p := by omega
  intro n
  induction n with
  | zero =>
    intro r hr _ _ _ hn
    refine ⟨r, ?_, hr, by omega, by simp⟩
    intro fuel hf
    obtain ⟨f', rfl⟩ : ∃ f', fuel = f' + 1 := ⟨fuel - 1, by omega⟩
    exact polyModLoop_stop hr ho (by omega) f'
  | succ n ih =>
    intro r hr hrc hrr hm hn
    by_cases hlt : r.deg < other.deg
    · refine ⟨r, ?_, hr, hlt, by simp⟩
      intro fuel hf
      obtain ⟨f', rfl⟩ : ∃ f', fuel = f' + 1 := ⟨fuel - 1, by omega⟩
      exact polyModLoop_stop hr ho hlt f'
    · obtain ⟨inv, r', hinv, h1, h2, h3, h4, h5, h6⟩ := polyModLoop_step hp hr ho (by omega) hm
      have hr0 : r.entries ≠ [] := by
        intro h0
        have : r.deg = 0 := by unfold deg; rw [highestTermX_of_nil h0]; rfl
        omega
      have hrl := highest_coef_ne hp0 hrc hrr hr0
      have hR := polyX_natDegree hr hrl
      have hO := polyX_natDegree ho hl
      have hinv' : (inv : ZMod p.toNat) = (other.highestTermX.coef : ZMod p.toNat)⁻¹ := by
        obtain ⟨i, hi, _, _, _, h7⟩ := inverse_spec other.highestTermX.coef p Fact.out
        rw [hinv] at hi
        simp only [Res.ok.injEq] at hi
        rw [hi]
        exact h7 (Or.inl hl)
      have hdeg' : r'.deg < r.deg := by
        apply deg_lt_of hp0 h2 h3 h4 (by omega)
        rw [h6]
        have hc0 : (r.highestTermX.coef : ZMod p.toNat) * (inv : ZMod p.toNat) ≠ 0 := by
          rw [hinv']; exact mul_ne_zero hrl (inv_ne_zero hl)
        have hnd : (C ((r.highestTermX.coef : ZMod p.toNat) * (inv : ZMod p.toNat)) *
            X ^ (r.deg - other.deg) * other.polyX (ZMod p.toNat)).degree = (r.deg : WithBot ℕ) := by
          rw [degree_mul, degree_C_mul_X_pow _ hc0, degree_eq_natDegree hO.2.2, hO.1]
          rw [← Nat.cast_add, Nat.sub_add_cancel (by omega)]
        have hRd : (r.polyX (ZMod p.toNat)).degree = (r.deg : WithBot ℕ) := by
          rw [degree_eq_natDegree hR.2.2, hR.1]
        refine lt_of_lt_of_eq (degree_sub_lt_left (by rw [hnd, hRd]) hR.2.2 ?_) hRd
        rw [leadingCoeff_mul, leadingCoeff_mul, leadingCoeff_C, leadingCoeff_X_pow, hR.2.1, hO.2.1,
          hinv', mul_one, mul_assoc, inv_mul_cancel₀ hl, mul_one]
      obtain ⟨v, hv1, hv2, hv3, hv4⟩ := ih r' h2 h3 h4 (by omega) (by omega)
      refine ⟨v, ?_, hv2, hv3, ?_⟩
      · intro fuel hf
        obtain ⟨f', rfl⟩ : ∃ f', fuel = f' + 1 := ⟨fuel - 1, by omega⟩
        rw [h1]; exact hv1 f' (by omega)
      · have : r.polyX (ZMod p.toNat) - v.polyX (ZMod p.toNat) =
            C ((r.highestTermX.coef : ZMod p.toNat) * (inv : ZMod p.toNat)) * X ^ (r.deg - other.deg) *
              other.polyX (ZMod p.toNat) + (r'.polyX (ZMod p.toNat) - v.polyX (ZMod p.toNat)) := by
          rw [h6]; ring
        rw [this]
        exact dvd_add (Dvd.intro_left _ rfl) hv4

theorem polynomialModular_spec (hp : 2 ≤ p) {f other : Poly} (hf : f.All Key.IsX)
    (hm : f.deg ≤ 2147483647) (ho : other.All Key.IsX)
    (hl : (other.highestTermX.coef : ZMod p.toNat) ≠ 0) (hd : 0 < other.deg) :
    ∃ v, (∀ fuel, f.deg + 1 < fuel → f.polynomialModular fuel other p = .ok v) ∧
      v.All Key.IsX ∧ v.Canon ∧ v.Reduced p ∧ v.deg < other.deg ∧
      v.polyX (ZMod p.toNat) = f.polyX (ZMod p.toNat) % other.polyX (ZMod p.toNat) := by
  have hp0 : 0 < p := by omega
  have hO := polyX_natDegree ho hl
  -- the loop, first turn apart
  have hloop : ∃ v, (∀ fuel, f.deg + 1 < fuel → polyModLoop other.highestTermX other p fuel f = .ok v) ∧
        v.All Key.IsX ∧ v.deg < other.deg ∧
        other.polyX (ZMod p.toNat) ∣ f.polyX (ZMod p.toNat) - v.polyX (ZMod p.toNat) := by
    by_cases hlt : f.deg < other.deg
    · refine ⟨f, ?_, hf, hlt, by simp⟩
      intro fuel hfu
      obtain ⟨f', rfl⟩ : ∃ f', fuel = f' + 1 := ⟨fuel - 1, by omega⟩
      exact polyModLoop_stop hf ho hlt f'
    · obtain ⟨inv, r', hinv, h1, h2, h3, h4, h5, h6⟩ := polyModLoop_step hp hf ho (by omega) hm
      obtain ⟨v, hv1, hv2, hv3, hv4⟩ := polyModLoop_spec hp ho hl hd f.deg r' h2 h3 h4 (by omega) h5
      refine ⟨v, ?_, hv2, hv3, ?_⟩
      · intro fuel hfu
        obtain ⟨f', rfl⟩ : ∃ f', fuel = f' + 1 := ⟨fuel - 1, by omega⟩
        rw [h1]; exact hv1 f' (by omega)
      · have : f.polyX (ZMod p.toNat) - v.polyX (ZMod p.toNat) =
            C ((f.highestTermX.coef : ZMod p.toNat) * (inv : ZMod p.toNat)) * X ^ (f.deg - other.deg) *
              other.polyX (ZMod p.toNat) + (r'.polyX (ZMod p.toNat) - v.polyX (ZMod p.toNat)) := by
          rw [h6]; ring
        rw [this]
        exact dvd_add (Dvd.intro_left _ rfl) hv4
  obtain ⟨v, hv1, hv2, hv3, hv4⟩ := hloop
  obtain ⟨w, hw, hwm⟩ := modularAssign_ok v hp0
  have hwAll : w.All (fun k => k.IsX ∧ k.x ≤ v.deg) :=
    hwm.all (fun e he => ⟨hv2 e he, xpow_le_deg he⟩)
  refine ⟨w, ?_, hwAll.mono (fun _ h => h.1), hwm.canon, hwm.reduced hp0, ?_, ?_⟩
  · intro fuel hfu
    unfold polynomialModular
    rw [hasY_of_isX ho, hasQ_of_isX ho]
    simp only [Bool.not_false, rassert_true, Res.ok_bind, hv1 fuel hfu, hw]
  · exact lt_of_le_of_lt (deg_le_of_forall (fun e he => (hwAll e he).2)) hv3
  · rw [polyX_modOf hp0.le hwm]
    have h1 : f.polyX (ZMod p.toNat) % other.polyX (ZMod p.toNat) =
        v.polyX (ZMod p.toNat) % other.polyX (ZMod p.toNat) :=
      Polynomial.mod_eq_of_dvd_sub hv4
    rw [h1, eq_comm, Polynomial.mod_eq_self_iff hO.2.2, degree_eq_natDegree hO.2.2, hO.1]
    exact lt_of_le_of_lt Polynomial.degree_le_natDegree (by
      exact_mod_cast lt_of_le_of_lt (polyX_natDegree_le hv2) hv3)

/-- `to_monic`. -/
theorem toMonic_spec (hp : 2 ≤ p) {f : Poly} (hf : f.All Key.IsX) (hm : f.deg ≤ 2147483647)
    (hl : (f.highestTermX.coef : ZMod p.toNat) ≠ 0) :
    ∃ v, f.toMonic p = .ok v ∧ v.All Key.IsX ∧ v.Canon ∧ v.Reduced p ∧ v.deg = f.deg ∧
      v.highestTermX.coef = 1 ∧
      v.polyX (ZMod p.toNat) =
        C ((f.highestTermX.coef : ZMod p.toNat)⁻¹) * f.polyX (ZMod p.toNat) := by
  have hp0 : 0 < p := by omega
  have hF := polyX_natDegree hf hl
  have hf0 : f.entries ≠ [] := fun h0 => hF.2.2 (polyX_eq_zero_of_nil h0)
  obtain ⟨inv, hinv, hi0, hi1, _, hi⟩ := inverse_spec f.highestTermX.coef p Fact.out
  have hi' := hi (Or.inl hl)
  set t : Term := (TermBuilder.new.coef inv).build with ht
  have htk : t.monomial.key = Key.xn 0 := rfl
  have htT : t.toPol.All (fun k => k = Key.xn 0) := all_toPol (fun _ => htk)
  have hfT : f.All (fun k => k.IsX ∧ k.x ≤ f.deg) := fun e he => ⟨hf e he, xpow_le_deg he⟩
  obtain ⟨c, hc⟩ : ∃ c, f.mulTerm t = .ok c := mul_ok (fun ie hi je hj => by
    obtain ⟨⟨h3, h4, h5, h6⟩, h7⟩ := hfT ie hi
    rw [htT je hj]
    refine ⟨Or.inr rfl, ⟨?_, ?_⟩, ⟨?_, ?_⟩, ⟨?_, ?_⟩⟩ <;> simp only [Key.xn] <;> omega)
  have hcAll : c.All (fun k => k.IsX ∧ k.x ≤ f.deg) := all_mul hfT htT (by
    rintro k k' ⟨⟨h3, h4, h5, h6⟩, h7⟩ rfl _
    refine ⟨⟨?_, ?_, ?_, ?_⟩, ?_⟩ <;> simp only [Key.mul, Key.xn]
    · simpa using h3
    · simp [h4]
    · simp [h5]
    · simp [h6]
    · simpa using h7) hc
  obtain ⟨v, hv, hvm⟩ := modularAssign_ok c hp0
  have hvAll := hvm.all hcAll
  have hvX : v.polyX (ZMod p.toNat) =
      C ((f.highestTermX.coef : ZMod p.toNat)⁻¹) * f.polyX (ZMod p.toNat) := by
    rw [polyX_modOf hp0.le hvm]
    have h2 := (MulFn.mul (isX_mulFn (R := ZMod p.toNat)) hf
      (htT.mono (fun k hk => by rw [hk]; exact xn_isX _)) hc).2
    unfold polyX
    rw [evalAt_eq_lin, evalAt_eq_lin, h2, lin_toPol, htk, evalAt_isX (xn_isX _), mul_comm]
    congr 1
    rw [zsmul_eq_mul, ← hi']
    simp [ht, Key.xn, TermBuilder.build, TermBuilder.coef]
  have hvmonic : (v.polyX (ZMod p.toNat)).leadingCoeff = 1 := by
    rw [hvX, leadingCoeff_mul, leadingCoeff_C, hF.2.1, inv_mul_cancel₀ hl]
  have hv0 : v.entries ≠ [] := fun h0 => by
    rw [polyX_eq_zero_of_nil h0] at hvmonic; simp at hvmonic
  have hvIs : v.All Key.IsX := hvAll.mono (fun _ h => h.1)
  have hV := polyX_natDegree hvIs (highest_coef_ne hp0 hvm.canon (hvm.reduced hp0) hv0)
  refine ⟨v, ?_, hvIs, hvm.canon, hvm.reduced hp0, ?_, ?_, hvX⟩
  · unfold toMonic
    rw [if_neg (by rw [isZero_iff]; exact hf0)]
    simp only [hinv, Res.ok_bind]
    rw [← ht, hc]; exact hv
  · rw [← hV.1, hvX, natDegree_C_mul (inv_ne_zero hl), hF.1]
  · rw [hV.2.1] at hvmonic
    obtain ⟨e, he, h1, _⟩ := highestTermX_of_ne hv0
    have hr := hvm.reduced hp0 e he
    rw [h1] at hvmonic ⊢
    simp only [Term.from'] at hvmonic ⊢
    have h3 : ((e.2 : ℤ) : ZMod p.toNat) = ((1 : ℤ) : ZMod p.toNat) := by rw [hvmonic]; simp
    rw [zmod_eq_iff hp0.le] at h3
    have := h3.eq
    rw [Int.emod_eq_of_lt hr.1 hr.2, Int.emod_eq_of_lt (by norm_num) (by omega)] at this
    exact this

/-- What `gcd` may be called on: a polynomial in `x` whose leading coefficient is not divisible by
`p`, with exponents in `i32`. -/
structure UniOK (p : ℤ) (f : Poly) : Prop where
  isX : f.All Key.IsX
  lead : (f.highestTermX.coef : ZMod p.toNat) ≠ 0
  i32 : f.deg ≤ 2147483647

theorem UniOK.ne (h : UniOK p f) : f.polyX (ZMod p.toNat) ≠ 0 := (polyX_natDegree h.isX h.lead).2.2

omit [Fact (Nat.Prime p.toNat)] in
theorem gcd_swap {f g : Poly} (hf : f.All Key.IsX) (hg : g.All Key.IsX) (h : f.deg < g.deg)
    (fuel : ℕ) : gcd (fuel + 1) f g p = gcd fuel g f p := by
  rw [Poly.gcd]
  rw [if_pos (by rw [highest_xpow hf, highest_xpow hg]; omega)]

omit [Fact (Nat.Prime p.toNat)] in
theorem gcd_noswap {f g : Poly} (hf : f.All Key.IsX) (hg : g.All Key.IsX) (h : g.deg ≤ f.deg)
    (fuel : ℕ) : gcd (fuel + 1) f g p = (polynomialModular fuel f g p >>= fun r =>
      if r.isZero then g.toMonic p else gcd fuel g r p) := by
  rw [Poly.gcd]
  rw [if_neg (by rw [highest_xpow hf, highest_xpow hg]; omega)]

omit [Fact (Nat.Prime p.toNat)] in
theorem UniOK.of_mod (hp : 2 ≤ p) {v g : Poly} (hv : v.All Key.IsX) (hc : v.Canon) (hr : v.Reduced p)
    (hd : v.deg < g.deg) (hg : g.deg ≤ 2147483647) (h0 : v.entries ≠ []) : UniOK p v :=
  ⟨hv, highest_coef_ne (by omega) hc hr h0, by omega⟩

/-- The gcd has positive degree: `gcd` returns the monic gcd. -/
theorem gcd_spec (hp : 2 ≤ p) : ∀ (n : ℕ) (f g : Poly), UniOK p f → UniOK p g →
    f.deg + 2 * g.deg ≤ n → ¬ IsCoprime (f.polyX (ZMod p.toNat)) (g.polyX (ZMod p.toNat)) →
    ∃ v, (∀ fuel, n + 2 ≤ fuel → gcd fuel f g p = .ok v) ∧ v.All Key.IsX ∧ v.Canon ∧ v.Reduced p ∧
      (v.polyX (ZMod p.toNat)).Monic ∧ v.deg ≤ 2147483647 ∧
      Associated (v.polyX (ZMod p.toNat))
        (EuclideanDomain.gcd (f.polyX (ZMod p.toNat)) (g.polyX (ZMod p.toNat))) := by
  intro n
  induction n using Nat.strong_induction_on with
  | _ n ih =>
    intro f g hf hg hn hco
    have hF := polyX_natDegree hf.isX hf.lead
    have hG := polyX_natDegree hg.isX hg.lead
    by_cases hlt : f.deg < g.deg
    · obtain ⟨v, hv1, hv2, hv3, hv4, hv5, hv6, hv7⟩ := ih (g.deg + 2 * f.deg) (by omega) g f hg hf le_rfl
        (fun h => hco h.symm)
      refine ⟨v, ?_, hv2, hv3, hv4, hv5, hv6, ?_⟩
      · intro fuel hfu
        obtain ⟨f', rfl⟩ : ∃ f', fuel = f' + 1 := ⟨fuel - 1, by omega⟩
        rw [gcd_swap hf.isX hg.isX hlt]
        exact hv1 f' (by omega)
      · refine hv7.trans ?_
        exact associated_of_dvd_dvd
          (EuclideanDomain.dvd_gcd (EuclideanDomain.gcd_dvd_right _ _) (EuclideanDomain.gcd_dvd_left _ _))
          (EuclideanDomain.dvd_gcd (EuclideanDomain.gcd_dvd_right _ _) (EuclideanDomain.gcd_dvd_left _ _))
    · have hgd : 0 < g.deg := by
        rcases Nat.eq_zero_or_pos g.deg with h0 | h0
        · exfalso; apply hco
          have h1 : IsUnit (g.polyX (ZMod p.toNat)) := by
            rw [Polynomial.isUnit_iff_degree_eq_zero, degree_eq_natDegree hG.2.2, hG.1, h0]; rfl
          obtain ⟨u, hu⟩ := h1.exists_left_inv
          exact ⟨0, u, by rw [hu]; simp⟩
        · exact h0
      obtain ⟨r, hr1, hr2, hr3, hr4, hr5, hr6⟩ :=
        polynomialModular_spec hp hf.isX hf.i32 hg.isX hg.lead hgd
      have hgcd : Associated (EuclideanDomain.gcd (g.polyX (ZMod p.toNat)) (r.polyX (ZMod p.toNat)))
          (EuclideanDomain.gcd (f.polyX (ZMod p.toNat)) (g.polyX (ZMod p.toNat))) := by
        rw [hr6]
        have hmod := EuclideanDomain.mod_add_div (f.polyX (ZMod p.toNat)) (g.polyX (ZMod p.toNat))
        refine associated_of_dvd_dvd (EuclideanDomain.dvd_gcd ?_ (EuclideanDomain.gcd_dvd_left _ _))
          (EuclideanDomain.dvd_gcd (EuclideanDomain.gcd_dvd_right _ _) ?_)
        · conv_rhs => rw [← hmod]
          exact dvd_add (EuclideanDomain.gcd_dvd_right _ _)
            (dvd_mul_of_dvd_left (EuclideanDomain.gcd_dvd_left _ _) _)
        · rw [EuclideanDomain.dvd_mod_iff (EuclideanDomain.gcd_dvd_right _ _)]
          exact EuclideanDomain.gcd_dvd_left _ _
      by_cases hz : r.entries = []
      · obtain ⟨v, hv1, hv2, hv3, hv4, hv5, hv6, hv7⟩ := toMonic_spec hp hg.isX hg.i32 hg.lead
        refine ⟨v, ?_, hv2, hv3, hv4, ?_, by rw [hv5]; exact hg.i32, ?_⟩
        · intro fuel hfu
          obtain ⟨f', rfl⟩ : ∃ f', fuel = f' + 1 := ⟨fuel - 1, by omega⟩
          rw [gcd_noswap hf.isX hg.isX (by omega), hr1 f' (by omega), Res.ok_bind,
            if_pos (isZero_iff.2 hz), hv1]
        · rw [Polynomial.Monic, hv7, leadingCoeff_mul, leadingCoeff_C, hG.2.1, inv_mul_cancel₀ hg.lead]
        · refine Associated.trans ?_ hgcd
          rw [polyX_eq_zero_of_nil hz, EuclideanDomain.gcd_zero_right, hv7]
          exact associated_unit_mul_left _ _ (Polynomial.isUnit_C.2 (isUnit_iff_ne_zero.2
            (inv_ne_zero hg.lead)))
      · have hr : UniOK p r := UniOK.of_mod hp hr2 hr3 hr4 hr5 hg.i32 hz
        obtain ⟨v, hv1, hv2, hv3, hv4, hv5, hv6, hv7⟩ := ih (g.deg + 2 * r.deg) (by omega) g r hg hr le_rfl
          (fun h => hco (by
            rw [← EuclideanDomain.gcd_isUnit_iff] at h ⊢
            exact (hgcd.isUnit_iff).1 h))
        refine ⟨v, ?_, hv2, hv3, hv4, hv5, hv6, hv7.trans hgcd⟩
        intro fuel hfu
        obtain ⟨f', rfl⟩ : ∃ f', fuel = f' + 1 := ⟨fuel - 1, by omega⟩
        rw [gcd_noswap hf.isX hg.isX (by omega), hr1 f' (by omega), Res.ok_bind,
          if_neg (by rw [isZero_iff]; exact hz)]
        exact hv1 f' (by omega)

omit [Fact (Nat.Prime p.toNat)] in
/-- Fuel only matters for running out. -/
theorem polyModLoop_mono (oh : Term) (other : Poly) : ∀ (fuel : ℕ) (r : Poly),
    polyModLoop oh other p fuel r = .timeout ∨
      ∀ m, polyModLoop oh other p (fuel + m) r = polyModLoop oh other p fuel r := by
  intro fuel
  induction fuel with
  | zero => intro r; left; rfl
  | succ n ih =>
    intro r
    by_cases h : polyModLoop oh other p (n + 1) r = .timeout
    · left; exact h
    · right
      intro m
      rw [show n + 1 + m = (n + m) + 1 by omega, polyModLoop, polyModLoop]
      rw [polyModLoop] at h
      simp only at h ⊢
      split
      · rfl
      · rename_i h1
        rw [if_neg h1] at h
        cases h2 : inverse oh.coef p with
        | panic w => rfl
        | timeout => rfl
        | ok inv =>
          rw [h2] at h; simp only [Res.ok_bind] at h ⊢
          cases h3 : chk (r.highestTermX.xpow - oh.xpow) with
          | panic w => rfl
          | timeout => rfl
          | ok x =>
            rw [h3] at h; simp only [Res.ok_bind] at h ⊢
            generalize ((((TermBuilder.new.coef (r.highestTermX.coef * inv)).xpow x).ypow
              r.highestTermX.ypow).qpow r.highestTermX.qpow).build.modularAssign p = q0 at h ⊢
            cases q0 with
            | panic w => rfl
            | timeout => rfl
            | ok q =>
              simp only [Res.ok_bind] at h ⊢
              cases h4 : termMul q other with
              | panic w => rfl
              | timeout => rfl
              | ok d =>
                rw [h4] at h; simp only [Res.ok_bind] at h ⊢
                cases h5 : d.modularAssign p with
                | panic w => rfl
                | timeout => rfl
                | ok d' =>
                  rw [h5] at h; simp only [Res.ok_bind] at h ⊢
                  cases h6 : (r.subAssign d').modularAssign p with
                  | panic w => rfl
                  | timeout => rfl
                  | ok r' =>
                    rw [h6] at h; simp only [Res.ok_bind] at h ⊢
                    rcases ih r' with h7 | h7
                    · exact absurd h7 h
                    · exact h7 m

omit [Fact (Nat.Prime p.toNat)] in
theorem polynomialModular_mono {f g : Poly} {fuel : ℕ} (h : f.polynomialModular fuel g p ≠ .timeout)
    (m : ℕ) : f.polynomialModular (fuel + m) g p = f.polynomialModular fuel g p := by
  unfold polynomialModular at h ⊢
  cases h1 : rassert !g.hasY with
  | panic w => rfl
  | timeout => rfl
  | ok _ =>
    rw [h1] at h; simp only [Res.ok_bind] at h ⊢
    cases h2 : rassert !g.hasQ with
    | panic w => rfl
    | timeout => rfl
    | ok _ =>
      rw [h2] at h; simp only [Res.ok_bind] at h ⊢
      rcases polyModLoop_mono (p := p) g.highestTermX g fuel f with h3 | h3
      · rw [h3] at h; exact absurd rfl h
      · rw [h3 m]

/-- Coprime inputs: `gcd` never returns. -/
theorem gcd_diverges (hp : 2 ≤ p) : ∀ (fuel : ℕ) (f g : Poly), UniOK p f → UniOK p g →
    IsCoprime (f.polyX (ZMod p.toNat)) (g.polyX (ZMod p.toNat)) → gcd fuel f g p = .timeout := by
  intro fuel
  induction fuel with
  | zero => intros; rfl
  | succ n ih =>
    intro f g hf hg hco
    by_cases hlt : f.deg < g.deg
    · rw [gcd_swap hf.isX hg.isX hlt]
      exact ih g f hg hf hco.symm
    · rw [gcd_noswap hf.isX hg.isX (by omega)]
      rcases Nat.eq_zero_or_pos g.deg with h0 | h0
      · rw [polynomialModular_const hp hf.isX hg.isX h0 hf.i32]; rfl
      · obtain ⟨r, hr1, hr2, hr3, hr4, hr5, hr6⟩ :=
          polynomialModular_spec hp hf.isX hf.i32 hg.isX hg.lead h0
        by_cases ht : f.polynomialModular n g p = .timeout
        · rw [ht]; rfl
        · have := polynomialModular_mono ht (f.deg + 2)
          rw [hr1 _ (by omega)] at this
          rw [← this, Res.ok_bind]
          have hG := polyX_natDegree hg.isX hg.lead
          have hz : r.entries ≠ [] := by
            intro hz
            have h1 := polyX_eq_zero_of_nil (R := ZMod p.toNat) hz
            rw [hr6, EuclideanDomain.mod_eq_zero] at h1
            have h2 := hco.isUnit_of_dvd' h1 dvd_rfl
            rw [Polynomial.isUnit_iff_degree_eq_zero, degree_eq_natDegree hG.2.2, hG.1] at h2
            have : g.deg = 0 := by exact_mod_cast h2
            omega
          rw [if_neg (by rw [isZero_iff]; exact hz)]
          refine ih g r hg (UniOK.of_mod hp hr2 hr3 hr4 hr5 hg.i32 hz) ?_
          rw [hr6]
          have hmod := EuclideanDomain.mod_add_div (f.polyX (ZMod p.toNat)) (g.polyX (ZMod p.toNat))
          rw [← hmod] at hco
          exact (hco.of_add_mul_left_left).symm

end Field

end Poly
end EC
