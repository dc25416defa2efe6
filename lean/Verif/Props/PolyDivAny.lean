import Verif.Props.PolyDivAll
import Mathlib.Data.Nat.Factorization.Basic

/-! C15 for every modulus: `polynomial_modular` with `p` not necessarily prime. -/

namespace EC
open Poly Polynomial

variable {p : ℤ}

/-- One turn of the loop, its effect on the coefficient at the degree of the dividend. -/
theorem polyModLoop_step_any (hp : 2 ≤ p) {r g : Poly} (hr : r.All Key.IsX) (ho : g.All Key.IsX)
    (hdeg : g.deg ≤ r.deg) (hmax : r.deg ≤ 2147483647) :
    ∃ r' : Poly, (∀ fuel, polyModLoop g.highestTermX g p (fuel + 1) r = polyModLoop g.highestTermX g p fuel r') ∧
      r'.All Key.IsX ∧ r'.Canon ∧ r'.Reduced p ∧ r'.deg ≤ r.deg ∧
      g.polyX (ZMod p.toNat) ∣ r.polyX (ZMod p.toNat) - r'.polyX (ZMod p.toNat) ∧
      (r'.coef (Key.xn r.deg) : ZMod p.toNat) =
        r.highestTermX.coef * (1 - (g.highestTermX.coef : ZMod p.toNat) ^ (p.toNat - 1)) := by
  obtain ⟨inv, r', hinv, h1, h2, h3, h4, h5, h6⟩ := polyModLoop_step hp hr ho hdeg hmax
  refine ⟨r', h1, h2, h3, h4, h5, ?_, ?_⟩
  · rw [h6, sub_sub_cancel]
    exact Dvd.intro_left _ rfl
  · rw [← polyX_coeff h2, h6, coeff_sub, mul_assoc, coeff_C_mul, coeff_X_pow_mul', if_pos (by omega),
      show r.deg - (r.deg - g.deg) = g.deg by omega, polyX_coeff hr, polyX_coeff ho, ← highest_coef hr, ← highest_coef ho]
    rw [inverse_eq _ _ hp, Res.ok.injEq] at hinv
    rw [← hinv, zmod_emod (by omega)]
    rw [show p.toNat - 1 = (p - 2).toNat + 1 by omega, pow_succ]
    push_cast
    ring

/-- Whatever the loop returns is congruent to the dividend. -/
theorem polyModLoop_sound (hp : 2 ≤ p) {g : Poly} (ho : g.All Key.IsX) : ∀ (fuel : ℕ) (r v : Poly), r.All Key.IsX →
    r.deg ≤ 2147483647 → polyModLoop g.highestTermX g p fuel r = .ok v →
    v.All Key.IsX ∧ v.deg < g.deg ∧ g.polyX (ZMod p.toNat) ∣ r.polyX (ZMod p.toNat) - v.polyX (ZMod p.toNat) := by
  intro fuel
  induction fuel with
  | zero => intro r v _ _ h; simp [polyModLoop] at h
  | succ n ih =>
    intro r v hr hm h
    by_cases hlt : r.deg < g.deg
    · rw [polyModLoop_stop hr ho hlt] at h
      cases h
      exact ⟨hr, hlt, by simp⟩
    · obtain ⟨r', h1, h2, -, -, h5, h6, -⟩ := polyModLoop_step_any hp hr ho (by omega) hm
      rw [h1] at h
      obtain ⟨k1, k2, k3⟩ := ih r' v h2 (by omega) h
      refine ⟨k1, k2, ?_⟩
      have := dvd_add h6 k3
      rwa [sub_add_sub_cancel] at this

theorem polyModLoop_total (hp : 2 ≤ p) {g : Poly} (ho : g.All Key.IsX) (hd : 0 < g.deg) {K : ℕ}
    (hK : (1 - (g.highestTermX.coef : ZMod p.toNat) ^ (p.toNat - 1)) ^ K = 0) :
    ∀ (n k : ℕ) (r : Poly), r.All Key.IsX → r.Canon → r.Reduced p → r.deg ≤ 2147483647 → r.deg ≤ n →
      (r.highestTermX.coef : ZMod p.toNat) * (1 - (g.highestTermX.coef : ZMod p.toNat) ^ (p.toNat - 1)) ^ k = 0 →
      ∃ v N, ∀ fuel, N ≤ fuel → polyModLoop g.highestTermX g p fuel r = .ok v := by
  have stop : ∀ r : Poly, r.All Key.IsX → r.deg < g.deg →
      ∃ v N, ∀ fuel, N ≤ fuel → polyModLoop g.highestTermX g p fuel r = .ok v := by
    intro r hr hlt
    refine ⟨r, 1, fun fuel hf => ?_⟩
    obtain ⟨f', rfl⟩ : ∃ f', fuel = f' + 1 := ⟨fuel - 1, by omega⟩
    exact polyModLoop_stop hr ho hlt f'
  intro n
  induction n with
  | zero => intro k r hr _ _ _ hn _; exact stop r hr (by omega)
  | succ n ihn =>
    intro k
    induction k with
    | zero =>
      intro r hr hc hred _ _ h
      rw [pow_zero, mul_one] at h
      by_cases h0 : r.entries = []
      · exact stop r hr (by
          have : r.deg = 0 := by unfold deg; rw [highestTermX_of_nil h0]; rfl
          omega)
      · exact absurd h (highest_coef_ne (by omega) hc hred h0)
    | succ k ihk =>
      intro r hr hc hred hm hn h
      by_cases hlt : r.deg < g.deg
      · exact stop r hr hlt
      · obtain ⟨r', h1, h2, h3, h4, h5, -, h7⟩ := polyModLoop_step_any hp hr ho (by omega) hm
        have : ∃ v N, ∀ fuel, N ≤ fuel → polyModLoop g.highestTermX g p fuel r' = .ok v := by
          by_cases he : r'.deg = r.deg
          · refine ihk r' h2 h3 h4 (by omega) (by omega) ?_
            rw [highest_coef h2, he, h7, mul_assoc, ← pow_succ']
            exact h
          · exact ihn K r' h2 h3 h4 (by omega) (by omega) (by rw [hK, mul_zero])
        obtain ⟨v, N, hN⟩ := this
        refine ⟨v, N + 1, fun fuel hf => ?_⟩
        obtain ⟨f', rfl⟩ : ∃ f', fuel = f' + 1 := ⟨fuel - 1, by omega⟩
        rw [h1]
        exact hN f' (by omega)

theorem polyModLoop_lead (hp : 2 ≤ p) {g : Poly} (ho : g.All Key.IsX) {l : ℕ} (hl : l.Prime) (hlp : (l : ℤ) ∣ p)
    (hc : ¬ (l : ℤ) ∣ g.highestTermX.coef ^ (p.toNat - 1) - 1) : ∀ (fuel : ℕ) (r : Poly), r.All Key.IsX →
    r.deg ≤ 2147483647 → g.deg ≤ r.deg → ¬ (l : ℤ) ∣ r.highestTermX.coef →
    polyModLoop g.highestTermX g p fuel r = .timeout := by
  intro fuel
  induction fuel with
  | zero => intros; rfl
  | succ n ih =>
    intro r hr hm hd hlr
    obtain ⟨r', h1, h2, -, -, h5, -, h7⟩ := polyModLoop_step_any hp hr ho hd hm
    have hmod : r'.coef (Key.xn r.deg) ≡ r.highestTermX.coef * (1 - g.highestTermX.coef ^ (p.toNat - 1)) [ZMOD l] := by
      refine Int.ModEq.of_dvd hlp ((zmod_eq_iff (by omega) _ _).1 ?_)
      push_cast
      exact h7
    have hne : ¬ (l : ℤ) ∣ r'.coef (Key.xn r.deg) := by
      intro hdv
      have h8 := (Int.modEq_zero_iff_dvd.1 (hmod.symm.trans (Int.modEq_zero_iff_dvd.2 hdv)))
      rcases (Nat.prime_iff_prime_int.1 hl).dvd_or_dvd h8 with h9 | h9
      · exact hlr h9
      · exact hc (by rw [← dvd_neg, neg_sub]; exact h9)
    have hdeg : r'.deg = r.deg := by
      by_contra hcon
      exact hne (by rw [coef_eq_zero_of_deg_lt (by omega)]; exact dvd_zero _)
    rw [h1]
    exact ih r' h2 (by omega) (by omega) (by rw [highest_coef h2, hdeg]; exact hne)

theorem nilpotent_of_primes (hp : 2 ≤ p) {u : ℤ} (h : ∀ l : ℕ, l.Prime → (l : ℤ) ∣ p → (l : ℤ) ∣ u) :
    ∃ K, (u : ZMod p.toNat) ^ K = 0 := by
  by_cases hu : u = 0
  · exact ⟨1, by simp [hu]⟩
  obtain ⟨K, hK⟩ := (Nat.exists_dvd_pow_iff (n := p.toNat) (k := u.natAbs) (by omega) (by omega)).2 (by
    intro l hl
    have hl' := Nat.prime_of_mem_primeFactors hl
    have := h l hl' (by have := Int.natCast_dvd_natCast.2 (Nat.dvd_of_mem_primeFactors hl); rwa [Int.toNat_of_nonneg (by omega)] at this)
    exact Nat.mem_primeFactors.2 ⟨hl', Int.natCast_dvd.1 this, by omega⟩)
  refine ⟨K, ?_⟩
  have : ((u ^ K : ℤ) : ZMod p.toNat) = 0 := by
    rw [ZMod.intCast_zmod_eq_zero_iff_dvd]
    rw [← Int.natAbs_pow] at hK
    exact Int.natCast_dvd.2 hK
  push_cast at this
  exact this

/-- **C15.**  Soundness for every modulus `p ≥ 2`, prime or not, every dividend and every divisor in `x`: whatever
`polynomial_modular` returns is reduced, of lower stored degree than the divisor, and congruent to the dividend modulo the divisor
and `p`. -/
theorem C15_any_modulus_sound (hp : 2 ≤ p) (f g r : Poly) (hf : f.All Key.IsX)
    (hfi : ∀ e ∈ f.entries, e.1.xpow ≤ 2147483647) (hg : g.All Key.IsX)
    (h : Returns (fun fuel => f.polynomialModular fuel g p) r) :
    r.Reduced p ∧ r.Canon ∧ r.All Key.IsX ∧ r.highestTermX.xpow < g.highestTermX.xpow ∧
    ∃ q : (ZMod p.toNat)[X], f.polyX (ZMod p.toNat) = q * g.polyX (ZMod p.toNat) + r.polyX (ZMod p.toNat) := by
  have hp0 : 0 < p := by omega
  obtain ⟨N, hN⟩ := h
  have h1 := hN N le_rfl
  simp only [polynomialModular, hasY_of_isX hg, hasQ_of_isX hg, Bool.not_false, rassert_true, Res.ok_bind] at h1
  obtain ⟨v, hv, h2⟩ := Res.bind_eq_ok.1 h1
  obtain ⟨k1, k2, k3⟩ := polyModLoop_sound hp hg N f v hf (deg_le_i32 hfi) hv
  obtain ⟨w, hw, hwm⟩ := modularAssign_ok v hp0
  rw [hw] at h2
  cases h2
  have hwAll : r.All (fun k => k.IsX ∧ k.x ≤ v.deg) := hwm.all (fun e he => ⟨k1 e he, xpow_le_deg he⟩)
  refine ⟨hwm.reduced hp0, hwm.canon, hwAll.mono (fun _ h => h.1), ?_, ?_⟩
  · rw [highest_xpow (hwAll.mono (fun _ h => h.1)), highest_xpow hg]
    have := lt_of_le_of_lt (deg_le_of_forall (fun e he => (hwAll e he).2)) k2
    exact_mod_cast this
  · obtain ⟨q, hq⟩ := k3
    refine ⟨q, ?_⟩
    rw [polyX_modOf hp0.le hwm, mul_comm q, ← hq]
    ring

/-- **C15.**  For which divisors division works with an arbitrary modulus: let `p ≥ 2` and let `c` be the stored leading
coefficient of `g`, of positive degree.  `polynomial_modular(g, p)` returns for every dividend exactly if `c^(p-1) = 1` modulo
every prime factor of `p`. -/
theorem C15_any_modulus (hp : 2 ≤ p) (g : Poly) (hg : g.All Key.IsX) (hgd : 0 < g.highestTermX.xpow)
    (hgi : g.highestTermX.xpow ≤ 2147483647) :
    (∀ f : Poly, f.All Key.IsX → (∀ e ∈ f.entries, e.1.xpow ≤ 2147483647) →
      ∃ r, Returns (fun fuel => f.polynomialModular fuel g p) r) ↔
    ∀ l : ℕ, l.Prime → (l : ℤ) ∣ p → (l : ℤ) ∣ g.highestTermX.coef ^ (p.toNat - 1) - 1 := by
  have hp0 : 0 < p := by omega
  have hgd' : 0 < g.deg := by rw [highest_xpow hg] at hgd; exact_mod_cast hgd
  constructor
  · intro h l hl hlp
    by_contra hc
    set f : Poly := ((TermBuilder.new).xpow g.highestTermX.xpow).build.toPol with hfdef
    have hfe : f.entries = [(⟨g.highestTermX.xpow, 0, 0, SubVar.new⟩, 1)] := rfl
    have hfX : f.All Key.IsX := by
      intro e he
      rw [hfe, List.mem_singleton] at he
      subst he
      exact ⟨hgd.le, rfl, rfl, rfl⟩
    have hfi : ∀ e ∈ f.entries, e.1.xpow ≤ 2147483647 := by
      intro e he
      rw [hfe, List.mem_singleton] at he
      subst he
      exact hgi
    obtain ⟨e, he, h1, -⟩ := highestTermX_of_ne (P := f) (by rw [hfe]; simp)
    rw [hfe, List.mem_singleton] at he
    subst he
    obtain ⟨r, N, hN⟩ := h f hfX hfi
    have h2 := hN N le_rfl
    have h3 := polyModLoop_lead hp hg hl hlp hc N f hfX (deg_le_i32 hfi) (by
        have e1 := highest_xpow hfX
        have e2 := highest_xpow hg
        rw [h1] at e1
        simp only [Term.from', Term.xpow] at e1
        have e3 : g.highestTermX.xpow = (f.deg : ℤ) := e1
        omega) (by
        rw [h1]
        intro hd
        exact hl.one_lt.ne' (by exact_mod_cast Int.eq_one_of_dvd_one (by omega) hd))
    simp only [polynomialModular, hasY_of_isX hg, hasQ_of_isX hg, Bool.not_false, rassert_true, Res.ok_bind, h3] at h2
    cases h2
  · intro h f hf hfi
    obtain ⟨K, hK⟩ := nilpotent_of_primes (u := 1 - g.highestTermX.coef ^ (p.toNat - 1)) hp (fun l hl hlp => by
      rw [← dvd_neg, neg_sub]; exact h l hl hlp)
    push_cast at hK
    have hloop : ∃ v N, ∀ fuel, N ≤ fuel → polyModLoop g.highestTermX g p fuel f = .ok v := by
      by_cases hlt : f.deg < g.deg
      · refine ⟨f, 1, fun fuel hfu => ?_⟩
        obtain ⟨f', rfl⟩ : ∃ f', fuel = f' + 1 := ⟨fuel - 1, by omega⟩
        exact polyModLoop_stop hf hg hlt f'
      · have hm := deg_le_i32 hfi
        obtain ⟨r', h1, h2, h3, h4, h5, -, -⟩ := polyModLoop_step_any hp hf hg (by omega) hm
        obtain ⟨v, N, hN⟩ := polyModLoop_total hp hg hgd' hK r'.deg K r' h2 h3 h4 (by omega) le_rfl (by rw [hK, mul_zero])
        refine ⟨v, N + 1, fun fuel hf => ?_⟩
        obtain ⟨f', rfl⟩ : ∃ f', fuel = f' + 1 := ⟨fuel - 1, by omega⟩
        rw [h1]
        exact hN f' (by omega)
    obtain ⟨v, N, hN⟩ := hloop
    obtain ⟨w, hw, -⟩ := modularAssign_ok v hp0
    refine ⟨w, N, fun fuel hfu => ?_⟩
    simp only [polynomialModular, hasY_of_isX hg, hasQ_of_isX hg, Bool.not_false, rassert_true, Res.ok_bind, hN fuel hfu, hw]

/-- **C15.**  A dividend whose stored leading coefficient is prime to a prime factor `l` of `p` with `c^(p-1) ≠ 1` modulo `l` is
never divided: the call runs for ever. -/
theorem C15_any_modulus_diverges (hp : 2 ≤ p) (f g : Poly) (hf : f.All Key.IsX)
    (hfi : ∀ e ∈ f.entries, e.1.xpow ≤ 2147483647) (hg : g.All Key.IsX) (hd : g.highestTermX.xpow ≤ f.highestTermX.xpow)
    (l : ℕ) (hl : l.Prime) (hlp : (l : ℤ) ∣ p) (hc : ¬ (l : ℤ) ∣ g.highestTermX.coef ^ (p.toNat - 1) - 1)
    (hlf : ¬ (l : ℤ) ∣ f.highestTermX.coef) : Diverges (fun fuel => f.polynomialModular fuel g p) := by
  intro fuel
  have h3 := polyModLoop_lead hp hg hl hlp hc fuel f hf (deg_le_i32 hfi) (by
    rw [highest_xpow hf, highest_xpow hg] at hd; exact_mod_cast hd) hlf
  simp only [polynomialModular, hasY_of_isX hg, hasQ_of_isX hg, Bool.not_false, rassert_true, Res.ok_bind, h3]
  rfl

/-- **C15.**  For `p < 2` an assertion of the division fails unless the dividend has lower stored degree. -/
theorem C15_small_modulus (hp : p < 2) (f g : Poly) (hd : g.highestTermX.xpow ≤ f.highestTermX.xpow) (fuel : ℕ) :
    f.polynomialModular (fuel + 1) g p = .panic .assertion := by
  unfold polynomialModular
  cases hy : g.hasY
  · cases hq : g.hasQ
    · simp only [Bool.not_false, rassert_true, Res.ok_bind, polyModLoop]
      rw [if_neg (by omega), inverse_lt_two _ _ hp]
      rfl
    · rfl
  · rfl

/-! Concrete cases: modulo 9 the leading coefficient 2 has `2^8 = 1` modulo 3 (not modulo 9), and `x² + 1` divided by `2x + 1`
leaves 8: `x² + 1 = (5x + 2)(2x + 1) + 8` modulo 9.  Modulo 15, `2^14 = 4` is 1 modulo 3 and not modulo 5, and `x` divided by
`2x` runs for ever although 2 is invertible modulo 15. -/

def any2x1 : Poly := (((TermBuilder.new.coef 2).xpow 1).build).add (TermBuilder.new.coef 1).build
def anyx21 : Poly := (((TermBuilder.new.coef 1).xpow 2).build).add (TermBuilder.new.coef 1).build

example : (anyx21.polynomialModular 9 any2x1 9 >>= fun r => .ok (r.entries.map (·.2))) = .ok [8] := by decide +kernel
example : any2x1.highestTermX.coef = 2 ∧ any2x1.highestTermX.xpow = 1 := by decide +kernel
example : ∀ l : ℕ, l.Prime → (l : ℤ) ∣ 9 → (l : ℤ) ∣ 2 ^ 8 - 1 := by
  intro l hl h
  have h1 : l ∣ 3 ^ 2 := by exact_mod_cast h
  rw [(Nat.prime_dvd_prime_iff_eq hl (by norm_num)).1 (hl.dvd_of_dvd_pow h1)]
  norm_num
example : ¬ ((5 : ℕ) : ℤ) ∣ 2 ^ 14 - 1 := by norm_num

/-- **C15.**  Division by a polynomial with invertible leading coefficient can fail for a composite modulus: `x` divided by `2x`
modulo 15 never returns. -/
theorem C15_composite_modulus_refuted : ∃ f g : Poly, f.highestTermX.coef = 1 ∧ g.highestTermX.coef = 2 ∧
    IsCoprime (2 : ℤ) 15 ∧ Diverges (fun fuel => f.polynomialModular fuel g 15) := by
  refine ⟨((TermBuilder.new.coef 1).xpow 1).build.toPol, ((TermBuilder.new.coef 2).xpow 1).build.toPol, by decide +kernel,
    by decide +kernel, ⟨-7, 1, by norm_num⟩, ?_⟩
  have h1 : ((TermBuilder.new.coef 2).xpow 1).build.toPol.highestTermX.coef = 2 := by decide +kernel
  refine C15_any_modulus_diverges (by norm_num) _ _ ?_ ?_ ?_ (by decide +kernel) 5 (by norm_num) (by norm_num) ?_ (by decide +kernel)
  · have : ∀ e ∈ ((TermBuilder.new.coef 1).xpow 1).build.toPol.entries,
        0 ≤ e.1.key.x ∧ e.1.key.y = 0 ∧ e.1.key.q = 0 ∧ e.1.key.v = none := by decide +kernel
    exact this
  · decide +kernel
  · have : ∀ e ∈ ((TermBuilder.new.coef 2).xpow 1).build.toPol.entries,
        0 ≤ e.1.key.x ∧ e.1.key.y = 0 ∧ e.1.key.q = 0 ∧ e.1.key.v = none := by decide +kernel
    exact this
  · rw [h1]
    show ¬ ((5 : ℕ) : ℤ) ∣ 2 ^ 14 - 1
    norm_num

/-- **C18.**  `to_monic` for every modulus: with `p ≥ 2` it returns for every non-zero polynomial `f` in `x` and multiplies it by
`c^(p-2)`, `c` the stored leading coefficient, so its coefficient at the stored degree of `f` is `c^(p-1)` modulo `p`: it is
monic of that degree exactly if `p` divides `c^(p-1) - 1`.  For `p < 2` it panics. -/
theorem C18_any_modulus (f : Poly) (hf : f.All Key.IsX) (hfi : ∀ e ∈ f.entries, e.1.xpow ≤ 2147483647)
    (h0 : f.isZero = false) (p : ℤ) :
    (p < 2 → ∃ w, f.toMonic p = .panic w) ∧
    (2 ≤ p → ∃ v, f.toMonic p = .ok v ∧ v.Reduced p ∧ v.Canon ∧ v.All Key.IsX ∧
      v.polyX (ZMod p.toNat) = C ((f.highestTermX.coef : ZMod p.toNat) ^ (p.toNat - 2)) * f.polyX (ZMod p.toNat) ∧
      ((v.polyX (ZMod p.toNat)).coeff f.highestTermX.xpow.toNat = 1 ↔ p ∣ f.highestTermX.coef ^ (p.toNat - 1) - 1)) := by
  have hf0 : f.entries ≠ [] := fun h => by rw [isZero_iff.2 h] at h0; cases h0
  constructor
  · intro hp
    unfold toMonic
    rw [h0]
    simp only [Bool.false_eq_true, if_false, inverse_lt_two _ _ hp]
    exact ⟨_, rfl⟩
  · intro hp
    have hp0 : 0 < p := by omega
    have hinv := inverse_eq f.highestTermX.coef p hp
    have hm := deg_le_i32 hfi
    set inv : ℤ := f.highestTermX.coef ^ (p - 2).toNat % p with hinvdef
    set t : Term := (TermBuilder.new.coef inv).build with ht
    have htk : t.monomial.key = Key.xn 0 := rfl
    have htT : t.toPol.All (fun k => k = Key.xn 0) := all_toPol (fun _ => htk)
    have hfT : f.All (fun k => k.IsX ∧ k.x ≤ f.deg) := fun e he => ⟨hf e he, xpow_le_deg he⟩
    obtain ⟨c, hc⟩ : ∃ c, f.mulTerm t = .ok c := mul_ok (fun ie hi je hj => by
      obtain ⟨⟨h3, h4, h5, h6⟩, h7⟩ := hfT ie hi
      rw [htT je hj]
      refine ⟨Or.inr rfl, ⟨?_, ?_⟩, ⟨?_, ?_⟩, ⟨?_, ?_⟩⟩ <;> simp only [Key.xn] <;> omega)
    have hcAll : c.All Key.IsX := all_mul hf htT (by
      rintro k k' ⟨h3, h4, h5, h6⟩ rfl _
      refine ⟨?_, ?_, ?_, ?_⟩ <;> simp only [Key.mul, Key.xn]
      · simpa using h3
      · simp [h4]
      · simp [h5]
      · simp [h6]) hc
    obtain ⟨v, hv, hvm⟩ := modularAssign_ok c hp0
    have hvX : v.polyX (ZMod p.toNat) = C ((f.highestTermX.coef : ZMod p.toNat) ^ (p.toNat - 2)) * f.polyX (ZMod p.toNat) := by
      rw [polyX_modOf hp0.le hvm]
      have h2 := (MulFn.mul (isX_mulFn (R := ZMod p.toNat)) hf
        (htT.mono (fun k hk => by rw [hk]; exact xn_isX _)) hc).2
      unfold polyX
      rw [evalAt_eq_lin, evalAt_eq_lin, h2, lin_toPol, htk, evalAt_isX (xn_isX _), mul_comm]
      congr 1
      rw [zsmul_eq_mul]
      have e1 : t.coef = inv := rfl
      rw [e1, ← map_intCast (C : ZMod p.toNat →+* _), hinvdef, zmod_emod hp0.le, show (p - 2).toNat = p.toNat - 2 by omega]
      simp [Key.xn]
    refine ⟨v, ?_, hvm.reduced hp0, hvm.canon, hvm.all hcAll, hvX, ?_⟩
    · unfold toMonic
      rw [if_neg (by rw [isZero_iff]; exact hf0)]
      simp only [hinv, Res.ok_bind]
      rw [← ht, hc]; exact hv
    · rw [hvX, coeff_C_mul, show f.highestTermX.xpow.toNat = f.deg by rw [highest_xpow hf]; simp, polyX_coeff hf,
        ← highest_coef hf, ← pow_succ, show p.toNat - 2 + 1 = p.toNat - 1 by omega, ← zmod_eq_zero_iff hp0.le, Int.cast_sub,
        sub_eq_zero]
      push_cast
      rfl

example : any2x1.toMonic 15 >>= (fun c => .ok (c.entries.map (·.2))) = .ok [2, 4] := by decide +kernel
example : any2x1.toMonic 1 = .panic .assertion := by decide +kernel

theorem gcd_sound (hp : 2 ≤ p) : ∀ (fuel : ℕ) (f g d : Poly), f.All Key.IsX → (∀ e ∈ f.entries, e.1.xpow ≤ 2147483647) →
    g.All Key.IsX → (∀ e ∈ g.entries, e.1.xpow ≤ 2147483647) → Poly.gcd fuel f g p = .ok d →
    ∃ e : Poly, e.All Key.IsX ∧ (∀ x ∈ e.entries, x.1.xpow ≤ 2147483647) ∧ 0 < e.highestTermX.xpow ∧ e.toMonic p = .ok d ∧
      e.polyX (ZMod p.toNat) ∣ f.polyX (ZMod p.toNat) ∧ e.polyX (ZMod p.toNat) ∣ g.polyX (ZMod p.toNat) ∧
      ∃ a b, e.polyX (ZMod p.toNat) = a * f.polyX (ZMod p.toNat) + b * g.polyX (ZMod p.toNat) := by
  intro fuel
  induction fuel with
  | zero => intro f g d _ _ _ _ h; simp [Poly.gcd] at h
  | succ n ih =>
    intro f g d hf hfi hg hgi h
    by_cases hlt : f.deg < g.deg
    · rw [gcd_swap hf hg hlt] at h
      obtain ⟨e, e1, e2, e3, e4, e5, e6, a, b, e7⟩ := ih g f d hg hgi hf hfi h
      exact ⟨e, e1, e2, e3, e4, e6, e5, b, a, by rw [e7, add_comm]⟩
    · rw [gcd_noswap hf hg (by omega)] at h
      obtain ⟨r, hr, h⟩ := Res.bind_eq_ok.1 h
      have hret : Returns (fun fuel => f.polynomialModular fuel g p) r := by
        refine ⟨n, fun fuel hfu => ?_⟩
        obtain ⟨m, rfl⟩ := Nat.exists_eq_add_of_le hfu
        have := polynomialModular_mono (p := p) (f := f) (g := g) (fuel := n) (by rw [hr]; simp) m
        exact this.trans hr
      obtain ⟨r1, r2, r3, r4, q, r5⟩ := C15_any_modulus_sound hp f g r hf hfi hg hret
      by_cases h0 : r.isZero = true
      · rw [if_pos h0] at h
        have hz : r.polyX (ZMod p.toNat) = 0 := polyX_eq_zero_of_nil (isZero_iff.1 h0)
        have hpos : 0 ≤ r.highestTermX.xpow := by rw [highest_xpow r3]; omega
        rw [hz, add_zero] at r5
        exact ⟨g, hg, hgi, by omega, h, ⟨q, by rw [r5, mul_comm]⟩, dvd_rfl, 0, 1, by ring⟩
      · rw [if_neg h0] at h
        have hri : ∀ e ∈ r.entries, e.1.xpow ≤ 2147483647 := by
          intro e he
          have h1 := xpow_le_deg he
          rw [highest_xpow r3, highest_xpow hg] at r4
          have h2 := deg_le_i32 hgi
          omega
        obtain ⟨e, e1, e2, e3, e4, e5, e6, a, b, e7⟩ := ih g r d hg hgi r3 hri h
        refine ⟨e, e1, e2, e3, e4, ?_, e5, b, a - b * q, ?_⟩
        · rw [r5]
          exact dvd_add (Dvd.dvd.mul_left e5 q) e6
        · rw [e7, r5]
          ring

/-- **C16.**  `gcd` for every modulus `p ≥ 2`, prime or not: whatever it returns is `c^(p-2)` times a greatest common divisor `e`
of the arguments (a common divisor that is a combination of them) of positive stored degree and stored leading coefficient `c`.
So every common divisor divides the answer; and if `p` divides `c^(p-1) - 1` the answer is itself a greatest common divisor,
with coefficient 1 at the degree of `e`. -/
theorem C16_any_modulus (hp : 2 ≤ p) (f g d : Poly) (hf : f.All Key.IsX) (hfi : ∀ e ∈ f.entries, e.1.xpow ≤ 2147483647)
    (hg : g.All Key.IsX) (hgi : ∀ e ∈ g.entries, e.1.xpow ≤ 2147483647)
    (h : Returns (fun fuel => Poly.gcd fuel f g p) d) :
    ∃ e : Poly, 0 < e.highestTermX.xpow ∧
      (∀ k : (ZMod p.toNat)[X], k ∣ e.polyX (ZMod p.toNat) ↔ k ∣ f.polyX (ZMod p.toNat) ∧ k ∣ g.polyX (ZMod p.toNat)) ∧
      d.polyX (ZMod p.toNat) = C ((e.highestTermX.coef : ZMod p.toNat) ^ (p.toNat - 2)) * e.polyX (ZMod p.toNat) ∧
      (∀ k : (ZMod p.toNat)[X], k ∣ f.polyX (ZMod p.toNat) → k ∣ g.polyX (ZMod p.toNat) → k ∣ d.polyX (ZMod p.toNat)) ∧
      (p ∣ e.highestTermX.coef ^ (p.toNat - 1) - 1 →
        (d.polyX (ZMod p.toNat)).coeff e.highestTermX.xpow.toNat = 1 ∧
        ∀ k : (ZMod p.toNat)[X], k ∣ d.polyX (ZMod p.toNat) ↔ k ∣ f.polyX (ZMod p.toNat) ∧ k ∣ g.polyX (ZMod p.toNat)) := by
  obtain ⟨N, hN⟩ := h
  obtain ⟨e, e1, e2, e3, e4, e5, e6, a, b, e7⟩ := gcd_sound hp N f g d hf hfi hg hgi (hN N le_rfl)
  have hz : e.isZero = false := by
    cases hz : e.isZero
    · rfl
    · rw [highestTermX_of_nil (isZero_iff.1 hz)] at e3
      simp [Term.new, Term.xpow] at e3
  obtain ⟨v, hv, -, -, -, v4, v5⟩ := (C18_any_modulus e e1 e2 hz p).2 hp
  rw [e4, Res.ok.injEq] at hv
  subst hv
  have hg1 : ∀ k : (ZMod p.toNat)[X], k ∣ e.polyX (ZMod p.toNat) ↔ k ∣ f.polyX (ZMod p.toNat) ∧ k ∣ g.polyX (ZMod p.toNat) := by
    intro k
    refine ⟨fun hk => ⟨hk.trans e5, hk.trans e6⟩, fun ⟨h1, h2⟩ => ?_⟩
    rw [e7]
    exact dvd_add (h1.mul_left a) (h2.mul_left b)
  refine ⟨e, e3, hg1, v4, fun k h1 h2 => ?_, fun hc => ⟨v5.2 hc, fun k => ?_⟩⟩
  · rw [v4]
    exact ((hg1 k).2 ⟨h1, h2⟩).mul_left _
  · rw [← hg1 k, v4]
    have hu : IsUnit (C ((e.highestTermX.coef : ZMod p.toNat) ^ (p.toNat - 2))) := by
      refine Polynomial.isUnit_C.2 (IsUnit.of_mul_eq_one (e.highestTermX.coef : ZMod p.toNat) ?_)
      rw [← pow_succ, show p.toNat - 2 + 1 = p.toNat - 1 by omega, ← sub_eq_zero]
      have := (zmod_eq_zero_iff (show 0 ≤ p by omega) _).2 hc
      push_cast at this
      exact this
    exact hu.dvd_mul_left

example : (Poly.gcd 20 anyx21 any2x1 5 >>= fun d => .ok (d.entries.map (·.2))) = .ok [3, 1] := by decide +kernel
example : (Poly.gcd 20 ((((TermBuilder.new.coef 1).xpow 2).build).add (TermBuilder.new.coef (-1)).build)
    ((((TermBuilder.new.coef 2).xpow 1).build).add (TermBuilder.new.coef (-2)).build) 9 >>= fun d =>
      .ok (d.entries.map (·.2))) = .ok [5, 4] := by decide +kernel

end EC
