import Verif.Lemmas.FiveFrob

/-! Cases (d) and (e) of `schoof` for `l = 5`. -/

namespace EC
open Poly Polynomial WeierstrassCurve EDS

theorem psi5_map {R S : Type*} [CommRing R] [CommRing S] (f : R →+* S) (A B : R) :
    (psi5 A B).map f = psi5 (f A) (f B) := by
  unfold psi5
  simp only [Polynomial.map_add, Polynomial.map_sub, Polynomial.map_mul, Polynomial.map_pow, map_X, map_C]
  simp only [map_mul, map_add, map_sub, map_pow, map_ofNat]

section
variable {a b q : ℤ}

theorem psi5_eq (a b : ℤ) : (shortW a b).preΨ' 5 = psi5 a b := by
  have h := (shortW a b).preΨ'_odd 0
  rw [show 2 * (0 + 2) + 1 = 5 from rfl] at h
  rw [h]
  simp only [zero_add, WeierstrassCurve.preΨ'_one, WeierstrassCurve.preΨ'_two, WeierstrassCurve.preΨ'_three,
    WeierstrassCurve.preΨ'_four, Even.zero, if_true]
  simp only [WeierstrassCurve.Ψ₂Sq, WeierstrassCurve.Ψ₃, WeierstrassCurve.preΨ₄, WeierstrassCurve.b₂, WeierstrassCurve.b₄,
    WeierstrassCurve.b₆, WeierstrassCurve.b₈, psi5]
  simp only [map_mul, map_add, map_sub, map_pow, map_ofNat, map_zero, map_neg]
  ring

theorem psi5_polyX {c : Poly} (h : psi a b 5 = .ok c) (R : Type) [CommRing R] :
    c.All Key.IsX ∧ c.polyX R = psi5 (a : R) b := by
  obtain ⟨-, h1, h2⟩ := C29_psi _ _ _ _ h
  have hall : c.All (fun k => k.IsXY ∧ k.y = 0) := fun e he => by
    obtain ⟨k1, k2, k3, k4⟩ := h2 e he
    exact ⟨⟨k1, k2.ge, k3, SubVar.key_eq_none.2 k4⟩, k2⟩
  obtain ⟨hX, hC⟩ := polyXY_of_y0 hall
  refine ⟨hX, ?_⟩
  have hz : c.polyX ℤ = psi5 a b := by
    have := hC.symm.trans h1
    rw [show (5 : ℤ) = ((5 : ℕ) : ℤ) from rfl, WeierstrassCurve.Ψ_ofNat, if_neg (by decide), mul_one, psi5_eq] at this
    exact C_injective this
  have : c.polyX R = (c.polyX ℤ).map (Int.castRingHom R) := by
    ext n
    rw [coeff_map, polyX_coeff hX, polyX_coeff hX]
    simp
  rw [this, hz, psi5_map]
  simp

theorem psi5_deg {c : Poly} (h : psi a b 5 = .ok c) : c.deg = 12 ∧ c.highestTermX.coef = 5 := by
  obtain ⟨h1, h2⟩ := psi5_polyX h ℤ
  have hx := (psi_spec _ _ _ _ h).2.wk
  have hc : c.coef (Key.xn 12) = 5 := by
    have := polyX_coeff (R := ℤ) h1 12
    rw [h2] at this
    have h3 : (psi5 (a : ℤ) (b : ℤ)).coeff 12 = 5 := by
      unfold psi5; compute_degree!
    simp only [Int.cast_id] at this h3
    rw [h3] at this
    simpa using this.symm
  have := deg_of_coef (n := 12) h1 (fun e he => by
    have h5 := (hx e he).2.2
    have h6 := (h1 e he).2.1
    norm_num at h5
    simp only [Monomial.key] at h5 h6
    push_cast
    omega) (by rw [hc]; norm_num)
  rwa [hc] at this

variable [Fact (Nat.Prime q.toNat)] {fuel : ℕ}

theorem find_five_one : (irange 1 5).find? (fun i => Int.fmod (i ^ 2) 5 = 1) = some 1 := by decide
theorem find_five_four : (irange 1 5).find? (fun i => Int.fmod (i ^ 2) 5 = 4) = some 2 := by decide
theorem find_five_two : (irange 1 5).find? (fun i => Int.fmod (i ^ 2) 5 = 2) = none := by decide
theorem find_five_three : (irange 1 5).find? (fun i => Int.fmod (i ^ 2) 5 = 3) = none := by decide

theorem five_ne_zmod (h5 : 5 < q) : (5 : ZMod q.toNat) ≠ 0 := by
  intro h0
  have := (zmod_eq_zero_iff (show 0 ≤ q by omega) 5).1 (by exact_mod_cast h0)
  have := Int.le_of_dvd (by norm_num) this
  omega

theorem de_five_zero (hi : q ≤ 2147483647) (h5q : 5 < q) {s1 s2 s3 ph p12 p13 ps p14 p15 : Poly}
    (hs1 : psi a b 1 = .ok s1) (hs2 : s1.power 2 = .ok s2)
    (hs3 : Poly.termMul (TermBuilder.new.xpow q).build s2 = .ok s3) (hph : phi a b 1 = .ok ph)
    (hp12 : (s3.sub ph).modularAssign q = .ok p12) (hp13 : p12.reductionModular a b q = .ok p13)
    (hps : psi q b 5 = .ok ps) (hp14 : ps.rem q = .ok p14) (hp15 : p13.polynomialModular fuel p14 q = .ok p15) :
    p15.isZero = true ↔ psi5 0 (b : ZMod q.toNat) ∣ X ^ q.toNat - X := by
  have hpr : Nat.Prime q.toNat := Fact.out
  have hq := two_le_of_prime (p := q) hpr
  have hz : ((q : ℤ) : ZMod q.toNat) = 0 := (zmod_eq_zero_iff (show 0 ≤ q by omega) q).2 dvd_rfl
  have h5 := five_ne_zmod h5q
  -- the dividend
  rw [← Res.ok.inj ((psi_one a b).symm.trans hs1)] at hs2
  have hXq : (TermBuilder.new.xpow q).build.toPol.All Key.IsX := all_toPol fun _ => by
    simp [Key.IsX, TermBuilder.new, TermBuilder.build, TermBuilder.xpow, Monomial.key, SubVar.key, SubVar.new]
    omega
  have h1X : (TermBuilder.new.build.toPol).All Key.IsX := all_toPol fun _ => by
    simp [Key.IsX, TermBuilder.new, TermBuilder.build, Monomial.key, SubVar.key, SubVar.new]
  obtain ⟨-, hs2X, hs2v⟩ := MulFn.power (isX_mulFn (R := ZMod q.toNat)) h1X hs2
  obtain ⟨hs3X, hs3v⟩ := MulFn.mul (isX_mulFn (R := ZMod q.toNat)) hXq hs2X hs3
  obtain ⟨-, hphX, hphv⟩ := C30_phi a b 1 ph hph
  have hphX' : ph.All Key.IsX := fun e he => by
    obtain ⟨k1, k2, k3, k4⟩ := hphX e he
    exact ⟨k1, k2, k3, SubVar.key_eq_none.2 k4⟩
  have hphv' : ph.polyX (ZMod q.toNat) = X := by
    have : ph.polyX (ZMod q.toNat) = (ph.polyX ℤ).map (Int.castRingHom _) := by
      ext n
      rw [coeff_map, polyX_coeff hphX', polyX_coeff hphX']
      simp
    rw [this, hphv, WeierstrassCurve.Φ_one, map_X]
  have hm12 := modularAssign_eq_ok (show 0 < q by omega) hp12
  have h12X := hm12.all (all_sub hs3X hphX')
  obtain ⟨h13X, h13c, h13r, h13v⟩ := reductionModular_polyX (by omega) h12X hp13
  have hv : p13.polyX (ZMod q.toNat) = X ^ q.toNat - X := by
    rw [h13v, polyX_modOf (by omega) hm12]
    unfold polyX at hphv' ⊢
    rw [evalAt_eq_lin] at hphv' ⊢
    rw [lin_sub, hphv', hs3v, hs2v, lin_toPol, lin_toPol]
    simp [TermBuilder.new, TermBuilder.build, TermBuilder.xpow, Monomial.key, SubVar.key, SubVar.new, Key.evalAt]
  have hnd : (X ^ q.toNat - X : (ZMod q.toNat)[X]).natDegree = q.toNat :=
    FiniteField.X_pow_card_sub_X_natDegree_eq (ZMod q.toNat) hpr.one_lt
  have h13d : p13.deg ≤ 2147483647 := by
    by_cases h0 : p13.entries = []
    · unfold deg; rw [highestTermX_of_nil h0]; simp [Term.new, Term.xpow]
    · have := (polyX_natDegree h13X (highest_coef_ne (p := q) (by omega) h13c h13r h0)).1
      rw [hv, hnd] at this
      omega
  -- the divisor
  obtain ⟨hpsX, hpsv⟩ := psi5_polyX hps (ZMod q.toNat)
  have hm14 := rem_eq_ok (show 0 < q by omega) hp14
  have h14X := hm14.all hpsX
  have h14v : p14.polyX (ZMod q.toNat) = psi5 0 (b : ZMod q.toNat) := by
    rw [polyX_modOf (by omega) hm14, hpsv, hz]
  have h14n : (psi5 0 (b : ZMod q.toNat)).natDegree = 12 := psi5_natDegree h5
  have h14e : p14.entries ≠ [] := by
    intro h0
    rw [polyX_eq_zero_of_nil h0] at h14v
    rw [← h14v] at h14n
    simp at h14n
  have h14l := highest_coef_ne (p := q) (by omega) hm14.canon (hm14.reduced (by omega)) h14e
  have h14d := (polyX_natDegree h14X h14l).1
  rw [h14v, h14n] at h14d
  obtain ⟨v, v1, v2, v3, v4, -, v6⟩ := polynomialModular_spec (p := q) hq h13X h13d h14X h14l (by omega)
  have hv15 := (mono_polynomialModular p13 p14 q).unique hp15 ⟨_, fun n hn => v1 n (show p13.deg + 1 < n from hn)⟩
  subst hv15
  rw [hv, h14v] at v6
  rw [← EuclideanDomain.mod_eq_zero, ← v6, polyX_eq_zero_iff (p := q) (by omega) v2 v3 v4, isZero_iff]

theorem schoofDE_five_one {r : ModResult} (hi : q ≤ 2147483647) (h5q : 5 < q)
    (h : schoofDE fuel a b q 5 1 = .ok r) :
    (r.r = 3 ∧ psi5 0 (b : ZMod q.toNat) ∣ X ^ q.toNat - X) ∨
    (r.r = 0 ∧ ¬ psi5 0 (b : ZMod q.toNat) ∣ X ^ q.toNat - X) := by
  have hpr : Nat.Prime q.toNat := Fact.out
  have hq := two_le_of_prime (p := q) hpr
  have h5 := five_ne_zmod h5q
  unfold schoofDE at h
  rw [find_five_one] at h
  dsimp only at h
  obtain ⟨s1, hs1, h⟩ := Res.bind_eq_ok.1 h
  obtain ⟨s2, hs2, h⟩ := Res.bind_eq_ok.1 h
  obtain ⟨s3, hs3, h⟩ := Res.bind_eq_ok.1 h
  obtain ⟨ph, hph, h⟩ := Res.bind_eq_ok.1 h
  obtain ⟨p12, hp12, h⟩ := Res.bind_eq_ok.1 h
  obtain ⟨p13, hp13, h⟩ := Res.bind_eq_ok.1 h
  obtain ⟨ps, hps, h⟩ := Res.bind_eq_ok.1 h
  obtain ⟨p14, hp14, h⟩ := Res.bind_eq_ok.1 h
  obtain ⟨p15, hp15, h⟩ := Res.bind_eq_ok.1 h
  rw [← de_five_zero hi h5q hs1 hs2 hs3 hph hp12 hp13 hps hp14 hp15]
  by_cases hc : p15.isZero = true
  swap
  · right
    rw [if_pos (by simpa using hc)] at h
    rw [Res.ok.injEq] at h
    exact ⟨by rw [← h], hc⟩
  · left
    refine ⟨?_, hc⟩
    rw [if_neg (by simpa using hc)] at h
    by_cases hI : InI32 a
    swap
    · rw [if_pos hI] at h; cases h
    rw [if_neg (not_not.2 hI)] at h
    obtain ⟨_, -, h⟩ := Res.bind_eq_ok.1 h
    obtain ⟨_, -, h⟩ := Res.bind_eq_ok.1 h
    obtain ⟨_, -, h⟩ := Res.bind_eq_ok.1 h
    obtain ⟨_, -, h⟩ := Res.bind_eq_ok.1 h
    obtain ⟨p16, -, h⟩ := Res.bind_eq_ok.1 h
    obtain ⟨p16', -, h⟩ := Res.bind_eq_ok.1 h
    obtain ⟨p17, h17, h⟩ := Res.bind_eq_ok.1 h
    obtain ⟨ps', hps', h⟩ := Res.bind_eq_ok.1 h
    obtain ⟨o, ho, h⟩ := Res.bind_eq_ok.1 h
    obtain ⟨-, -, r1, r2⟩ := C21_reduction_modular _ _ _ _ _ (by omega) h17
    have d := psi5_deg hps'
    have := isGcdOne_true r2 r1 (psi5_polyX hps' (ZMod q.toNat)).1 (by omega) (by omega)
      (by rw [d.2]; exact_mod_cast h5) ho
    subst this
    cases h
    rfl

theorem schoofDE_five_non {r : ModResult} {n : ℤ} (hn : n = 2 ∨ n = 3)
    (h : schoofDE fuel a b q 5 n = .ok r) : r.r = 0 := by
  unfold schoofDE at h
  rcases hn with rfl | rfl
  · rw [find_five_two] at h
    cases h; rfl
  · rw [find_five_three] at h
    cases h; rfl

end

/-- If the equation `x(F P) = x(2 P)` holds at all roots of `psi5 0 b` then `a = 0`. -/
theorem five_alg {K : Type} [Field K] [IsAlgClosed K] {a b : K} (h2 : (2 : K) ≠ 0) (h3 : (3 : K) ≠ 0) (h5 : (5 : K) ≠ 0)
    {n : ℕ} (hn : n % 3 ≠ 0)
    (h : ∀ x, (psi5 0 b).IsRoot x → 4 * x ^ n * (x ^ 3 + a * x + b) = x ^ 4 - 2 * a * x ^ 2 - 8 * b * x + a ^ 2) :
    a = 0 := by
  have hr : ∀ x, (psi5 0 b).IsRoot x ↔ 5 * x ^ 12 + 380 * b * x ^ 9 - 240 * b ^ 2 * x ^ 6 - 1600 * b ^ 3 * x ^ 3 -
      256 * b ^ 4 = 0 := by
    intro x
    rw [IsRoot.def]
    have : (psi5 0 b).eval x = 5 * x ^ 12 + 380 * b * x ^ 9 - 240 * b ^ 2 * x ^ 6 - 1600 * b ^ 3 * x ^ 3 - 256 * b ^ 4 := by
      simp [psi5]; ring
    rw [this]
  have hpx0 : psi5 0 b ≠ 0 := fun h0 => by
    have := psi5_natDegree (a := 0) (b := b) h5; rw [h0] at this; simp at this
  obtain ⟨x, hx⟩ := IsAlgClosed.exists_root (psi5 0 b) (by
    rw [degree_eq_natDegree hpx0, psi5_natDegree h5]
    norm_num)
  obtain ⟨w, hw⟩ := IsAlgClosed.exists_root (X ^ 2 + X + 1 : K[X]) (by
    have : (X ^ 2 + X + 1 : K[X]).degree = 2 := by compute_degree!
    rw [this]; norm_num)
  have hw : w ^ 2 + w + 1 = 0 := by simpa [IsRoot.def] using hw
  have hw3 : w ^ 3 = 1 := by linear_combination (w - 1) * hw
  have hx' := (hr x).1 hx
  have hx1 : (psi5 0 b).IsRoot (w * x) := by
    rw [hr]
    linear_combination hx' + (5 * x ^ 12 * (w ^ 9 + w ^ 6 + w ^ 3 + 1) + 380 * b * x ^ 9 * (w ^ 6 + w ^ 3 + 1) -
      240 * b ^ 2 * x ^ 6 * (w ^ 3 + 1) - 1600 * b ^ 3 * x ^ 3) * hw3
  have hx2 : (psi5 0 b).IsRoot (w ^ 2 * x) := by
    have hw6 : w ^ 6 = 1 := by linear_combination (w ^ 3 + 1) * hw3
    rw [hr]
    linear_combination hx' + (5 * x ^ 12 * (w ^ 18 + w ^ 12 + w ^ 6 + 1) + 380 * b * x ^ 9 * (w ^ 12 + w ^ 6 + 1) -
      240 * b ^ 2 * x ^ 6 * (w ^ 6 + 1) - 1600 * b ^ 3 * x ^ 3) * hw6
  have e0 := h _ hx
  have e1 := h _ hx1
  have e2 := h _ hx2
  have hwn : w ^ n = w ^ (n % 3) := by
    conv_lhs => rw [← Nat.div_add_mod n 3, pow_add, pow_mul, hw3, one_pow, one_mul]
  rw [mul_pow, hwn] at e1
  rw [mul_pow, ← pow_mul, mul_comm 2 n, pow_mul, hwn] at e2
  have hn3 : n % 3 = 1 ∨ n % 3 = 2 := by omega
  rcases hn3 with hn3 | hn3
  · rw [hn3] at e1 e2
    have : 3 * a ^ 2 = 0 := by
      linear_combination -(e0 + e1 + e2) + ((4*x^n*x^3) * (w ^ 1 * (w - 1) * (w ^ 0)) + (-x^4) * (w ^ 1 * (w - 1) * (w ^ 0)) + (4*x^n*x^3) * (w ^ 2 * (w - 1) * (w ^ 0 + w ^ 3)) + (4*x^n*a*x) * (w ^ 1 * (w - 1) * (w ^ 0)) + (-x^4) * (w ^ 2 * (w - 1) * (w ^ 0 + w ^ 3)) + (2*a*x^2) * (w ^ 1 * (w - 1) * (w ^ 0)) + (4*x^n*x^3) + (4*x^n*a*x) + (4*x^n*b) + (-x^4) + (2*a*x^2) + (8*b*x)) * hw
    exact pow_eq_zero_iff (two_ne_zero) |>.1 ((mul_eq_zero.1 this).resolve_left h3)
  · rw [hn3] at e1 e2
    have : 3 * (x * (x ^ 3 - 8 * b)) = 0 := by
      linear_combination -(e0 + w ^ 2 * e1 + w ^ 4 * e2) + ((4*x^n*x^3) * (w ^ 1 * (w - 1) * (w ^ 0 + w ^ 3)) + (4*x^n*a*x) * (w ^ 2 * (w - 1) * (w ^ 0)) + (4*x^n*b) * (w ^ 1 * (w - 1) * (w ^ 0)) + (-x^4) * (w ^ 0 * (w - 1) * (w ^ 0 + w ^ 3)) + (2*a*x^2) * (w ^ 1 * (w - 1) * (w ^ 0)) + (8*b*x) * (w ^ 0 * (w - 1) * (w ^ 0)) + (4*x^n*x^3) * (w ^ 2 * (w - 1) * (w ^ 0 + w ^ 3 + w ^ 6 + w ^ 9)) + (4*x^n*a*x) * (w ^ 1 * (w - 1) * (w ^ 0 + w ^ 3 + w ^ 6)) + (4*x^n*b) * (w ^ 2 * (w - 1) * (w ^ 0 + w ^ 3)) + (-x^4) * (w ^ 0 * (w - 1) * (w ^ 0 + w ^ 3 + w ^ 6 + w ^ 9)) + (2*a*x^2) * (w ^ 2 * (w - 1) * (w ^ 0 + w ^ 3)) + (8*b*x) * (w ^ 0 * (w - 1) * (w ^ 0 + w ^ 3)) + (-a^2) * (w ^ 1 * (w - 1) * (w ^ 0)) + (4*x^n*x^3) + (4*x^n*a*x) + (4*x^n*b) + (2*a*x^2) + (-a^2)) * hw
    have hx0 : x = 0 := by
      rcases mul_eq_zero.1 ((mul_eq_zero.1 this).resolve_left h3) with h0 | h0
      · exact h0
      · have hb : 2 ^ 8 * 3 ^ 6 * b ^ 4 = 0 := by
          linear_combination hx' - (5 * (x ^ 9 + 8 * b * x ^ 6 + 64 * b ^ 2 * x ^ 3 + 512 * b ^ 3) +
            380 * b * (x ^ 6 + 8 * b * x ^ 3 + 64 * b ^ 2) - 240 * b ^ 2 * (x ^ 3 + 8 * b) - 1600 * b ^ 3) * h0
        have hb : b = 0 := by
          rcases mul_eq_zero.1 hb with h1 | h1
          · rcases mul_eq_zero.1 h1 with h1 | h1
            · exact absurd (pow_eq_zero_iff (by norm_num) |>.1 h1) h2
            · exact absurd (pow_eq_zero_iff (by norm_num) |>.1 h1) h3
          · exact pow_eq_zero_iff (by norm_num) |>.1 h1
        rw [hb, mul_zero, sub_zero] at h0
        exact pow_eq_zero_iff (by norm_num) |>.1 h0
    subst hx0
    have : a ^ 2 = 0 := by
      have hn0 : n ≠ 0 := by rintro rfl; omega
      rw [zero_pow hn0] at e0
      linear_combination -e0
    exact pow_eq_zero_iff (two_ne_zero) |>.1 this

section
variable {K : Type} [Field K] [DecidableEq K] [IsAlgClosed K] {a b q : ℤ} [Fact (Nat.Prime q.toNat)]
  [CharP K q.toNat] {fuel : ℕ}

local notation "φ" => frobPoint q.toNat a b

/-- The values of the polynomials of case (d) with `w = 2`. -/
theorem de_five_two {s1 s2 s3 ph p12 p13 ps p14 p15 : Poly}
    (h2K : (2 : K) ≠ 0) (hd : 4 * (a : K) ^ 3 + 27 * (b : K) ^ 2 ≠ 0)
    (hs1 : psi a b 2 = .ok s1) (hs2 : s1.power 2 = .ok s2)
    (hs3 : Poly.termMul (TermBuilder.new.xpow q).build s2 = .ok s3) (hph : phi a b 2 = .ok ph)
    (hp12 : (s3.sub ph).modularAssign q = .ok p12) (hp13 : p12.reductionModular a b q = .ok p13)
    (hps : psi q b 5 = .ok ps) (hp14 : ps.rem q = .ok p14) (hp15 : p13.polynomialModular fuel p14 q = .ok p15)
    (hz : p15.isZero = true) (x : K) (hx : (psi5 0 (b : K)).IsRoot x) :
    4 * x ^ q.toNat * (x ^ 3 + a * x + b) = x ^ 4 - 2 * a * x ^ 2 - 8 * b * x + a ^ 2 := by
  have hpr : Nat.Prime q.toNat := Fact.out
  have hq := two_le_of_prime (p := q) hpr
  have hK := char_smulK (K := K) (q := q) (by omega)
  obtain ⟨y, hy⟩ := IsAlgClosed.exists_pow_nat_eq (x ^ 3 + (a : K) * x + b) (show 0 < 2 by norm_num)
  let P : Pt (a : K) b := .some x y (nonsing_of h2K hd hy)
  have hP : P ≠ 0 := Affine.Point.some_ne_zero _
  have hxP : xc P = x := rfl
  have hyP : yc P = y := rfl
  have v1 := ev_psi hP (n := 2) (by exact_mod_cast hs1)
  have v2 := v1.power2 hs2
  have v3 : Ev (xc P) (yc P) s3 _ := (Ev.xpow (show 0 ≤ q by omega)).mul v2 hs3
  have v4 := ev_phi hP (n := 2) (by exact_mod_cast hph)
  have v5 := Ev.red (show 1 ≤ q by omega) hK (eqn hP) ((v3.sub v4).mod (by omega) hK hp12) hp13
  -- the divisor
  have v6 : Ev (xc P) (yc P) ps 0 := by
    have hX := (psi5_polyX hps ℤ).1
    have hxy : ps.All (fun k => k.IsXY ∧ k.y = 0) := hX.mono fun k hk => ⟨⟨hk.1, hk.2.1.ge, hk.2.2⟩, hk.2.1⟩
    refine (ev_of_polyXY (hxy.mono fun _ h => h.1)).congr ?_
    rw [(polyXY_of_y0 hxy).2, (psi5_polyX hps ℤ).2]
    have e : ∀ f : ℤ[X], evR K (xc P) (yc P) (C f) = (f.map (Int.castRingHom K)).eval (xc P) := by
      intro f
      simp [evR, eval_map]
    have hz : ((q : ℤ) : K) = 0 := by
      have := (CharP.intCast_eq_zero_iff K q.toNat q)
      rw [Int.toNat_of_nonneg (by omega)] at this
      exact this.2 dvd_rfl
    rw [e, psi5_map]
    simp only [Int.cast_id, eq_intCast, hz]
    exact hx
  have v7 := (Ev.polyMod (by omega) hK (v6.rem (by omega) hK hp14) v5 hp15).isZero hz
  rw [show (2 + 1 : ℕ) = 3 from rfl, show (2 - 1 : ℕ) = 1 from rfl, F_one, F_two, F_three, hxP, hyP] at v7
  unfold psi3 at v7
  linear_combination v7 - (4 * x ^ q.toNat - 4 * x) * hy

/-- The first test of case (d) with `w = 2` never succeeds. -/
theorem five_two_false (h2 : q ≠ 2) (h5q : 5 < q) (h4 : q % 5 = 4)
    (hns : ¬ q ∣ 4 * a ^ 3 + 27 * b ^ 2) (h5K : (5 : K) ≠ 0)
    (hF : ∀ P : Pt (a : K) b, (5 : ℤ) • P = 0 → φ (φ P) + q • P = 0) {s1 s2 s3 ph p12 p13 ps p14 p15 : Poly}
    (hs1 : psi a b 2 = .ok s1) (hs2 : s1.power 2 = .ok s2)
    (hs3 : Poly.termMul (TermBuilder.new.xpow q).build s2 = .ok s3) (hph : phi a b 2 = .ok ph)
    (hp12 : (s3.sub ph).modularAssign q = .ok p12) (hp13 : p12.reductionModular a b q = .ok p13)
    (hps : psi q b 5 = .ok ps) (hp14 : ps.rem q = .ok p14) (hp15 : p13.polynomialModular fuel p14 q = .ok p15)
    (hc : p15.isZero = true) : False := by
  have hpr : Nat.Prime q.toNat := Fact.out
  have hq := two_le_of_prime (p := q) hpr
  obtain ⟨h2K, h3K, hd⟩ := char_nonzero_data (K := K) (a := a) (b := b) h2 hns (by omega)
  have hroot := de_five_two h2K hd hs1 hs2 hs3 hph hp12 hp13 hps hp14 hp15 hc
  have hq3 : q.toNat % 3 ≠ 0 := by
    intro h0
    have := (Nat.prime_dvd_prime_iff_eq Nat.prime_three hpr).1 (Nat.dvd_of_mod_eq_zero h0)
    omega
  have ha := five_alg h2K h3K h5K hq3 hroot
  obtain ⟨P, hP, h5P⟩ : ∃ P : Pt (a : K) b, P ≠ 0 ∧ (5 : ℤ) • P = 0 := by
    obtain ⟨u, hu, huP⟩ := card_torsion_x (a := (a : K)) (b := b) h2K hd (n := 5) (by exact_mod_cast h5K)
    have : u.Nonempty := by rw [← Finset.card_pos]; omega
    obtain ⟨x, hx⟩ := this
    obtain ⟨P, h4, h5, -⟩ := huP x hx
    exact ⟨P, h4, by rw [← natCast_zsmul] at h5; exact h5⟩
  have hr := psi5_root h2K hP h5P
  have e : psi5 (a : K) b = psi5 0 (b : K) := congrArg (fun t => psi5 t (b : K)) ha
  rw [e] at hr
  have hv := hroot _ hr
  obtain ⟨g1, g2, g3⟩ := frobPoint_ne (q := q) hP
  have h2P : (2 : ℤ) • P ≠ 0 := smul_ne_five hP h5P (by norm_num)
  have hx2 : xc (φ P) = xc ((2 : ℤ) • P) := by
    have hm := F_x h2K hP 2 (by norm_num) (by rw [← natCast_zsmul]; exact h2P)
    have hy : yc P ≠ 0 := by
      intro h0
      have : F P 2 = 0 := by rw [F_two, h0, mul_zero]
      have := (F_eq_zero_iff h2K hP 2 (by norm_num)).1 this
      rw [← natCast_zsmul] at this
      exact h2P this
    rw [show (2 + 1 : ℕ) = 3 from rfl, show (2 - 1 : ℕ) = 1 from rfl, F_one, F_two,
      F_three] at hm
    unfold psi3 at hm
    rw [← natCast_zsmul] at hm
    have e2 := eqn hP
    rw [g2]
    have h4 : (4 * yc P ^ 2 : K) ≠ 0 := by
      rw [show (4 : K) = 2 * 2 by norm_num]
      exact mul_ne_zero (mul_ne_zero h2K h2K) (pow_ne_zero 2 hy)
    apply mul_right_cancel₀ h4
    have hm' : xc ((2 : ℤ) • P) * (2 * yc P) ^ 2 = _ := hm
    linear_combination hv - hm' + (4 * xc P ^ q.toNat - 4 * xc P) * e2
  have hq4 : q • P = (4 : ℤ) • P := smul_mod_five h5P (by simp only [Int.ModEq]; omega)
  have hFP := hF P h5P
  rw [hq4] at hFP
  rcases (xc_eq_iff g1 h2P).1 hx2 with h6 | h6
  · rw [h6, frob_zsmul h2K, h6] at hFP
    apply smul_ne_five hP h5P (k := 8) (by norm_num)
    linear_combination (norm := module) hFP
  · rw [h6, frob_neg, frob_zsmul h2K, h6] at hFP
    apply smul_ne_five hP h5P (k := 8) (by norm_num)
    linear_combination (norm := module) hFP

theorem schoofDE_five_four {r : ModResult} (h2 : q ≠ 2) (h5q : 5 < q) (h4 : q % 5 = 4)
    (hns : ¬ q ∣ 4 * a ^ 3 + 27 * b ^ 2)
    (h : schoofDE fuel a b q 5 4 = .ok r) (h5K : (5 : K) ≠ 0)
    (hF : ∀ P : Pt (a : K) b, (5 : ℤ) • P = 0 → φ (φ P) + q • P = 0) : r.r = 0 := by
  have hpr : Nat.Prime q.toNat := Fact.out
  have hq := two_le_of_prime (p := q) hpr
  unfold schoofDE at h
  rw [find_five_four] at h
  dsimp only at h
  obtain ⟨s1, hs1, h⟩ := Res.bind_eq_ok.1 h
  obtain ⟨s2, hs2, h⟩ := Res.bind_eq_ok.1 h
  obtain ⟨s3, hs3, h⟩ := Res.bind_eq_ok.1 h
  obtain ⟨ph, hph, h⟩ := Res.bind_eq_ok.1 h
  obtain ⟨p12, hp12, h⟩ := Res.bind_eq_ok.1 h
  obtain ⟨p13, hp13, h⟩ := Res.bind_eq_ok.1 h
  obtain ⟨ps, hps, h⟩ := Res.bind_eq_ok.1 h
  obtain ⟨p14, hp14, h⟩ := Res.bind_eq_ok.1 h
  obtain ⟨p15, hp15, h⟩ := Res.bind_eq_ok.1 h
  by_cases hc : p15.isZero = true
  swap
  · rw [if_pos (by simpa using hc)] at h
    rw [Res.ok.injEq] at h
    rw [← h]
  exact (five_two_false h2 h5q h4 hns h5K hF hs1 hs2 hs3 hph hp12 hp13 hps hp14 hp15 hc).elim

end
end EC
