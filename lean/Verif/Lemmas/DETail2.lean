import Verif.Lemmas.DETail

/-! When the last step of cases (d), (e) of `schoof` returns. -/

namespace EC
open Poly Polynomial WeierstrassCurve

theorem polynomialModular_hasY {fuel : ℕ} {f g r : Poly} {q : ℤ} (h : g.hasY = true) :
    f.polynomialModular fuel g q ≠ .ok r := by
  unfold polynomialModular
  rw [h]
  intro h
  cases h

/-- `gcd` refuses a polynomial in `x` and `y` of smaller degree in `x`. -/
theorem gcd_hasY {fuel : ℕ} {f g r : Poly} {q : ℤ} (hf : f.hasY = true)
    (hd : f.highestTermX.xpow < g.highestTermX.xpow) : Poly.gcd fuel f g q ≠ .ok r := by
  intro h
  cases fuel with
  | zero => simp [Poly.gcd] at h
  | succ n =>
    unfold Poly.gcd at h
    dsimp only at h
    rw [if_pos hd] at h
    cases n with
    | zero => simp [Poly.gcd] at h
    | succ n =>
      unfold Poly.gcd at h
      dsimp only at h
      rw [if_neg (by omega)] at h
      obtain ⟨_, h1, -⟩ := Res.bind_eq_ok.1 h
      exact polynomialModular_hasY hf h1

theorem isGcdOne_ok {fuel : ℕ} {f g : Poly} {q : ℤ} {o : Bool} (h : f.isGcdOne fuel g q = .ok o) :
    ∃ r, Poly.gcd fuel f g q = .ok r := by
  unfold isGcdOne at h
  obtain ⟨r, hr, -⟩ := Res.bind_eq_ok.1 h
  exact ⟨r, hr⟩

section
variable {K : Type} [Field K] {x y : K} {f g : Poly} {q : ℤ}

theorem hasY_of_ev {c d : K} (h1 : Ev x y f c) (h2 : Ev x (-y) f d) (h : c ≠ d) : f.hasY = true := by
  cases hf : f.hasY with
  | true => rfl
  | false =>
    exfalso
    rw [hasY_eq_false] at hf
    apply h
    rw [← h1.2, ← h2.2]
    apply lin_congr_fun
    intro e he
    have := hf e he
    simp [Key.evalAt, Monomial.key, this]

theorem gcd_ev (hq : 1 ≤ q) (hK : ∀ m : K, q • m = 0) (g1 : Ev x y g 0) (g2 : Ev x (-y) g 0) : ∀ (n : ℕ) (f : Poly) (c d : K),
    Ev x y f c → Ev x (-y) f d → c ≠ d → ∀ r, Poly.gcd n f g q ≠ .ok r ∧ Poly.gcd n g f q ≠ .ok r := by
  intro n
  induction n with
  | zero => intro f c d _ _ _ r; simp [Poly.gcd]
  | succ n ih =>
    intro f c d h1 h2 hcd r
    have hy := hasY_of_ev h1 h2 hcd
    constructor
    · intro h
      unfold Poly.gcd at h
      dsimp only at h
      split_ifs at h with h3
      · exact (ih f c d h1 h2 hcd r).2 h
      · obtain ⟨s, hs, h⟩ := Res.bind_eq_ok.1 h
        have e1 := Ev.polyMod hq hK g1 h1 hs
        have e2 := Ev.polyMod hq hK g2 h2 hs
        split_ifs at h with h4
        · exact hcd ((e1.isZero h4).trans (e2.isZero h4).symm)
        · exact (ih s c d e1 e2 hcd r).2 h
    · intro h
      unfold Poly.gcd at h
      dsimp only at h
      split_ifs at h with h3
      · exact (ih f c d h1 h2 hcd r).1 h
      · obtain ⟨s, hs, h⟩ := Res.bind_eq_ok.1 h
        exact polynomialModular_hasY hy hs

end

section
variable {a b q : ℤ} {p16 p17 g : Poly} {fuel : ℕ} [hp : Fact (Nat.Prime q.toNat)]

/-- What is needed of the division polynomial. -/
structure GoodMod (q : ℤ) (g : Poly) : Prop where
  isX : g.All Key.IsX
  deg : 0 < g.deg ∧ g.deg ≤ 2147483647
  lead : ¬ q ∣ g.highestTermX.coef
  bd : ∀ e ∈ g.entries, e.1.xpow ≤ 2147483647

theorem zmod_smul (m : ZMod q.toNat) : q • m = 0 := by
  have hq := two_le_of_prime (p := q) hp.out
  rw [zsmul_eq_mul, (zmod_eq_zero_iff (show 0 ≤ q by omega) q).2 dvd_rfl, zero_mul]

theorem highest_x0 {f : Poly} (hf : f.All fun k => k.x = 0) : f.highestTermX.xpow = 0 := by
  by_cases hne : f.entries = []
  · rw [highestTermX_of_nil hne]; rfl
  · obtain ⟨e, he, he2, -⟩ := highestTermX_of_ne hne
    rw [he2]
    exact hf e he

/-- `a ≤ 0`: the exponent of `y` is negative. -/
theorem tail_neg (ha : a ≤ 0) (hg : GoodMod q g) (hA : p16.All (fun k => k = yk (a - 1) ∨ k = yk 0))
    (hlin : ∀ φ : Key → ZMod q.toNat, p16.lin φ = φ (yk (a - 1)) - φ (yk 0))
    (h17 : p16.reductionModular a b q = .ok p17) (o : Bool) : p17.isGcdOne fuel g q ≠ .ok o := by
  have hq := two_le_of_prime (p := q) hp.out
  intro h
  obtain ⟨r, hr⟩ := isGcdOne_ok h
  have hA' : p17.All (fun k => k = yk (a - 1) ∨ k = yk 0) := redMod_all (by omega) h17 hA (fun k hk _ => hk) (by
    rintro k k' (rfl | rfl) h2 <;> simp only [yk] at h2 <;> omega)
  have hl := redMod_lin (by omega) zmod_smul h17 (hA.mono (by rintro k (rfl | rfl) <;> simp only [yk] <;> omega))
  have hx := highest_x0 (hA'.mono (by rintro k (rfl | rfl) <;> rfl))
  have hgx : 0 < g.highestTermX.xpow := by have := hg.deg.1; unfold Poly.deg at this; omega
  refine gcd_hasY ?_ (by omega) hr
  cases hy : p17.hasY with
  | true => rfl
  | false =>
    exfalso
    rw [hasY_eq_false] at hy
    have h1 := hl (fun k => if k.y = a - 1 then 1 else 0)
    rw [hlin] at h1
    have e1 : p17.lin (fun k => if k.y = a - 1 then (1 : ZMod q.toNat) else 0) = 0 := by
      unfold lin
      apply List.sum_eq_zero
      intro z hz
      obtain ⟨e, he, rfl⟩ := List.mem_map.1 hz
      have : e.1.key.y = 0 := hy e he
      simp only [this]
      rw [if_neg (by omega), smul_zero]
    rw [e1] at h1
    simp only [yk, if_true, show ¬ (0 : ℤ) = a - 1 by omega, if_false, sub_zero] at h1
    exact zero_ne_one h1

/-- `a = 1`: the polynomial is zero. -/
theorem tail_one (hg : GoodMod q g) (hA : p16.All (fun k => k = yk (1 - 1) ∨ k = yk 0))
    (hlin : ∀ φ : Key → ZMod q.toNat, p16.lin φ = φ (yk (1 - 1)) - φ (yk 0))
    (h17 : p16.reductionModular 1 b q = .ok p17) (o : Bool) : p17.isGcdOne fuel g q ≠ .ok o := by
  have hq := two_le_of_prime (p := q) hp.out
  intro h
  obtain ⟨m, hm⟩ := isGcdOne_ok h
  have hX : p16.All Key.IsX := hA.mono (by rintro k (rfl | rfl) <;> exact ⟨le_rfl, rfl, rfl, rfl⟩)
  obtain ⟨r1, r2, r3, r4⟩ := reductionModular_polyX (by omega) hX h17
  have hl := redMod_lin (by omega) zmod_smul h17 (hA.mono (by rintro k (rfl | rfl) <;> simp only [yk] <;> omega))
  have hz : p17.entries = [] := by
    by_contra hne
    obtain ⟨e, he, he2, -⟩ := highestTermX_of_ne hne
    have h1 := highest_coef_ne (p := q) (by omega) r2 r3 hne
    have h2 := hl (fun k => if k = e.1.key then 1 else 0)
    rw [hlin, show (1 : ℤ) - 1 = 0 from rfl, sub_self, lin_indicator, coef_of_mem he] at h2
    apply h1
    rw [he2]
    exact h2
  have hgx : 0 < g.highestTermX.xpow := by have := hg.deg.1; unfold Poly.deg at this; omega
  have hx : p17.highestTermX.xpow = 0 := by rw [highestTermX_of_nil hz]; rfl
  cases fuel with
  | zero => simp [Poly.gcd] at hm
  | succ fuel =>
    unfold Poly.gcd at hm
    dsimp only at hm
    rw [if_pos (by omega)] at hm
    cases fuel with
    | zero => simp [Poly.gcd] at hm
    | succ fuel =>
      unfold Poly.gcd at hm
      dsimp only at hm
      rw [if_neg (by omega)] at hm
      rw [polynomialModular_const hq hg.isX r1 (by unfold Poly.deg; omega) hg.deg.2 fuel] at hm
      cases hm

end

section
variable {K : Type} [Field K] [DecidableEq K] [IsAlgClosed K] {a b q : ℤ} [hp : Fact (Nat.Prime q.toNat)] [CharP K q.toNat]
  {p16 p17 g : Poly} {fuel : ℕ}

theorem ev_p16 (ha : 1 ≤ a) (hA : p16.All (fun k => k = yk (a - 1) ∨ k = yk 0))
    (hlin : ∀ φ : Key → K, p16.lin φ = φ (yk (a - 1)) - φ (yk 0)) (x y : K) : Ev x y p16 (y ^ (a - 1).toNat - 1) := by
  refine ⟨hA.mono ?_, ?_⟩
  · rintro k (rfl | rfl)
    · exact ⟨le_rfl, by simp only [yk]; omega, rfl, rfl⟩
    · exact ⟨le_rfl, le_rfl, rfl, rfl⟩
  · rw [hlin]
    simp [yk, Key.evalAt]

/-- `a` even: the greatest common divisor meets a polynomial with `y`. -/
theorem tail_even (ha : 1 ≤ a) (hev : a % 2 = 0) (h2 : (2 : K) ≠ 0) (hA : p16.All (fun k => k = yk (a - 1) ∨ k = yk 0))
    (hlin : ∀ φ : Key → K, p16.lin φ = φ (yk (a - 1)) - φ (yk 0))
    (h17 : p16.reductionModular a b q = .ok p17) {x y : K} (hxy : y ^ 2 = x ^ 3 + a * x + b) (hy : y ≠ 0)
    (g1 : Ev x y g 0) (g2 : Ev x (-y) g 0) (o : Bool) : p17.isGcdOne fuel g q ≠ .ok o := by
  have hq := two_le_of_prime (p := q) hp.out
  have hK := char_smulK (K := K) (q := q) (by omega)
  intro h
  obtain ⟨r, hr⟩ := isGcdOne_ok h
  have e1 := Ev.red (show 1 ≤ q by omega) hK hxy (ev_p16 ha hA hlin x y) h17
  have e2 := Ev.red (show 1 ≤ q by omega) hK (by rw [neg_sq]; exact hxy) (ev_p16 ha hA hlin x (-y)) h17
  refine (gcd_ev (show 1 ≤ q by omega) hK g1 g2 fuel p17 _ _ e1 e2 ?_ r).1 hr
  intro h0
  have hodd : Odd (a - 1).toNat := by
    rw [Nat.odd_iff]; omega
  rw [hodd.neg_pow] at h0
  have : 2 * y ^ (a - 1).toNat = 0 := by linear_combination h0
  exact mul_ne_zero h2 (pow_ne_zero _ hy) this

/-- `a` odd: the polynomial is `(x^3 + a x + b)^((a-1)/2) - 1`. -/
theorem tail_odd (ha : 3 ≤ a) (hev : a % 2 = 1) (hA : p16.All (fun k => k = yk (a - 1) ∨ k = yk 0))
    (hlin : ∀ φ : Key → K, p16.lin φ = φ (yk (a - 1)) - φ (yk 0))
    (h17 : p16.reductionModular a b q = .ok p17) :
    p17.All Key.IsX ∧ (∀ e ∈ p17.entries, e.1.xpow ≤ 2147483647) ∧ ¬ q ∣ p17.highestTermX.coef ∧ a ≤ 1431655765 ∧
    p17.polyX (ZMod q.toNat) = (X ^ 3 + C (a : ZMod q.toNat) * X + C (b : ZMod q.toNat)) ^ ((a - 1) / 2).toNat - 1 := by
  have hq := two_le_of_prime (p := q) hp.out
  have hK := char_smulK (K := K) (q := q) (by omega)
  let _ : Algebra (ZMod q.toNat) K := _root_.ZMod.algebra K q.toNat
  set m := ((a - 1) / 2).toNat with hm
  have hm2 : (a - 1).toNat = 2 * m := by omega
  have hB : p17.All (fun k => k.IsX ∧ k.x ≤ 2147483647) := by
    refine redMod_all (by omega) h17 hA ?_ ?_
    · rintro k (rfl | rfl) h
      · simp only [yk] at h; omega
      · exact ⟨⟨le_rfl, rfl, rfl, rfl⟩, by simp [yk]⟩
    · rintro k k' (rfl | rfl) h h1 h2
      · have h3 : (a - 1) % 2 = 0 := by omega
        obtain ⟨k1, k2, k3, k4⟩ := h1
        have h4 := h2.2.1
        have h5 : (yk (a - 1)).y = a - 1 := rfl
        refine ⟨⟨?_, ?_, ?_, ?_⟩, ?_⟩
        · simp [Key.mul, Key.setY, yk]; omega
        · simp [Key.mul, Key.setY, yk]; omega
        · simp [Key.mul, Key.setY, yk]; omega
        · simp [Key.mul, Key.setY, yk, k4]
        · exact h4.2
      · simp only [yk] at h; omega
  have hX : p17.All Key.IsX := hB.mono fun k hk => hk.1
  obtain ⟨-, -, r1, r2⟩ := C21_reduction_modular _ _ _ _ _ (by omega) h17
  have hpoly : p17.polyX (ZMod q.toNat) =
      (X ^ 3 + C (a : ZMod q.toNat) * X + C (b : ZMod q.toNat)) ^ m - 1 := by
    apply Polynomial.map_injective (algebraMap (ZMod q.toNat) K) (algebraMap (ZMod q.toNat) K).injective
    have : Infinite K := IsAlgClosed.instInfinite
    apply Polynomial.funext
    intro x
    obtain ⟨y, hy⟩ := IsAlgClosed.exists_pow_nat_eq (x ^ 3 + (a : K) * x + b) (show 0 < 2 by norm_num)
    have e1 := Ev.red (show 1 ≤ q by omega) hK hy (ev_p16 (by omega) hA hlin x y) h17
    have e2 : (p17.polyX (ZMod q.toNat)).map (algebraMap (ZMod q.toNat) K) = p17.polyX K := by
      ext n
      rw [coeff_map, polyX_coeff hX, polyX_coeff hX]
      simp
    have e3 : (p17.polyX K).eval x = p17.lin (Key.evalAt x y 0 0) := by
      unfold polyX
      rw [evalAt_eq_lin]
      have := map_lin ((Polynomial.evalRingHom x).toAddMonoidHom) (Key.evalAt (X : K[X]) 0 0 0) p17
      change (Polynomial.evalRingHom x) _ = _
      change (Polynomial.evalRingHom x) _ = _ at this
      rw [this]
      apply lin_congr_fun
      intro e he
      obtain ⟨h1, h2, h3, h4⟩ := hX e he
      simp [Key.evalAt, h2, h3, h4]
    rw [e2, e3, e1.2, hm2, pow_mul, hy]
    simp
  have hFd : (X ^ 3 + C (a : ZMod q.toNat) * X + C (b : ZMod q.toNat) : (ZMod q.toNat)[X]).natDegree = 3 := by
    compute_degree!
  have hm1 : 1 ≤ m := by omega
  have hdeg : (p17.polyX (ZMod q.toNat)).natDegree = 3 * m := by
    rw [hpoly, ← C_1, natDegree_sub_C, natDegree_pow, hFd, mul_comm]
  have hne : p17.entries ≠ [] := by
    intro h0
    rw [polyX_eq_zero_of_nil h0, natDegree_zero] at hdeg
    omega
  have hl := highest_coef_ne (p := q) (by omega) r2 r1 hne
  have hd := (polyX_natDegree hX hl).1
  have hdb : p17.deg ≤ 2147483647 := by
    obtain ⟨e, he, he2, -⟩ := highestTermX_of_ne hne
    have : e.1.xpow ≤ 2147483647 := (hB e he).2
    unfold Poly.deg
    rw [he2]
    simp only [Term.from', Term.xpow]
    omega
  refine ⟨hX, fun e he => (hB e he).2, ?_, by omega, hpoly⟩
  intro h0
  exact hl ((zmod_eq_zero_iff (show 0 ≤ q by omega) _).2 h0)

end
end EC
