import Verif.Lemmas.BigInt
import Verif.Lemmas.Irange
import Verif.Model.QSeries
import Mathlib.NumberTheory.ArithmeticFunction.Misc

/-! Properties C01–C06: `bigint.rs` and `divisor.rs`. -/

namespace EC

/-! ### C01 -/

/-- C01.  `x.power(n)` is `x^n` for every `n ≥ 0`. -/
theorem C01_power_eq_pow (x : Int) (n : Nat) : power x n = x ^ n := by
  simpa using power_eq_pow x n (by omega)

/-- C01, negative exponents: the base is returned unchanged. -/
theorem C01_power_neg (x n : Int) (hn : n < 0) : power x n = x := power_neg x n hn

example : power (-3) 5 = -243 := by decide +kernel

/-! ### C02 -/

/-- C02.  For a positive modulus and exponent at least 1 the result is the residue of `x^n` in `[0, p)`. -/
theorem C02_power_modulo (x p : Int) (n : Nat) (hn : 1 ≤ n) (hp : 1 ≤ p) :
    ∃ r, powerModulo x n p = .ok r ∧ 0 ≤ r ∧ r < p ∧ r ≡ x ^ n [ZMOD p] :=
  ⟨_, powerModulo_pos x n p (by omega) (by omega), Int.emod_nonneg _ (by omega),
    Int.emod_lt_of_pos _ (by omega), by simpa using Int.mod_modEq (x ^ n) p⟩

example : powerModulo 3 100 7 = .ok 4 := by decide +kernel

/-- C02, exponent 0: `1` is returned whatever the modulus. -/
theorem C02_power_modulo_zero (x p : Int) : powerModulo x 0 p = .ok 1 := rfl

/-- C02: the full claim "the result is always the canonical residue" fails for `n = 0`, `p = 1`. -/
theorem C02_power_modulo_refuted :
    ¬ ∀ (x p : Int) (n : Nat), 1 ≤ p → ∃ r, powerModulo x n p = .ok r ∧ 0 ≤ r ∧ r < p ∧ r ≡ x ^ n [ZMOD p] := by
  intro h
  obtain ⟨r, h1, -, h3, -⟩ := h 5 1 0 (by norm_num)
  have : r = 1 := by simpa [powerModulo] using h1.symm
  omega

/-- C02: it panics exactly for modulus 0 with a non-zero exponent. -/
theorem C02_power_modulo_panics (x n p : Int) :
    (∃ w, powerModulo x n p = .panic w) ↔ p = 0 ∧ n ≠ 0 := by
  constructor
  · rintro ⟨w, h⟩
    by_contra hcon
    rcases eq_or_ne n 0 with rfl | hn
    · simp [powerModulo] at h
    · have hp : p ≠ 0 := fun h0 => hcon ⟨h0, hn⟩
      have : ∀ e b r, ∃ v, powModLoop p e b r = .ok v := by
        intro e
        induction hm : e.toNat using Nat.strong_induction_on generalizing e with
        | _ m ih =>
          intro b r
          rw [powModLoop]
          by_cases h1 : e > 1
          · have h2 : e.tdiv 2 = e / 2 := Int.tdiv_eq_ediv_of_nonneg (by omega)
            simp only [h1, if_true, modFloor_of hp, h2]
            obtain ⟨v1, hv1⟩ := ih (e / 2).toNat (by omega) (e / 2) rfl (Int.fmod (b * b) p)
              (Int.fmod (r * b) p)
            obtain ⟨v2, hv2⟩ := ih (e / 2).toNat (by omega) (e / 2) rfl (Int.fmod (b * b) p) r
            split_ifs
            · exact ⟨v1, by simpa using hv1⟩
            · exact ⟨v2, by simpa using hv2⟩
          · exact ⟨_, by simp [h1, modFloor_of hp]; rfl⟩
      obtain ⟨v, hv⟩ := this n x 1
      simp [powerModulo, hn, hv] at h
  · rintro ⟨rfl, hn⟩
    exact ⟨_, by simp only [powerModulo, hn, if_false]; exact powModLoop_zero _ _ _⟩

/-! ### C03 -/

/-- C03.  For a prime `p` and `a` not divisible by `p`, `inverse` returns the unique `r ∈ [0, p)` with
`a r ≡ 1 (mod p)`. -/
theorem C03_inverse (a p : Int) (hp : Nat.Prime p.toNat) (ha : ¬ p ∣ a) :
    ∃ r, inverse a p = .ok r ∧ 0 ≤ r ∧ r < p ∧ a * r ≡ 1 [ZMOD p] ∧
      ∀ s, 0 ≤ s → s < p → a * s ≡ 1 [ZMOD p] → s = r := by
  have hp2 := hp.two_le
  have : Fact (Nat.Prime p.toNat) := ⟨hp⟩
  have hpc : ((p.toNat : ℕ) : Int) = p := by omega
  have ha0 : (a : ZMod p.toNat) ≠ 0 := by
    rw [Ne, ZMod.intCast_zmod_eq_zero_iff_dvd, hpc]; exact ha
  obtain ⟨r, h1, h2, h3, -, h5⟩ := inverse_spec a p hp
  have h6 := h5 (Or.inl ha0)
  have key : ∀ s : Int, a * s ≡ 1 [ZMOD p] ↔ (s : ZMod p.toNat) = (a : ZMod p.toNat)⁻¹ := by
    intro s
    rw [← zmod_eq_iff (by omega)]
    push_cast
    rw [eq_comm, ← inv_mul_eq_iff_eq_mul₀ ha0, mul_one, eq_comm]
  refine ⟨r, h1, h2, h3, (key r).2 h6, fun s hs0 hs1 hs => ?_⟩
  have : (s : ZMod p.toNat) = r := by rw [(key s).1 hs, h6]
  rw [ZMod.intCast_eq_intCast_iff, hpc] at this
  have h := this.eq
  rwa [Int.emod_eq_of_lt hs0 hs1, Int.emod_eq_of_lt h2 h3] at h

example : Nat.Prime (19 : Int).toNat ∧ ¬ (19 : Int) ∣ 3 ∧ inverse 3 19 = .ok 13 :=
  ⟨by show Nat.Prime 19; norm_num, by decide, by decide +kernel⟩

/-- C03: `inverse` panics exactly for `p < 2`. -/
theorem C03_inverse_panics (a p : Int) : (∃ w, inverse a p = .panic w) ↔ p < 2 := by
  constructor
  · rintro ⟨w, h⟩
    by_contra hp
    rw [inverse_eq a p (by omega)] at h
    simp at h
  · exact fun h => ⟨_, inverse_lt_two a p h⟩

/-- C03: what is returned when `p` divides `a`: `0` for odd `p`, `1` for `p = 2` (no panic). -/
theorem C03_inverse_of_dvd (a p : Int) (hp : Nat.Prime p.toNat) (ha : p ∣ a) :
    inverse a p = .ok (if p = 2 then 1 else 0) := by
  have hp2 := hp.two_le
  obtain ⟨r, h1, h2, h3, h4, h5⟩ := inverse_spec a p hp
  rw [h1]
  congr 1
  split_ifs with h
  · exact h4 h
  · have : Fact (Nat.Prime p.toNat) := ⟨hp⟩
    have hpc : ((p.toNat : ℕ) : Int) = p := by omega
    have ha0 : (a : ZMod p.toNat) = 0 := by
      rw [ZMod.intCast_zmod_eq_zero_iff_dvd, hpc]; exact ha
    have h6 := h5 (Or.inr h)
    rw [ha0, inv_zero, ZMod.intCast_zmod_eq_zero_iff_dvd, hpc] at h6
    exact Int.eq_zero_of_dvd_of_nonneg_of_lt h2 h3 h6

/-! ### C04 -/

/-- C04.  `extended_gcd` returns a Bézout identity with `|g| = gcd(a, b)`, and `g = gcd(a, b)` for non-negative
inputs.  (Termination is the totality of the model's well-founded recursion.) -/
theorem C04_extended_gcd (a b g x y : Int) (h : extendedGcd a b = (g, x, y)) :
    a * x + b * y = g ∧ g.natAbs = Int.gcd a b ∧ (0 ≤ a → 0 ≤ b → g = Int.gcd a b) := by
  obtain ⟨h1, h2, h3⟩ := extendedGcd_spec a b
  rw [h] at h1 h2 h3
  refine ⟨h1, h2, fun ha hb => ?_⟩
  have := h3 ha hb
  simp only at this h2
  omega

example : extendedGcd 240 46 = (2, -9, 47) := by decide +kernel

/-! ### C05 -/

/-- C05.  For pairwise coprime positive moduli: the modulus returned is the product, the residue returned satisfies
every congruence, and it is the only such residue modulo the product. -/
theorem C05_chinese_remainder (rs : List ModResult)
    (hpos : ∀ s ∈ rs, 0 < s.l) (hpw : rs.Pairwise (fun s t => IsCoprime s.l t.l)) :
    (chineseRemainder rs).l = (rs.map (·.l)).prod ∧
    (∀ s ∈ rs, (chineseRemainder rs).r ≡ s.r [ZMOD s.l]) ∧
    ∀ r', (∀ s ∈ rs, r' ≡ s.r [ZMOD s.l]) → r' ≡ (chineseRemainder rs).r [ZMOD (chineseRemainder rs).l] := by
  obtain ⟨h1, -, h3⟩ := foldl_crtStep rs { l := 1, r := 1 } hpw
    (fun s _ => isCoprime_one_left) hpos (by norm_num)
  have hl : (chineseRemainder rs).l = (rs.map (·.l)).prod := by simpa [chineseRemainder] using h1
  refine ⟨hl, h3, fun r' hr' => ?_⟩
  rw [hl, Int.modEq_iff_dvd]
  have hd : ∀ s ∈ rs, s.l ∣ (chineseRemainder rs).r - r' := fun s hs =>
    Int.modEq_iff_dvd.1 ((hr' s hs).trans (h3 s hs).symm)
  clear h1 h3 hl hr' hpos
  generalize (chineseRemainder rs).r - r' = d at hd
  induction rs with
  | nil => simp
  | cons s t ih =>
    rw [List.pairwise_cons] at hpw
    simp only [List.map_cons, List.prod_cons]
    refine IsCoprime.mul_dvd ?_ (hd s (by simp)) (ih hpw.2 (fun u hu => hd u (by simp [hu])))
    have : ∀ t' : List ModResult, (∀ u ∈ t', IsCoprime s.l u.l) → IsCoprime s.l (t'.map (·.l)).prod := by
      intro t'
      induction t' with
      | nil => intro _; simpa using isCoprime_one_right
      | cons u t'' ih' =>
        intro h
        simp only [List.map_cons, List.prod_cons]
        exact (h u (by simp)).mul_right (ih' (fun v hv => h v (by simp [hv])))
    exact this t hpw.1

/-- The hypotheses of C05 are met by the repository's own example; the residue returned may be negative. -/
example : (∀ s ∈ [ModResult.mk 3 2, ⟨5, 3⟩, ⟨7, 2⟩], 0 < s.l) ∧
    [ModResult.mk 3 2, ⟨5, 3⟩, ⟨7, 2⟩].Pairwise (fun s t => IsCoprime s.l t.l) ∧
    chineseRemainder [⟨3, 2⟩, ⟨5, 3⟩, ⟨7, 2⟩] = ⟨105, -82⟩ := by
  refine ⟨by decide, ?_, by decide +kernel⟩
  simp [Int.isCoprime_iff_gcd_eq_one]; decide

/-! ### C06 -/

/-- C06.  For `n ≥ 1` with `n + 1` representable and `k ≥ 0`, `sigma_divisor(n, k)` is `σ_k(n)`. -/
theorem C06_sigma_divisor (n k : Nat) (hn : 1 ≤ n) (hb : n < 2147483647) :
    sigmaDivisor n k = .ok (ArithmeticFunction.sigma k n : Nat) := by
  have hchk : chk ((n : Int) + 1) = .ok (n + 1) := chk_of ⟨by omega, by omega⟩
  unfold sigmaDivisor
  rw [if_neg (by omega), if_neg (by omega), hchk, Res.ok_bind]
  refine congrArg Res.ok ?_
  have hfold : ∀ (l : List Int) (s : Int),
      l.foldl (fun sum i => if (n : Int).tmod i = 0 then sum + power i k else sum) s
        = s + (l.map (fun i => if (n : Int).tmod i = 0 then power i k else 0)).sum := by
    intro l
    induction l with
    | nil => simp
    | cons a t ih =>
      intro s
      simp only [List.foldl_cons, List.map_cons, List.sum_cons]
      rw [ih]; split_ifs <;> ring
  rw [hfold, ArithmeticFunction.sigma_apply, zero_add, sum_irange_one]
  rw [Nat.divisors, Finset.sum_filter, Finset.sum_Ico_eq_sum_range]
  simp only [Nat.add_sub_cancel, Nat.cast_sum]
  refine Finset.sum_congr rfl fun j _ => ?_
  rw [C01_power_eq_pow, add_comm 1 j]
  have : (n : Int).tmod ((j + 1 : Nat) : Int) = ((n % (j + 1) : Nat) : Int) := rfl
  rw [this]
  by_cases hd : (j + 1) ∣ n
  · simp [hd, Nat.mod_eq_zero_of_dvd hd]
  · have : n % (j + 1) ≠ 0 := fun h => hd (Nat.dvd_of_mod_eq_zero h)
    rw [if_neg (by exact_mod_cast this), if_neg hd]; rfl

example : sigmaDivisor 12 3 = .ok 2044 := by decide +kernel

/-- C06: zero for `n ≤ 0` or `k < 0`. -/
theorem C06_sigma_divisor_nonpos (n k : Int) (h : n ≤ 0 ∨ k < 0) : sigmaDivisor n k = .ok 0 := by
  unfold sigmaDivisor
  by_cases hk : k < 0
  · simp [hk]
  · by_cases hn : n < 0
    · simp [hk, hn]
    · have : n = 0 := by omega
      subst this
      simp [hk, chk, InI32, irange]

/-- C06, the excluded point: `n = 2^31 - 1` overflows. -/
theorem C06_sigma_divisor_max (k : Int) (hk : 0 ≤ k) : sigmaDivisor 2147483647 k = .panic .overflow := by
  unfold sigmaDivisor
  rw [if_neg (by omega), if_neg (by omega)]
  rfl

end EC
