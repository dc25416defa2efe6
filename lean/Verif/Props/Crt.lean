import Verif.Props.BigInt

/-! Property C97: `extended_gcd` and `chinese_remainder` for arbitrary input: the size of the Bezout coefficients, what
is returned for moduli that are not coprime, and independence of the order of the congruences. -/

namespace EC

/-- C97: the Bezout coefficients returned by `extended_gcd(a,b)` are small: `|x| ≤ max(|b|/|g|, 1)` and
`|y| ≤ max(|a|/|g|, 1)`. -/
theorem C97_bezout_bound (a b g x y : ℤ) (h : extendedGcd a b = (g, x, y)) :
    |x * g| ≤ max |b| |g| ∧ |y * g| ≤ max |a| |g| := by
  have key : ∀ a b : ℤ, |(extendedGcd a b).2.1 * (extendedGcd a b).1| ≤ max |b| |(extendedGcd a b).1| ∧
      |(extendedGcd a b).2.2 * (extendedGcd a b).1| ≤ max |a| |(extendedGcd a b).1| := by
    intro a b
    fun_induction extendedGcd a b with
    | case1 b => simp
    | case2 a b h r q g x y heq ih =>
      have hs := extendedGcd_spec r a
      simp only [heq] at ih hs
      obtain ⟨i1, i2⟩ := ih
      simp only
      have hga : |g| ≤ |a| := by
        have hd : g ∣ a := by
          rw [← Int.natAbs_dvd, hs.2.1]
          exact Int.gcd_dvd_right _ _
        exact Int.le_of_dvd (abs_pos.2 h) ((abs_dvd_abs _ _).2 hd)
      rw [max_eq_left hga] at i1
      refine ⟨?_, i1.trans (le_max_left _ _)⟩
      by_cases hr : r = 0
      · rw [hr, extendedGcd, if_pos rfl] at heq
        cases heq
        simp
      · have hgr : |g| ≤ |r| := by
          have hd : g ∣ r := by
            rw [← Int.natAbs_dvd, hs.2.1]
            exact Int.gcd_dvd_left _ _
          exact Int.le_of_dvd (abs_pos.2 hr) ((abs_dvd_abs _ _).2 hd)
        rw [max_eq_left hgr] at i2
        have hb : |b| = |q| * |a| + |r| := by
          have e1 : q.natAbs = b.natAbs / a.natAbs := Int.natAbs_tdiv b a
          have e2 : r.natAbs = b.natAbs % a.natAbs := Int.natAbs_tmod b a
          rw [Int.abs_eq_natAbs, Int.abs_eq_natAbs, Int.abs_eq_natAbs, Int.abs_eq_natAbs, e1, e2]
          have := Nat.div_add_mod b.natAbs a.natAbs
          rw [mul_comm] at this
          exact_mod_cast this.symm
        calc |(y - q * x) * g| = |y * g - q * (x * g)| := by ring_nf
          _ ≤ |y * g| + |q * (x * g)| := abs_sub _ _
          _ ≤ |r| + |q| * |a| := by
            rw [abs_mul q]
            exact add_le_add i2 (mul_le_mul_of_nonneg_left i1 (abs_nonneg _))
          _ = |b| := by rw [hb]; ring
          _ ≤ _ := le_max_left _ _
  have := key a b
  rw [h] at this
  exact this

example : extendedGcd 240 46 = (2, -9, 47) ∧ |(-9 : ℤ) * 2| ≤ max |46| |2| ∧ |(47 : ℤ) * 2| ≤ max |240| |2| := by
  decide +kernel

theorem crt_append (rs : List ModResult) (s : ModResult) :
    chineseRemainder (rs ++ [s]) = crtStep (chineseRemainder rs) s := by
  simp [chineseRemainder, List.foldl_append]

/-- C97: the modulus of the result is the product of the given moduli, whatever they are. -/
theorem C97_modulus (rs : List ModResult) : (chineseRemainder rs).l = (rs.map (·.l)).prod := by
  induction rs using List.reverseRecOn with
  | nil => rfl
  | append_singleton rs s ih =>
    rw [crt_append, crtStep_l, ih]
    simp

/-- C97: one congruence is returned unchanged, no congruence gives `1 mod 1`. -/
theorem C97_short (s : ModResult) : chineseRemainder [] = ⟨1, 1⟩ ∧ chineseRemainder [s] = s := by
  refine ⟨rfl, ?_⟩
  have h : (extendedGcd 1 s.l).2.1 = 1 := by
    rw [extendedGcd, if_neg one_ne_zero]
    simp only [Int.tmod_one]
    rw [extendedGcd, if_pos rfl]
    simp
  show crtStep ⟨1, 1⟩ s = s
  rcases s with ⟨l, r⟩
  simp only at h
  simp [crtStep, h]

/-- C97: the effect of the last congruence, for arbitrary moduli: the residue so far is kept modulo the modulus so far,
and is changed by `g` times the difference modulo the new modulus, where `g` is the first component of
`extended_gcd`. -/
theorem C97_last (rs : List ModResult) (s : ModResult) :
    (chineseRemainder (rs ++ [s])).r ≡ (chineseRemainder rs).r [ZMOD (chineseRemainder rs).l] ∧
    (chineseRemainder (rs ++ [s])).r ≡ (chineseRemainder rs).r +
      (s.r - (chineseRemainder rs).r) * (extendedGcd (chineseRemainder rs).l s.l).1 [ZMOD s.l] := by
  rw [crt_append]
  generalize chineseRemainder rs = acc
  have hb := (extendedGcd_spec acc.l s.l).1
  refine ⟨?_, ?_⟩
  · rw [Int.modEq_iff_dvd]
    exact ⟨-((s.r - acc.r) * (extendedGcd acc.l s.l).2.1), by simp only [crtStep]; ring⟩
  · rw [Int.modEq_iff_dvd]
    refine ⟨(s.r - acc.r) * (extendedGcd acc.l s.l).2.2, ?_⟩
    simp only [crtStep]
    linear_combination -(s.r - acc.r) * hb

/-- C97: two congruences with non-negative moduli: the first is always satisfied, the second exactly when its modulus
divides `(t.r - s.r)(gcd - 1)`. -/
theorem C97_pair (s t : ModResult) (hs : 0 ≤ s.l) (ht : 0 ≤ t.l) :
    (chineseRemainder [s, t]).r ≡ s.r [ZMOD s.l] ∧
    ((chineseRemainder [s, t]).r ≡ t.r [ZMOD t.l] ↔ t.l ∣ (t.r - s.r) * ((Int.gcd s.l t.l : ℤ) - 1)) := by
  have h := C97_last [s] t
  rw [(C97_short s).2] at h
  obtain ⟨h1, h2⟩ := h
  have hg : (extendedGcd s.l t.l).1 = Int.gcd s.l t.l := (C04_extended_gcd s.l t.l _ _ _ rfl).2.2 hs ht
  rw [hg] at h2
  refine ⟨h1, ?_⟩
  have e : (t.r - s.r) * ((Int.gcd s.l t.l : ℤ) - 1) = s.r + (t.r - s.r) * (Int.gcd s.l t.l : ℤ) - t.r := by ring
  rw [e]
  constructor
  · intro h3
    exact Int.modEq_iff_dvd.1 (h3.symm.trans h2)
  · intro h3
    exact h2.trans (Int.modEq_iff_dvd.2 h3).symm

/-- C97: consequently the answer can fail to satisfy a solvable system: `x ≡ 0 mod 4`, `x ≡ 2 mod 6` has the solution 8,
but the answer is not 2 modulo 6. -/
theorem C97_not_coprime_refuted : ∃ s t : ModResult, 0 < s.l ∧ 0 < t.l ∧
    (∃ x : ℤ, x ≡ s.r [ZMOD s.l] ∧ x ≡ t.r [ZMOD t.l]) ∧ ¬ (chineseRemainder [s, t]).r ≡ t.r [ZMOD t.l] := by
  refine ⟨⟨4, 0⟩, ⟨6, 2⟩, by norm_num, by norm_num, ⟨8, by decide, by decide⟩, ?_⟩
  rw [(C97_pair ⟨4, 0⟩ ⟨6, 2⟩ (by norm_num) (by norm_num)).2]
  decide

/-- C97: for positive pairwise coprime moduli the order of the congruences does not matter. -/
theorem C97_order (rs rs' : List ModResult) (hp : rs.Perm rs') (hpos : ∀ s ∈ rs, 0 < s.l)
    (hpw : rs.Pairwise (fun s t => IsCoprime s.l t.l)) :
    (chineseRemainder rs').l = (chineseRemainder rs).l ∧
    (chineseRemainder rs').r ≡ (chineseRemainder rs).r [ZMOD (chineseRemainder rs).l] := by
  have hpos' : ∀ s ∈ rs', 0 < s.l := fun s hs => hpos s (hp.mem_iff.2 hs)
  have hpw' := (hp.pairwise_iff (fun {s t} h => h.symm)).1 hpw
  refine ⟨?_, ?_⟩
  · rw [C97_modulus, C97_modulus]
    exact ((hp.map _).prod_eq).symm
  · refine (C05_chinese_remainder rs hpos hpw).2.2 _ fun s hs => ?_
    exact (C05_chinese_remainder rs' hpos' hpw').2.1 s (hp.mem_iff.1 hs)

/-- The hypotheses of `C97_order` are met; the residues differ (though not modulo 30). -/
example : (chineseRemainder [⟨2, 1⟩, ⟨3, 2⟩, ⟨5, 3⟩]).r = 23 ∧ (chineseRemainder [⟨5, 3⟩, ⟨3, 2⟩, ⟨2, 1⟩]).r = -97 ∧
    [(⟨2, 1⟩ : ModResult), ⟨3, 2⟩, ⟨5, 3⟩].Pairwise (fun s t => IsCoprime s.l t.l) := by
  refine ⟨by decide +kernel, by decide +kernel, ?_⟩
  simp only [List.pairwise_cons, List.mem_cons, List.not_mem_nil, or_false, forall_eq_or_imp, forall_eq,
    Int.isCoprime_iff_gcd_eq_one]
  simp
  decide

end EC
