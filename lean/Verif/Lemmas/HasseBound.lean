import Verif.Lemmas.Parallelogram

/-! Pure mathematics: Hasse's bound for the number of points of `y^2 = x^3 + a x + b` over a finite field of odd
characteristic (Manin's elementary argument). -/

namespace EC
open WeierstrassCurve EDS Polynomial

section
variable {F : Type} [Field F] [DecidableEq F] [Fintype F] {a b : F}

local notation "q" => Fintype.card F

/-- `∏ (x - r)` over a set. -/
noncomputable def lprod (s : Finset F) : F[X] := ∏ r ∈ s, (X - C r)

omit [DecidableEq F] [Fintype F] in
theorem lprod_natDegree (s : Finset F) : (lprod s).natDegree = s.card := natDegree_finset_prod_X_sub_C_eq_card s id

omit [DecidableEq F] [Fintype F] in
theorem lprod_ne (s : Finset F) : lprod s ≠ 0 := by
  unfold lprod
  exact Finset.prod_ne_zero_iff.2 fun r _ => X_sub_C_ne_zero r

omit [DecidableEq F] [Fintype F] in
theorem lprod_dvd {s : Finset F} {p : F[X]} (h : ∀ r ∈ s, p.eval r = 0) : lprod s ∣ p := by
  refine Finset.prod_dvd_of_coprime ?_ fun r hr => dvd_iff_isRoot.2 (h r hr)
  intro r _ t _ hrt
  exact pairwise_coprime_X_sub_C Function.injective_id hrt

omit [DecidableEq F] [Fintype F] in
theorem lprod_coprime {s : Finset F} {p : F[X]} (h : ∀ r ∈ s, p.eval r ≠ 0) : IsCoprime p (lprod s) := by
  refine IsCoprime.prod_right fun r hr => ?_
  refine IsCoprime.symm ((irreducible_X_sub_C r).coprime_iff_not_dvd.2 fun hd => h r hr ?_)
  exact dvd_iff_isRoot.1 hd

omit [DecidableEq F] in
theorem lprod_univ : lprod (Finset.univ : Finset F) = X ^ q - X := by
  have h1 : (X ^ q - X : F[X]).natDegree = q := FiniteField.X_pow_card_sub_X_natDegree_eq F Fintype.one_lt_card
  have hm : (X ^ q - X : F[X]).Monic := by
    refine monic_X_pow_sub ?_
    rw [degree_X]
    exact_mod_cast Fintype.one_lt_card
  have h2 := prod_multiset_X_sub_C_of_monic_of_roots_card_eq hm (by
    rw [FiniteField.roots_X_pow_card_sub_X, h1]; rfl)
  rw [FiniteField.roots_X_pow_card_sub_X] at h2
  rw [← h2]; rfl

/-- The set of `r` for which `f(r)` has quadratic character `c`. -/
def chSet (a b : F) (c : ℤ) : Finset F := Finset.univ.filter fun r => quadraticChar F (r ^ 3 + a * r + b) = c

theorem mem_chSet {c : ℤ} {r : F} : r ∈ chSet a b c ↔ quadraticChar F (r ^ 3 + a * r + b) = c := by
  simp [chSet]

omit [DecidableEq F] [Fintype F] in
theorem cubic_eval (r : F) : (cubic a b).eval r = r ^ 3 + a * r + b := by simp [cubic]

theorem chSet_split {M : Type*} [CommMonoid M] (g : F → M) :
    ∏ r, g r = (∏ r ∈ chSet a b 0, g r) * (∏ r ∈ chSet a b 1, g r) * ∏ r ∈ chSet a b (-1), g r := by
  rw [← Finset.prod_union, ← Finset.prod_union]
  · refine Finset.prod_congr ?_ fun _ _ => rfl
    ext r
    simp only [Finset.mem_univ, Finset.mem_union, mem_chSet, true_iff]
    have := quadraticChar_isQuadratic F (r ^ 3 + a * r + b)
    tauto
  · rw [Finset.disjoint_left]
    intro r
    simp only [Finset.mem_union, mem_chSet]
    rintro (h | h) <;> rw [h] <;> norm_num
  · rw [Finset.disjoint_left]
    intro r
    simp only [mem_chSet]
    rintro h; rw [h]; norm_num

theorem chSet_card : (chSet a b 0).card + (chSet a b 1).card + (chSet a b (-1)).card = q := by
  have := chSet_split (a := a) (b := b) (fun _ : F => Multiplicative.ofAdd 1)
  simp only [Finset.prod_const] at this
  have := congrArg Multiplicative.toAdd this
  simpa [Finset.card_univ] using this.symm

theorem chSet_sum : ∑ r : F, quadraticChar F (r ^ 3 + a * r + b) = (chSet a b 1).card - (chSet a b (-1)).card := by
  have := chSet_split (a := a) (b := b) (fun r : F => Multiplicative.ofAdd (quadraticChar F (r ^ 3 + a * r + b)))
  have := congrArg Multiplicative.toAdd this
  simp only [toAdd_prod, toAdd_mul, toAdd_ofAdd] at this
  rw [this, Finset.sum_congr rfl fun r hr => mem_chSet.1 hr, Finset.sum_congr rfl fun r hr => mem_chSet.1 hr,
    Finset.sum_congr rfl fun r hr => mem_chSet.1 hr]
  simp
  ring

variable (h2 : (2 : F) ≠ 0) (hd : 4 * a ^ 3 + 27 * b ^ 2 ≠ 0)

omit [DecidableEq F] [Fintype F] in
theorem ringChar_ne (h2 : (2 : F) ≠ 0) : ringChar F ≠ 2 := by
  intro h
  apply h2
  have := ringChar.Nat.cast_ringChar (R := F)
  rw [h] at this
  exact_mod_cast this

include h2 hd in
/-- The degree of `(f (f^m + 1)^2 - (x^q + x) (x^q - x)^2) / (x^q - x)^2`, `m = (q - 1) / 2`. -/
theorem ht_frob_sub_one {m : ℕ} (hm : q = 2 * m + 1) :
    (ht (algebraMap F[X] (RatFunc F) (cubic a b * (cubic a b ^ m + 1) ^ 2 - (X ^ q + X) * (X ^ q - X) ^ 2) /
      algebraMap F[X] (RatFunc F) ((X ^ q - X) ^ 2)) : ℤ) = Nat.card (Pt a b) := by
  have hm0 : 0 < m := by have := Fintype.one_lt_card (α := F); omega
  have hF := ringChar_ne h2
  have hm2 : q / 2 = m := by omega
  set Z0 := lprod (chSet a b 0) with hZ0
  set Zs := lprod (chSet a b 1) with hZs
  set Zn := lprod (chSet a b (-1)) with hZn
  have hz : ∀ r, quadraticChar F (r ^ 3 + a * r + b) = 0 ↔ r ^ 3 + a * r + b = 0 := fun r => quadraticChar_eq_zero_iff
  have hpow : ∀ r, ((quadraticChar F (r ^ 3 + a * r + b) : ℤ) : F) = (r ^ 3 + a * r + b) ^ m := fun r => by
    rw [← hm2]; exact quadraticChar_eq_pow_of_char_ne_two' hF _
  have hXq : X ^ q - X = Z0 * Zs * Zn := by
    rw [← lprod_univ]; exact chSet_split _
  obtain ⟨c', hc⟩ : Z0 ∣ cubic a b := lprod_dvd fun r hr => by
    rw [cubic_eval]; exact (hz r).1 (mem_chSet.1 hr)
  obtain ⟨h', hh⟩ : Zn ∣ cubic a b ^ m + 1 := lprod_dvd fun r hr => by
    rw [eval_add, eval_pow, eval_one, cubic_eval, ← hpow, mem_chSet.1 hr]; simp
  set M := cubic a b * (cubic a b ^ m + 1) ^ 2 - (X ^ q + X) * (X ^ q - X) ^ 2 with hM
  set M' := c' * h' ^ 2 - (X ^ q + X) * (Z0 * Zs ^ 2) with hM'
  have n0 := lprod_ne (chSet a b 0)
  have n1 := lprod_ne (chSet a b 1)
  have n2 := lprod_ne (chSet a b (-1))
  rw [← hZ0] at n0
  rw [← hZs] at n1
  rw [← hZn] at n2
  have e1 : M = Z0 * Zn ^ 2 * M' := by
    rw [hM, hM', hXq, hh]
    conv_lhs => rw [hc]
    ring
  have e2 : (X ^ q - X : F[X]) ^ 2 = Z0 * Zn ^ 2 * (Z0 * Zs ^ 2) := by rw [hXq]; ring
  have nZ : Z0 * Zn ^ 2 ≠ 0 := mul_ne_zero n0 (pow_ne_zero _ n2)
  have nD : Z0 * Zs ^ 2 ≠ 0 := mul_ne_zero n0 (pow_ne_zero _ n1)
  have inj := RatFunc.algebraMap_injective F
  have e3 : algebraMap F[X] (RatFunc F) M / algebraMap F[X] (RatFunc F) ((X ^ q - X) ^ 2) =
      algebraMap F[X] (RatFunc F) M' / algebraMap F[X] (RatFunc F) (Z0 * Zs ^ 2) := by
    rw [e1, e2, map_mul, map_mul (algebraMap F[X] (RatFunc F)) (Z0 * Zn ^ 2) (Z0 * Zs ^ 2), mul_div_mul_left]
    rwa [Ne, map_eq_zero_iff _ inj]
  -- roots
  have r0 : ∀ r ∈ chSet a b 0, c'.eval r ≠ 0 := by
    intro r hr h0
    have hr0 := (hz r).1 (mem_chSet.1 hr)
    have e : (derivative (cubic a b)).eval r = 0 := by
      rw [hc, derivative_mul, eval_add, eval_mul, eval_mul, h0, mul_zero, zero_add]
      have : Z0.eval r = 0 := by
        rw [hZ0, lprod, eval_prod]
        exact Finset.prod_eq_zero hr (by simp)
      rw [this, zero_mul]
    have e' : 3 * r ^ 2 + a = 0 := by
      have : (derivative (cubic a b)).eval r = 3 * r ^ 2 + a := by
        simp only [cubic, derivative_add, derivative_X_pow, derivative_C_mul, derivative_X, derivative_C, eval_add, eval_mul, eval_pow,
          eval_X, eval_C, eval_one, eval_zero, Nat.cast_ofNat]
        ring
      rw [← this]; exact e
    apply hd
    linear_combination (6 * a * r ^ 2 - 9 * b * r + 4 * a ^ 2) * e' - (18 * a * r - 27 * b) * hr0
  have r1 : ∀ r ∈ chSet a b 1, c'.eval r ≠ 0 := by
    intro r hr h0
    have : (cubic a b).eval r = 0 := by rw [hc, eval_mul, h0, mul_zero]
    rw [cubic_eval, ← hz, mem_chSet.1 hr] at this
    norm_num at this
  have r2 : ∀ r, r ∈ chSet a b 0 ∨ r ∈ chSet a b 1 → h'.eval r ≠ 0 := by
    intro r hr h0
    have : (cubic a b ^ m + 1).eval r = 0 := by rw [hh, eval_mul, h0, mul_zero]
    rw [eval_add, eval_pow, eval_one, cubic_eval, ← hpow] at this
    rcases hr with hr | hr
    · rw [mem_chSet.1 hr] at this; norm_num at this
    · rw [mem_chSet.1 hr] at this
      apply h2
      rw [← this]; norm_num
  have co : IsCoprime M' (Z0 * Zs ^ 2) := by
    rw [hM']
    have k : IsCoprime (c' * h' ^ 2) (Z0 * Zs ^ 2) := by
      refine IsCoprime.mul_left (IsCoprime.mul_right (lprod_coprime r0) (IsCoprime.pow_right (lprod_coprime r1)))
        (IsCoprime.pow_left (IsCoprime.mul_right (lprod_coprime fun r hr => r2 r (.inl hr))
          (IsCoprime.pow_right (lprod_coprime fun r hr => r2 r (.inr hr)))))
    have := k.add_mul_right_left (-(X ^ q + X))
    rwa [neg_mul, ← sub_eq_add_neg] at this
  -- degrees
  have dM : M.natDegree = 2 * q + 1 := by
    have fq : cubic a b ^ q = X ^ (3 * q) + C a * X ^ q + C b := by
      rw [← FiniteField.expand_card]
      unfold cubic
      simp only [map_add, map_mul, map_pow, expand_X, expand_C]
      ring
    have eM : M = X ^ (2 * q + 1) + (X ^ (q + 2) + C a * X ^ q + C a * X + C (2 * b) + 2 * cubic a b ^ (m + 1)) := by
      have : cubic a b * (cubic a b ^ m + 1) ^ 2 = cubic a b ^ q + 2 * cubic a b ^ (m + 1) + cubic a b := by
        rw [hm]; ring
      rw [hM, this, fq]
      have : C (2 * b) = C b + C b := by rw [← C_add]; congr 1; ring
      rw [this]
      conv_lhs => rw [show ∀ A B D E G H : F[X], A + B + D + E + G - H = A + B + D + E - H + G by intros; ring]
      unfold cubic
      ring
    have hq3 : 3 ≤ q := by omega
    have low : (X ^ (q + 2) + C a * X ^ q + C a * X + C (2 * b) + 2 * cubic a b ^ (m + 1)).natDegree ≤ 2 * q := by
      refine (natDegree_add_le_of_le (natDegree_add_le_of_le (natDegree_add_le_of_le (natDegree_add_le_of_le
        (natDegree_X_pow_le _) (natDegree_C_mul_X_pow_le _ _)) ((natDegree_C_mul_le _ _).trans natDegree_X_le)) (natDegree_C _).le)
        (natDegree_mul_le_of_le (natDegree_ofNat 2).le (natDegree_pow_le_of_le _ (cubic_natDegree a b).le))).trans ?_
      simp only [max_le_iff]
      omega
    rw [eM, natDegree_add_eq_left_of_natDegree_lt, natDegree_X_pow]
    rw [natDegree_X_pow]; omega
  have nM' : M' ≠ 0 := by
    intro h0
    rw [e1, h0, mul_zero, natDegree_zero] at dM
    omega
  have dM' : (Z0 * Zn ^ 2 * M').natDegree = 2 * q + 1 := by rw [← e1, dM]
  rw [natDegree_mul nZ nM', natDegree_mul n0 (pow_ne_zero _ n2), natDegree_pow, hZ0, hZn, lprod_natDegree,
    lprod_natDegree] at dM'
  have dD : (Z0 * Zs ^ 2).natDegree = (chSet a b 0).card + 2 * (chSet a b 1).card := by
    rw [natDegree_mul n0 (pow_ne_zero _ n1), natDegree_pow, hZ0, hZs, lprod_natDegree, lprod_natDegree]
  have hcard := chSet_card (a := a) (b := b)
  rw [e3, ht_div co nD, dD, card_points hF hd, chSet_sum]
  rw [max_eq_left (by omega)]
  omega

end
end EC
