import Verif.Props.SchoofTrace
import Mathlib.NumberTheory.LegendreSymbol.QuadraticChar.Basic
import Mathlib.FieldTheory.IsAlgClosed.AlgebraicClosure

/-! The action of Frobenius on the 3-torsion of a curve over GF(q), `q = 2` modulo 3, without rational roots of the
third division polynomial. -/

namespace EC
open Polynomial WeierstrassCurve EDS

/-- An element fixed by the `p`-th power map is in the prime field. -/
theorem mem_prime_field {p : ℕ} [Fact p.Prime] {K : Type*} [Field K] [Algebra (ZMod p) K] {s : K} (h : s ^ p = s) :
    ∃ z : ZMod p, algebraMap (ZMod p) K z = s := by
  have hdeg : (X ^ p - X : (ZMod p)[X]) = ∏ z : ZMod p, (X - C z) := by
    have h1 := FiniteField.roots_X_pow_card_sub_X (ZMod p)
    rw [ZMod.card] at h1
    have hp := (Fact.out : p.Prime).one_lt
    have hm : (X ^ p - X : (ZMod p)[X]).Monic := by
      apply monic_X_pow_sub
      rw [degree_X]; exact_mod_cast hp
    have hnat : (X ^ p - X : (ZMod p)[X]).natDegree = p := FiniteField.X_pow_card_sub_X_natDegree_eq _ hp
    have h2 := prod_multiset_X_sub_C_of_monic_of_roots_card_eq hm (by
      rw [h1, hnat, ← Finset.card_def, Finset.card_univ, ZMod.card])
    rw [h1] at h2
    exact h2.symm
  have h3 := congrArg (fun f => eval₂ (algebraMap (ZMod p) K) s f) hdeg
  simp only [eval₂_sub, eval₂_pow, eval₂_X, h, sub_self, eval₂_finset_prod, eval₂_C] at h3
  obtain ⟨z, -, hz⟩ := Finset.prod_eq_zero_iff.1 h3.symm
  exact ⟨z, (sub_eq_zero.1 hz).symm⟩

/-- `-3` is not a square modulo a prime `p = 2` modulo 3. -/
theorem neg_three_not_square {p : ℕ} [Fact p.Prime] (h3 : p % 3 = 2) (h2 : p ≠ 2) : ¬ IsSquare (-3 : ZMod p) := by
  rintro ⟨u, hu⟩
  have hp : p.Prime := Fact.out
  have two : (2 : ZMod p) ≠ 0 := by
    intro h0
    have : ((2 : ℕ) : ZMod p) = 0 := by exact_mod_cast h0
    rw [ZMod.natCast_eq_zero_iff] at this
    exact h2 ((Nat.prime_dvd_prime_iff_eq hp Nat.prime_two).1 this)
  have three : (3 : ZMod p) ≠ 0 := by
    intro h0
    have : ((3 : ℕ) : ZMod p) = 0 := by exact_mod_cast h0
    rw [ZMod.natCast_eq_zero_iff] at this
    have := (Nat.prime_dvd_prime_iff_eq hp Nat.prime_three).1 this
    omega
  set w : ZMod p := (-1 + u) / 2 with hw
  have hw2 : w ^ 2 + w + 1 = 0 := by
    rw [hw]; field_simp; linear_combination -hu
  have hw3 : w ^ 3 = 1 := by linear_combination (w - 1) * hw2
  have hw1 : w ≠ 1 := by
    intro h; rw [h] at hw2; apply three; linear_combination hw2
  have hw0 : w ≠ 0 := by
    intro h; rw [h] at hw2; simp at hw2
  have hord : orderOf w = 3 := orderOf_eq_prime hw3 hw1
  have := orderOf_dvd_of_pow_eq_one (ZMod.pow_card_sub_one_eq_one hw0)
  rw [hord] at this
  omega

theorem psi3_map {R S : Type*} [CommRing R] [CommRing S] (f : R →+* S) (a b x : R) :
    f (psi3 a b x) = psi3 (f a) (f b) (f x) := by
  simp only [psi3, map_sub, map_add, map_mul, map_pow, map_ofNat]

section
variable {p : ℕ} [Fact p.Prime] {K : Type} [Field K] [Algebra (ZMod p) K] {a b : ℤ}

theorem intCast_algebraMap (n : ℤ) : algebraMap (ZMod p) K (n : ZMod p) = n := map_intCast _ n

/-- If the third division polynomial has no root in GF(p), none of its roots is in GF(p^2). -/
theorem no_quadratic_root [CharP K p] (h3 : p % 3 = 2) (h2 : p ≠ 2) (hr : ∀ z : ZMod p, psi3 (a : ZMod p) b z ≠ 0) (x : K)
    (hx : psi3 (a : K) b x = 0) : x ^ p ≠ x ∧ x ^ p ^ 2 ≠ x := by
  have hp : p.Prime := Fact.out
  have inj := (algebraMap (ZMod p) K).injective
  have h1 : x ^ p ≠ x := by
    intro h
    obtain ⟨z, rfl⟩ := mem_prime_field h
    apply hr z
    apply inj
    rw [map_zero, ← hx, psi3_map, map_intCast, map_intCast]
  refine ⟨h1, fun h => ?_⟩
  set x' := x ^ p with hx'
  have hxx : x' ^ p = x := by rw [hx', ← pow_mul, ← pow_two]; exact h
  have hfx : psi3 (a : K) b x' = 0 := by
    have := congrArg (frobenius K p) hx
    rw [map_zero, psi3_map, map_intCast, map_intCast, frobenius_def] at this
    exact this
  obtain ⟨s, hs⟩ := mem_prime_field (p := p) (s := x + x') (by
    have := map_add (frobenius K p) x x'
    simp only [frobenius_def] at this
    rw [this, hxx, ← hx', add_comm])
  obtain ⟨m, hm⟩ := mem_prime_field (p := p) (s := x * x') (by rw [mul_pow, hxx, ← hx', mul_comm])
  have hd : x - x' ≠ 0 := sub_ne_zero.2 (Ne.symm h1)
  -- the quotient by `X^2 - s X + m` is `X^2 + s X + w`
  set w : ZMod p := 2 * a + s ^ 2 - m with hw
  have two : (2 : ZMod p) ≠ 0 := by
    intro h0
    have : ((2 : ℕ) : ZMod p) = 0 := by exact_mod_cast h0
    rw [ZMod.natCast_eq_zero_iff] at this
    exact h2 ((Nat.prime_dvd_prime_iff_eq hp Nat.prime_two).1 this)
  have three : (3 : ZMod p) ≠ 0 := by
    intro h0
    have : ((3 : ℕ) : ZMod p) = 0 := by exact_mod_cast h0
    rw [ZMod.natCast_eq_zero_iff] at this
    have := (Nat.prime_dvd_prime_iff_eq hp Nat.prime_three).1 this
    omega
  have threeK : (3 : K) ≠ 0 := by
    intro h0; apply three; apply inj; rw [map_ofNat, h0, map_zero]
  have twoK : (2 : K) ≠ 0 := by
    intro h0; apply two; apply inj; rw [map_ofNat, h0, map_zero]
  unfold psi3 at hx hfx
  have e1 : 4 * (b : ZMod p) = s * (m - w) := by
    apply inj
    apply mul_left_cancel₀ (mul_ne_zero threeK hd)
    simp only [hw, map_sub, map_add, map_mul, map_pow, map_ofNat, map_intCast, hs, hm]
    linear_combination hx - hfx
  have e2 : 3 * (m * w) + (a : ZMod p) ^ 2 = 0 := by
    apply inj
    have e3 := congrArg (algebraMap (ZMod p) K) e1
    simp only [hw, map_sub, map_add, map_mul, map_pow, map_ofNat, map_intCast, hs, hm, map_zero] at e3 ⊢
    linear_combination 3 * x * e3 - hx
  have key : -3 * ((s ^ 2 - 4 * m) * (s ^ 2 - 4 * w)) = (3 * s ^ 2 + 4 * a) ^ 2 := by
    rw [hw] at e2 ⊢
    linear_combination (-16) * e2
  have hD1 : ¬ IsSquare (s ^ 2 - 4 * m) := by
    rintro ⟨u, hu⟩
    have hu' := congrArg (algebraMap (ZMod p) K) hu
    simp only [map_sub, map_mul, map_pow, map_ofNat, hs, hm] at hu'
    have h4 : (x - x' - algebraMap (ZMod p) K u) * (x - x' + algebraMap (ZMod p) K u) = 0 := by
      linear_combination hu'
    have fixed : ∀ v : ZMod p, x - x' = algebraMap (ZMod p) K v → False := by
      intro v hv
      apply h1
      have h5 : x = algebraMap (ZMod p) K ((s + v) / 2) := by
        rw [map_div₀, map_add, hs, ← hv, map_ofNat]
        field_simp
        ring
      rw [hx', h5, ← map_pow, ZMod.pow_card]
    rcases mul_eq_zero.1 h4 with h5 | h5
    · exact fixed u (sub_eq_zero.1 h5)
    · exact fixed (-u) (by rw [map_neg]; exact eq_neg_of_add_eq_zero_left h5)
  have hD2 : ¬ IsSquare (s ^ 2 - 4 * w) := by
    rintro ⟨u, hu⟩
    apply hr ((-s + u) / 2)
    have h4 : ((-s + u) / 2) ^ 2 + s * ((-s + u) / 2) + w = 0 := by
      field_simp
      linear_combination -hu
    unfold psi3
    generalize (-s + u) / 2 = z at h4
    rw [hw] at e1 e2 h4
    linear_combination 3 * (z ^ 2 - s * z + m) * h4 + 3 * z * e1 - e2
  have c1 := quadraticChar_neg_one_iff_not_isSquare.2 hD1
  have c2 := quadraticChar_neg_one_iff_not_isSquare.2 hD2
  have c3 := quadraticChar_neg_one_iff_not_isSquare.2 (neg_three_not_square h3 h2)
  have c4 := congrArg (quadraticChar (ZMod p)) key
  rw [map_mul, map_mul, map_pow, c1, c2, c3] at c4
  nlinarith [sq_nonneg (quadraticChar (ZMod p) (3 * s ^ 2 + 4 * a))]

end

section
variable {K : Type} [Field K] [DecidableEq K] {a b : ℤ} {q : ℤ} [Fact (Nat.Prime q.toNat)] [CharP K q.toNat]

theorem frob_neg (P : Pt (a : K) b) : frobPoint q.toNat a b (-P) = -frobPoint q.toNat a b P := by
  by_cases hP : P = 0
  · subst hP; rfl
  have hN : -P ≠ 0 := neg_ne_zero.2 hP
  obtain ⟨h1, h2, h3⟩ := frobPoint_ne (q := q) hP
  obtain ⟨g1, g2, g3⟩ := frobPoint_ne (q := q) hN
  apply EDS.ext g1 (neg_ne_zero.2 h1)
  · rw [g2, xc_neg, xc_neg, h2]
  · rw [g3, yc_neg, yc_neg, h3, ← frobenius_def, map_neg, frobenius_def]

theorem frob_add {P Q : Pt (a : K) b} (hP : P ≠ 0) (hQ : Q ≠ 0) (h : xc P ≠ xc Q) :
    frobPoint q.toNat a b (P + Q) = frobPoint q.toNat a b P + frobPoint q.toNat a b Q := by
  have hs := add_ne_zero_of_xc hP hQ h
  obtain ⟨p1, p2, p3⟩ := frobPoint_ne (q := q) hP
  obtain ⟨q1, q2, q3⟩ := frobPoint_ne (q := q) hQ
  obtain ⟨s1, s2, s3⟩ := frobPoint_ne (q := q) hs
  have hx : xc (frobPoint q.toNat a b P) ≠ xc (frobPoint q.toNat a b Q) := by
    rw [p2, q2, ← frobenius_def, ← frobenius_def]
    exact fun he => h ((frobenius K q.toNat).injective he)
  have hd := sub_ne_zero.2 hx
  have a1 := congrArg (frobenius K q.toNat) (xc_add hP hQ h)
  have a2 := congrArg (frobenius K q.toNat) (yc_add hP hQ h)
  simp only [map_mul, map_pow, map_sub, map_add, map_neg] at a1 a2
  simp only [frobenius_def] at a1 a2
  rw [← s2, ← p2, ← q2, ← p3, ← q3] at a1
  have b1 := xc_add p1 q1 hx
  have b2 := yc_add p1 q1 hx
  have ex : xc (frobPoint q.toNat a b (P + Q)) = xc (frobPoint q.toNat a b P + frobPoint q.toNat a b Q) :=
    mul_right_cancel₀ (pow_ne_zero 2 hd) (a1.trans b1.symm)
  refine EDS.ext s1 (add_ne_zero_of_xc p1 q1 hx) ex ?_
  rw [← s3, ← p2, ← q2, ← p3, ← q3, ← s2, ex] at a2
  exact mul_right_cancel₀ hd (a2.trans b2.symm)

/-- A polynomial of degree 4 has no five roots. -/
theorem psi3_roots {a b : K} (h3 : (3 : K) ≠ 0) {x1 x2 x3 x4 x : K} (h12 : x1 ≠ x2) (h13 : x1 ≠ x3) (h14 : x1 ≠ x4)
    (h23 : x2 ≠ x3) (h24 : x2 ≠ x4) (h34 : x3 ≠ x4) (r1 : psi3 a b x1 = 0) (r2 : psi3 a b x2 = 0) (r3 : psi3 a b x3 = 0)
    (r4 : psi3 a b x4 = 0) (r : psi3 a b x = 0) : x = x1 ∨ x = x2 ∨ x = x3 ∨ x = x4 := by
  unfold psi3 at *
  have e2 : 3 * (x1 + x2) * (x1 ^ 2 + x2 ^ 2) + 6 * a * (x1 + x2) + 12 * b = 0 := by
    apply mul_left_cancel₀ (sub_ne_zero.2 h12); linear_combination r1 - r2
  have e3 : 3 * (x1 + x3) * (x1 ^ 2 + x3 ^ 2) + 6 * a * (x1 + x3) + 12 * b = 0 := by
    apply mul_left_cancel₀ (sub_ne_zero.2 h13); linear_combination r1 - r3
  have e4 : 3 * (x1 + x4) * (x1 ^ 2 + x4 ^ 2) + 6 * a * (x1 + x4) + 12 * b = 0 := by
    apply mul_left_cancel₀ (sub_ne_zero.2 h14); linear_combination r1 - r4
  have f3 : 3 * (x1 ^ 2 + x2 ^ 2 + x3 ^ 2 + x1 * x2 + x1 * x3 + x2 * x3) + 6 * a = 0 := by
    apply mul_left_cancel₀ (sub_ne_zero.2 h23); linear_combination e2 - e3
  have f4 : 3 * (x1 ^ 2 + x2 ^ 2 + x4 ^ 2 + x1 * x2 + x1 * x4 + x2 * x4) + 6 * a = 0 := by
    apply mul_left_cancel₀ (sub_ne_zero.2 h24); linear_combination e2 - e4
  have g4 : 3 * (x1 + x2 + x3 + x4) = 0 := by
    apply mul_left_cancel₀ (sub_ne_zero.2 h34); linear_combination f3 - f4
  have key : 3 * ((x - x1) * (x - x2) * (x - x3) * (x - x4)) = 0 := by
    linear_combination r - r1 - (x - x1) * e2 - (x - x1) * (x - x2) * f3 - (x - x1) * (x - x2) * (x - x3) * g4
  have := (mul_eq_zero.1 key).resolve_left h3
  rcases mul_eq_zero.1 this with h | h
  · rcases mul_eq_zero.1 h with h | h
    · rcases mul_eq_zero.1 h with h | h
      · exact .inl (sub_eq_zero.1 h)
      · exact .inr (.inl (sub_eq_zero.1 h))
    · exact .inr (.inr (.inl (sub_eq_zero.1 h)))
  · exact .inr (.inr (.inr (sub_eq_zero.1 h)))

/-- If the third division polynomial has no root in GF(q), `q = 2` modulo 3, then `F^2 P = P ± F P` for every point
`P` of order 3. -/
theorem three_frob [Algebra (ZMod q.toNat) K] (h3 : q % 3 = 2) (h2 : q ≠ 2)
    (hr : ∀ z : ZMod q.toNat, psi3 (a : ZMod q.toNat) b z ≠ 0) {P : Pt (a : K) b} (hP : P ≠ 0) (h3P : 3 • P = 0) :
    frobPoint q.toNat a b (frobPoint q.toNat a b P) = P + frobPoint q.toNat a b P ∨
    frobPoint q.toNat a b (frobPoint q.toNat a b P) = P - frobPoint q.toNat a b P := by
  have hpr : Nat.Prime q.toNat := Fact.out
  have hq := two_le_of_prime (p := q) hpr
  have h2K := two_ne_char (K := K) h2
  have h3K : (3 : K) ≠ 0 := by
    intro h0
    have h3 : ((3 : ℕ) : K) = 0 := by exact_mod_cast h0
    rw [CharP.cast_eq_zero_iff K q.toNat] at h3
    have := (Nat.prime_dvd_prime_iff_eq hpr Nat.prime_three).1 h3
    omega
  have nq := no_quadratic_root (p := q.toNat) (K := K) (a := a) (b := b) (by omega) (by omega) hr
  have root : ∀ R : Pt (a : K) b, R ≠ 0 → 3 • R = 0 → psi3 (a : K) b (xc R) = 0 := fun R hR h => by
    rw [← F_three]; exact (F_eq_zero_iff h2K hR 3 (by norm_num)).2 h
  have frob3 : ∀ R : Pt (a : K) b, R ≠ 0 → 3 • R = 0 → 3 • frobPoint q.toNat a b R = 0 := fun R hR h => by
    rw [← F_eq_zero_iff h2K (frobPoint_ne (q := q) hR).1 3 (by norm_num), F_frob hR,
      (F_eq_zero_iff h2K hR 3 (by norm_num)).2 h, zero_pow hpr.ne_zero]
  have nofix : ∀ R : Pt (a : K) b, R ≠ 0 → 3 • R = 0 → frobPoint q.toNat a b R ≠ R ∧ frobPoint q.toNat a b R ≠ -R := by
    intro R hR h
    have := (nq _ (root R hR h)).1
    rw [← (frobPoint_ne (q := q) hR).2.1] at this
    refine ⟨fun e => this (by rw [e]), fun e => this (by rw [e, xc_neg])⟩
  have no2 : ∀ R : Pt (a : K) b, R ≠ 0 → 3 • R = 0 → R + R ≠ 0 := by
    intro R hR h h0
    apply hR
    have : 3 • R = R + R + R := by abel
    rw [this, h0, zero_add] at h; exact h
  obtain ⟨g1, g2, -⟩ := frobPoint_ne (q := q) hP
  obtain ⟨f1, f2, -⟩ := frobPoint_ne (q := q) g1
  have q3 := frob3 P hP h3P
  have r3 := frob3 _ g1 q3
  set Q := frobPoint q.toNat a b P with hQ
  set R := frobPoint q.toNat a b Q with hR
  obtain ⟨c1, c2⟩ := nofix P hP h3P
  obtain ⟨d1, d2⟩ := nofix Q g1 q3
  rw [← hQ] at c1 c2
  rw [← hR] at d1 d2
  have c3 : xc R ≠ xc P := by
    have := (nq _ (root P hP h3P)).2
    rw [f2, g2, ← pow_mul, ← pow_two]; exact this
  have tri : ∀ A : Pt (a : K) b, 3 • A = 0 → A + A = -A := fun A h => by
    rw [eq_neg_iff_add_eq_zero, ← h]; abel
  have tP := tri P h3P
  have tQ := tri Q q3
  have sum : P + Q ≠ 0 := fun h => c2 (by rw [eq_neg_iff_add_eq_zero, add_comm]; exact h)
  have dif : P - Q ≠ 0 := fun h => c1 (sub_eq_zero.1 h).symm
  have s3 : 3 • (P + Q) = 0 := by rw [smul_add, h3P, q3, add_zero]
  have m3 : 3 • (P - Q) = 0 := by rw [smul_sub, h3P, q3, sub_zero]
  have ne : ∀ {A B : Pt (a : K) b}, A ≠ 0 → B ≠ 0 → A ≠ B → A ≠ -B → xc A ≠ xc B := fun hA hB h1 h2 h =>
    (xc_eq_iff hA hB).1 h |>.elim h1 h2
  have x12 : xc P ≠ xc Q := ne hP g1 (Ne.symm c1) (fun h => c2 (by rw [h, neg_neg]))
  have x13 : xc P ≠ xc (P + Q) := ne hP sum (fun h => g1 (by simpa using h.symm)) (fun h => c1 (by
    have : Q = -(P + P) := by rw [eq_neg_iff_add_eq_zero]; nth_rewrite 2 [h]; abel
    rw [this, tP, neg_neg]))
  have x14 : xc P ≠ xc (P - Q) := ne hP dif (fun h => g1 (by simpa using h.symm)) (fun h => c2 (by
    have : Q = P + P := by nth_rewrite 1 [h]; abel
    rw [this, tP]))
  have x23 : xc Q ≠ xc (P + Q) := ne g1 sum (fun h => hP (by simpa using h.symm)) (fun h => c1 (by
    have : P = -(Q + Q) := by rw [eq_neg_iff_add_eq_zero]; nth_rewrite 2 [h]; abel
    rw [this, tQ, neg_neg]))
  have x24 : xc Q ≠ xc (P - Q) := ne g1 dif (fun h => c2 (by
    have : P = Q + Q := by nth_rewrite 1 [h]; abel
    rw [this, tQ, neg_neg])) (fun h => hP (by
    have : P = Q - -(P - Q) := by abel
    rw [← h, sub_self] at this; exact this))
  have x34 : xc (P + Q) ≠ xc (P - Q) := ne sum dif (fun h => no2 Q g1 q3 (by
    have : Q + Q = (P + Q) - (P - Q) := by abel
    rw [this, h, sub_self])) (fun h => no2 P hP h3P (by
    have : P + P = (P + Q) + (P - Q) := by abel
    rw [this, h, neg_add_cancel]))
  have fs : frobPoint q.toNat a b (P + Q) = Q + R := frob_add hP g1 x12
  have fm : frobPoint q.toNat a b (P - Q) = Q - R := by
    rw [sub_eq_add_neg, frob_add hP (neg_ne_zero.2 g1) (by rw [xc_neg]; exact x12), frob_neg, ← hQ, ← hR, ← sub_eq_add_neg]
  rcases psi3_roots h3K x12 x13 x14 x23 x24 x34 (root P hP h3P) (root Q g1 q3) (root _ sum s3) (root _ dif m3)
    (root R f1 r3) with h | h | h | h
  · exact absurd h c3
  · rcases (xc_eq_iff f1 g1).1 h with h | h
    · exact absurd h d1
    · exact absurd h d2
  · rcases (xc_eq_iff f1 sum).1 h with h | h
    · exact .inl h
    · exfalso
      refine (nofix _ dif m3).1 ?_
      rw [fm, h]
      have : Q - -(P + Q) = P + (Q + Q) := by abel
      rw [this, tQ, sub_eq_add_neg]
  · rcases (xc_eq_iff f1 dif).1 h with h | h
    · exact .inr h
    · exfalso
      refine (nofix _ sum s3).2 ?_
      rw [fs, h]
      have : Q + -(P - Q) = (Q + Q) - P := by abel
      rw [this, tQ]; abel

theorem frob_zero : frobPoint (K := K) q.toNat a b 0 = 0 := rfl

/-- Frobenius is additive. -/
theorem frob_add_all (h2 : (2 : K) ≠ 0) (P Q : Pt (a : K) b) :
    frobPoint q.toNat a b (P + Q) = frobPoint q.toNat a b P + frobPoint q.toNat a b Q := by
  by_cases hP : P = 0
  · rw [hP, zero_add, frob_zero, zero_add]
  by_cases hQ : Q = 0
  · rw [hQ, add_zero, frob_zero, add_zero]
  by_cases h : xc P = xc Q
  · rcases (xc_eq_iff hP hQ).1 h with rfl | rfl
    · obtain ⟨p1, p2, p3⟩ := frobPoint_ne (q := q) hP
      by_cases hy : yc P = 0
      · have e1 := (two_nsmul_eq_zero_iff h2 hP).2 hy
        have e2 := (two_nsmul_eq_zero_iff h2 p1).2 (by rw [p3, hy, zero_pow (Fact.out : Nat.Prime q.toNat).ne_zero])
        rw [e1, e2, frob_zero]
      · have hy' : yc (frobPoint q.toNat a b P) ≠ 0 := by rw [p3]; exact pow_ne_zero _ hy
        have hs : P + P ≠ 0 := fun h0 => hy ((two_nsmul_eq_zero_iff h2 hP).1 h0)
        have hs' : frobPoint q.toNat a b P + frobPoint q.toNat a b P ≠ 0 :=
          fun h0 => hy' ((two_nsmul_eq_zero_iff h2 p1).1 h0)
        obtain ⟨s1, s2, s3⟩ := frobPoint_ne (q := q) hs
        have a1 := congrArg (frobenius K q.toNat) (xc_double h2 hP hy)
        have a2 := congrArg (frobenius K q.toNat) (yc_double h2 hP hy)
        simp only [map_mul, map_pow, map_sub, map_add, map_ofNat, map_intCast] at a1 a2
        simp only [frobenius_def] at a1 a2
        rw [← s2, ← p2, ← p3] at a1
        have b1 := xc_double h2 p1 hy'
        have b2 := yc_double h2 p1 hy'
        have ex : xc (frobPoint q.toNat a b (P + P)) = xc (frobPoint q.toNat a b P + frobPoint q.toNat a b P) :=
          mul_right_cancel₀ (pow_ne_zero 2 (mul_ne_zero h2 hy')) (a1.trans b1.symm)
        refine EDS.ext s1 hs' ex ?_
        rw [← s3, ← p2, ← p3, ← s2, ex] at a2
        exact mul_right_cancel₀ (mul_ne_zero h2 hy') (a2.trans b2.symm)
    · rw [frob_neg, neg_add_cancel, neg_add_cancel, frob_zero]
  · exact frob_add hP hQ h

/-- Frobenius as a homomorphism of groups. -/
def frobHom (h2 : (2 : K) ≠ 0) : Pt (a : K) b →+ Pt (a : K) b where
  toFun := frobPoint q.toNat a b
  map_zero' := rfl
  map_add' := frob_add_all h2

theorem frob_zsmul (h2 : (2 : K) ≠ 0) (n : ℤ) (P : Pt (a : K) b) :
    frobPoint q.toNat a b (n • P) = n • frobPoint q.toNat a b P :=
  map_zsmul (frobHom (q := q) h2) n P

/-- The sign in `three_frob` is the same for all points of order 3. -/
theorem three_char [Algebra (ZMod q.toNat) K] (h3 : q % 3 = 2) (h2 : q ≠ 2)
    (hr : ∀ z : ZMod q.toNat, psi3 (a : ZMod q.toNat) b z ≠ 0) : ∃ s : ℤ, (s = 1 ∨ s = -1) ∧
    ∀ P : Pt (a : K) b, 3 • P = 0 →
      frobPoint q.toNat a b (frobPoint q.toNat a b P) = P + s • frobPoint q.toNat a b P := by
  have h2K := two_ne_char (K := K) h2
  by_contra hc
  push Not at hc
  obtain ⟨P, hP3, hP⟩ := hc 1 (.inl rfl)
  obtain ⟨Q, hQ3, hQ⟩ := hc (-1) (.inr rfl)
  rw [one_smul] at hP
  rw [neg_smul, one_smul, ← sub_eq_add_neg] at hQ
  have hP0 : P ≠ 0 := by rintro rfl; exact hP (by simp [frob_zero])
  have hQ0 : Q ≠ 0 := by rintro rfl; exact hQ (by simp [frob_zero])
  have fP := (three_frob h3 h2 hr hP0 hP3).resolve_left hP
  have fQ := (three_frob h3 h2 hr hQ0 hQ3).resolve_right hQ
  have two : ∀ R : Pt (a : K) b, 3 • R = 0 → R ≠ 0 →
      frobPoint q.toNat a b R + frobPoint q.toNat a b R ≠ 0 := by
    intro R hR hR0 h
    rw [← frob_add_all h2K] at h
    have hRR : R + R = 0 := by
      by_contra h0; exact (frobPoint_ne (q := q) h0).1 h
    apply hR0
    have : R = 3 • R - (R + R) := by abel
    rw [this, hR, hRR, sub_zero]
  by_cases hs : P + Q = 0
  · have hQP : Q = -P := by rw [eq_neg_iff_add_eq_zero, add_comm]; exact hs
    rw [hQP, frob_neg, frob_neg, fP] at fQ
    apply two P hP3 hP0
    have : frobPoint q.toNat a b P + frobPoint q.toNat a b P =
      -(P - frobPoint q.toNat a b P) - (-P + -frobPoint q.toNat a b P) := by abel
    rw [this, fQ, sub_self]
  · have key := three_frob h3 h2 hr hs (by rw [smul_add, hP3, hQ3, add_zero])
    rw [frob_add_all h2K, frob_add_all h2K, fP, fQ] at key
    rcases key with key | key
    · apply two P hP3 hP0
      have e : frobPoint q.toNat a b P + frobPoint q.toNat a b P =
        (P + Q + (frobPoint q.toNat a b P + frobPoint q.toNat a b Q)) -
          (P - frobPoint q.toNat a b P + (Q + frobPoint q.toNat a b Q)) := by abel
      rw [e, key, sub_self]
    · apply two Q hQ3 hQ0
      have e : frobPoint q.toNat a b Q + frobPoint q.toNat a b Q =
        (P - frobPoint q.toNat a b P + (Q + frobPoint q.toNat a b Q)) -
        (P + Q - (frobPoint q.toNat a b P + frobPoint q.toNat a b Q)) := by abel
      rw [e, key, sub_self]

end
end EC
