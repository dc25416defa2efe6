import Verif.Lemmas.EDSTors

/-! Divisibility of the division polynomials, and the division polynomials of a multiple of a point. -/

set_option linter.unusedSectionVars false

namespace EC.EDS
open WeierstrassCurve Polynomial

noncomputable section

theorem gps' (n : ℤ) : algebraMap GB[X] GK (ps (C gA) (gBb gA gX) (C gX) X n)
    = ps (ga gA GK) (gb gA gX GK) (gx gX GK) (gy GB GK) n := by
  rw [map_ps]; rfl

theorem gEq : (X : GB[X]) ^ 2 = C gX ^ 3 + C gA * C gX + gBb gA gX := by rw [gBb]; ring

/-- The generic division polynomials do not vanish. -/
theorem gps_ne {n : ℕ} (hn : n ≠ 0) : ps (C gA) (gBb gA gX) (C gX) (X : GB[X]) n ≠ 0 := by
  classical
  have h := w_ne (g2 GB GK) (gInf gA gX GK gX_ne) n hn
  rw [w_eq_ps (g2 GB GK) (gInf gA gX GK gX_ne)] at h
  intro h0
  apply h
  simp only [gP, xc, yc]
  rw [← gps', h0, map_zero]

/-- Divisibility for the generic division polynomials. -/
theorem gps_dvd (k : ℕ) (hk : k ≠ 0) (n : ℕ) :
    ps (C gA) (gBb gA gX) (C gX) (X : GB[X]) k ∣ ps (C gA) (gBb gA gX) (C gX) (X : GB[X]) ((n * k : ℕ) : ℤ) := by
  induction n using Nat.strong_induction_on with
  | _ n ih =>
  rcases Nat.even_or_odd' n with ⟨m, rfl | rfl⟩
  · rcases Nat.eq_zero_or_pos m with rfl | hm
    · simp [ps]
    · refine (ih m (by omega)).trans ?_
      have := normEDS_dvd_normEDS_two_mul (2 * (X : GB[X])) (psi3 (C gA) (gBb gA gX) (C gX))
        (psi4 (C gA) (gBb gA gX) (C gX)) ((m * k : ℕ) : ℤ)
      simp only [ps]
      push_cast at this ⊢
      rwa [mul_assoc]
  · rcases Nat.eq_zero_or_pos m with rfl | hm
    · simp
    · have e := rel gEq (m * k) k (by positivity) hk
      have h1 := ih m (by omega)
      have h2 := ih (m + 1) (by omega)
      obtain ⟨u, hu⟩ := h1
      obtain ⟨v, hv⟩ := h2
      push_cast at hu hv e ⊢
      rw [show ((m : ℤ) * k + k) = (m + 1) * k by ring] at e
      rw [hu, hv, show (2 * ((m : ℤ) * k) + k) = (2 * m + 1) * k by ring] at e
      rw [← mul_dvd_mul_iff_right (gps_ne hk), e]
      clear hu hv e ih
      generalize ps (C gA) (gBb gA gX) (C gX) (X : GB[X]) = W
      exact ⟨W ((m + 1) * k + 1) * W ((m + 1) * k - 1) * u ^ 2 - W (m * k + 1) * W (m * k - 1) * v ^ 2, by ring⟩

variable {R : Type*} [CommRing R] {a b x y : R} (h : y ^ 2 = x ^ 3 + a * x + b)
include h

/-- The values of the division polynomials at a point form a divisibility sequence. -/
theorem ps_dvd (k n : ℕ) (hkn : k ∣ n) : ps a b x y k ∣ ps a b x y n := by
  rcases Nat.eq_zero_or_pos k with rfl | hk
  · obtain rfl : n = 0 := by simpa using hkn
    exact dvd_rfl
  obtain ⟨m, rfl⟩ := hkn
  have := map_dvd (spec a x y) (gps_dvd k hk.ne' m)
  rwa [spec_ps h, spec_ps h, mul_comm] at this

end

section scale
variable {K : Type*} [Field K] {u : K} (hu : u ≠ 0) (B c d : K)
include hu

/-- Weighted homogeneity of the auxiliary sequence. -/
theorem pre_scale (n : ℕ) :
    u ^ (if Even n then 4 else 1) * preNormEDS (u ^ 12 * B) (u ^ 8 * c) (u ^ 12 * d) (n : ℤ) =
      u ^ (n ^ 2) * preNormEDS B c d (n : ℤ) := by
  induction n using normEDSRec with
  | zero => simp
  | one => simp
  | two => simp
  | three =>
    rw [if_neg (by decide)]
    simp only [Nat.cast_ofNat, preNormEDS_three]; ring
  | four =>
    rw [if_pos (by decide)]
    simp only [Nat.cast_ofNat, preNormEDS_four]; ring
  | even m h1 h2 h3 h4 h5 =>
    have e : ∀ B c d : K, preNormEDS B c d ((2 * (m + 3) : ℕ) : ℤ) =
        preNormEDS B c d ((m + 2 : ℕ) : ℤ) ^ 2 * preNormEDS B c d ((m + 3 : ℕ) : ℤ) * preNormEDS B c d ((m + 5 : ℕ) : ℤ) -
        preNormEDS B c d ((m + 1 : ℕ) : ℤ) * preNormEDS B c d ((m + 3 : ℕ) : ℤ) * preNormEDS B c d ((m + 4 : ℕ) : ℤ) ^ 2 := by
      intro B c d
      have := preNormEDS_even B c d (m + 3)
      push_cast
      rw [this]
      ring_nf
    rw [e, e, if_pos (by simp)]
    generalize preNormEDS (u ^ 12 * B) (u ^ 8 * c) (u ^ 12 * d) = A at *
    generalize preNormEDS B c d = G at *
    apply mul_left_cancel₀ (pow_ne_zero 6 hu)
    rcases Nat.even_or_odd m with hm | hm
    · have p1 : ¬ Even (m + 1) := by simp [Nat.even_add_one, hm]
      have p2 : Even (m + 2) := by simp [Nat.even_add, hm]
      have p3 : ¬ Even (m + 3) := by simp only [Nat.even_add, hm]; decide
      have p4 : Even (m + 4) := by simp only [Nat.even_add, hm]; decide
      have p5 : ¬ Even (m + 5) := by simp only [Nat.even_add, hm]; decide
      rw [if_neg p1] at h1
      rw [if_pos p2] at h2
      rw [if_neg p3] at h3
      rw [if_pos p4] at h4
      rw [if_neg p5] at h5
      calc _ = (u ^ 4 * A (m + 2 : ℕ)) ^ 2 * (u ^ 1 * A (m + 3 : ℕ)) * (u ^ 1 * A (m + 5 : ℕ)) -
          (u ^ 1 * A (m + 1 : ℕ)) * (u ^ 1 * A (m + 3 : ℕ)) * (u ^ 4 * A (m + 4 : ℕ)) ^ 2 := by ring
        _ = _ := by rw [h1, h2, h3, h4, h5]; ring
    · have hm : ¬ Even m := by simpa using hm
      have p1 : Even (m + 1) := by simp [Nat.even_add_one, hm]
      have p2 : ¬ Even (m + 2) := by simp [Nat.even_add, hm]
      have p3 : Even (m + 3) := by simp only [Nat.even_add, hm]; decide
      have p4 : ¬ Even (m + 4) := by simp only [Nat.even_add, hm]; decide
      have p5 : Even (m + 5) := by simp only [Nat.even_add, hm]; decide
      rw [if_pos p1] at h1
      rw [if_neg p2] at h2
      rw [if_pos p3] at h3
      rw [if_neg p4] at h4
      rw [if_pos p5] at h5
      calc _ = (u ^ 1 * A (m + 2 : ℕ)) ^ 2 * (u ^ 4 * A (m + 3 : ℕ)) * (u ^ 4 * A (m + 5 : ℕ)) -
          (u ^ 4 * A (m + 1 : ℕ)) * (u ^ 4 * A (m + 3 : ℕ)) * (u ^ 1 * A (m + 4 : ℕ)) ^ 2 := by ring
        _ = _ := by rw [h1, h2, h3, h4, h5]; ring
  | odd m h1 h2 h3 h4 =>
    have e : ∀ B c d : K, preNormEDS B c d ((2 * (m + 2) + 1 : ℕ) : ℤ) =
        preNormEDS B c d ((m + 4 : ℕ) : ℤ) * preNormEDS B c d ((m + 2 : ℕ) : ℤ) ^ 3 * (if Even m then B else 1) -
        preNormEDS B c d ((m + 1 : ℕ) : ℤ) * preNormEDS B c d ((m + 3 : ℕ) : ℤ) ^ 3 * (if Even m then 1 else B) := by
      intro B c d
      have := preNormEDS_odd B c d (m + 2)
      push_cast
      rw [this]
      have q : Even ((m : ℤ) + 2) ↔ Even m := by simp
      simp only [q]
      ring_nf
    rw [e, e, if_neg (by simp)]
    generalize preNormEDS (u ^ 12 * B) (u ^ 8 * c) (u ^ 12 * d) = A at *
    generalize preNormEDS B c d = G at *
    rcases Nat.even_or_odd m with hm | hm
    · have p1 : ¬ Even (m + 1) := by simp [Nat.even_add_one, hm]
      have p2 : Even (m + 2) := by simp [Nat.even_add, hm]
      have p3 : ¬ Even (m + 3) := by simp only [Nat.even_add, hm]; decide
      have p4 : Even (m + 4) := by simp only [Nat.even_add, hm]; decide
      rw [if_neg p1] at h1
      rw [if_pos p2] at h2
      rw [if_neg p3] at h3
      rw [if_pos p4] at h4
      rw [if_pos hm, if_pos hm, if_pos hm, if_pos hm]
      apply mul_left_cancel₀ (pow_ne_zero 15 hu)
      calc _ = (u ^ 4 * A (m + 4 : ℕ)) * (u ^ 4 * A (m + 2 : ℕ)) ^ 3 * (u ^ 12 * B) -
          (u ^ 1 * A (m + 1 : ℕ)) * (u ^ 1 * A (m + 3 : ℕ)) ^ 3 * u ^ 12 := by ring
        _ = _ := by rw [h1, h2, h3, h4]; ring
    · have hm : ¬ Even m := by simpa using hm
      have p1 : Even (m + 1) := by simp [Nat.even_add_one, hm]
      have p2 : ¬ Even (m + 2) := by simp [Nat.even_add, hm]
      have p3 : Even (m + 3) := by simp only [Nat.even_add, hm]; decide
      have p4 : ¬ Even (m + 4) := by simp only [Nat.even_add, hm]; decide
      rw [if_pos p1] at h1
      rw [if_neg p2] at h2
      rw [if_pos p3] at h3
      rw [if_neg p4] at h4
      rw [if_neg hm, if_neg hm, if_neg hm, if_neg hm]
      apply mul_left_cancel₀ (pow_ne_zero 15 hu)
      calc _ = (u ^ 1 * A (m + 4 : ℕ)) * (u ^ 1 * A (m + 2 : ℕ)) ^ 3 * u ^ 12 -
          (u ^ 4 * A (m + 1 : ℕ)) * (u ^ 4 * A (m + 3 : ℕ)) ^ 3 * (u ^ 12 * B) := by ring
        _ = _ := by rw [h1, h2, h3, h4]; ring

/-- Weighted homogeneity of normalised sequences. -/
theorem norm_scale (t : K) (n : ℕ) :
    u * normEDS (u ^ 3 * t) (u ^ 8 * c) (u ^ 12 * d) (n : ℤ) = u ^ (n ^ 2) * normEDS t c d (n : ℤ) := by
  have h := pre_scale hu (t ^ 4) c d n
  rw [normEDS, normEDS, show (u ^ 3 * t) ^ 4 = u ^ 12 * t ^ 4 by ring]
  by_cases hn : Even n
  · rw [if_pos hn] at h
    have hn' : Even (n : ℤ) := by exact_mod_cast hn
    rw [if_pos hn', if_pos hn']
    linear_combination t * h
  · rw [if_neg hn] at h
    have hn' : ¬ Even (n : ℤ) := by exact_mod_cast hn
    rw [if_neg hn', if_neg hn']
    linear_combination h
end scale

section chain
variable {K : Type*} [Field K] [DecidableEq K] {a b : K}

/-- The division polynomials of a multiple of a point of infinite order. -/
theorem w_mul {P : Pt a b} (h2 : (2 : K) ≠ 0) (hP : Inf P) (m : ℕ) (hm : m ≠ 0) (k : ℕ) :
    w P (k * m) = w P m ^ (k ^ 2) * w (m • P) k := by
  have hQ : Inf (m • P) := fun n hn => by rw [smul_smul]; exact hP _ (mul_ne_zero hn hm)
  induction k using Nat.twoStepInduction with
  | zero => simp [w]
  | one => simp [w]
  | more k h0 h1 =>
    rcases Nat.eq_zero_or_pos k with rfl | hk
    · have e1 := w_eq_ps h2 hP (2 * m)
      have e2 := w_eq_ps h2 hP m
      have e3 := F_y h2 (hP.ne h2) m hm (hP m hm)
      simp only [F] at e3
      rw [zero_add, e1, ← e3, e2]
      simp only [w]
      ring
    · have e1 := w_rel h2 hP m hm (k * m) (by positivity)
      have e2 := w_step h2 hQ k hk.ne'
      rw [smul_smul] at e2
      rw [show m + k * m = (k + 1) * m by ring, h0, h1, show 2 * m + k * m = (k + 2) * m by ring] at e1
      apply mul_right_cancel₀ (mul_ne_zero (pow_ne_zero (k ^ 2) (w_ne h2 hP m hm)) (w_ne h2 hQ k hk.ne'))
      rw [e1]
      generalize w P m = u at *
      linear_combination -u ^ (2 * (k + 1) ^ 2 + 2) * e2
end chain

noncomputable section chain2
variable {a b x y : GB[X]}

theorem psi3_scale {R : Type*} [CommRing R] (a b x u : R) :
    psi3 (a * u ^ 4) (b * u ^ 6) (x * u ^ 2) = u ^ 8 * psi3 a b x := by unfold psi3; ring

theorem psi4_scale {R : Type*} [CommRing R] (a b x u : R) :
    psi4 (a * u ^ 4) (b * u ^ 6) (x * u ^ 2) = u ^ 12 * psi4 a b x := by unfold psi4; ring

/-- The chain rule for the generic division polynomials. -/
theorem gps_mul (m k : ℕ) (hm : m ≠ 0) (t : GB[X])
    (ht : ps (C gA) (gBb gA gX) (C gX) X m * t = ps (C gA) (gBb gA gX) (C gX) X ((2 * m : ℕ) : ℤ)) :
    ps (C gA) (gBb gA gX) (C gX) X ((k * m : ℕ) : ℤ) = ps (C gA) (gBb gA gX) (C gX) X m *
      normEDS t
        (psi3 (C gA * ps (C gA) (gBb gA gX) (C gX) X m ^ 4) (gBb gA gX * ps (C gA) (gBb gA gX) (C gX) X m ^ 6)
          (C gX * ps (C gA) (gBb gA gX) (C gX) X m ^ 2 -
            ps (C gA) (gBb gA gX) (C gX) X (m + 1) * ps (C gA) (gBb gA gX) (C gX) X (m - 1)))
        (psi4 (C gA * ps (C gA) (gBb gA gX) (C gX) X m ^ 4) (gBb gA gX * ps (C gA) (gBb gA gX) (C gX) X m ^ 6)
          (C gX * ps (C gA) (gBb gA gX) (C gX) X m ^ 2 -
            ps (C gA) (gBb gA gX) (C gX) X (m + 1) * ps (C gA) (gBb gA gX) (C gX) X (m - 1))) k := by
  classical
  have h2 := g2 GB GK
  have hI := gInf gA gX GK gX_ne
  have e := w_mul h2 hI m hm k
  have hQ : Inf (m • gP gA gX GK) := fun n hn => by rw [smul_smul]; exact hI _ (mul_ne_zero hn hm)
  have hx := F_x h2 (hI.ne h2) m hm (hI m hm)
  have hy := F_y h2 (hI.ne h2) m hm (hI m hm)
  rw [w_eq_ps h2 hI, w_eq_ps h2 hI, w_eq_ps h2 hQ] at e
  have hu := gps_ne hm
  have hu' : algebraMap GB[X] GK (ps (C gA) (gBb gA gX) (C gX) X m) ≠ 0 := by
    rwa [Ne, map_eq_zero_iff _ (gInj GB GK)]
  have ht' := congrArg (algebraMap GB[X] GK) ht
  apply gInj GB GK
  rw [map_mul, map_normEDS]
  rw [map_mul] at ht'
  have m3 : ∀ u v w : GB[X], algebraMap GB[X] GK (psi3 u v w) =
      psi3 (algebraMap GB[X] GK u) (algebraMap GB[X] GK v) (algebraMap GB[X] GK w) := by
    intro u v w; simp only [psi3, map_mul, map_add, map_sub, map_pow, map_ofNat]
  have m4 : ∀ u v w : GB[X], algebraMap GB[X] GK (psi4 u v w) =
      psi4 (algebraMap GB[X] GK u) (algebraMap GB[X] GK v) (algebraMap GB[X] GK w) := by
    intro u v w; simp only [psi4, map_mul, map_add, map_sub, map_pow, map_ofNat]
  rw [m3, m4]
  simp only [map_mul, map_sub, map_pow]
  simp only [F, Nat.cast_sub (show 1 ≤ m by omega)] at hx hy
  push_cast at hx hy e ht' ⊢
  simp only [gps'] at ht' hu' ⊢
  have c1 : xc (gP gA gX GK) = gx gX GK := rfl
  have c2 : yc (gP gA gX GK) = gy GB GK := rfl
  rw [c1, c2] at hx hy e
  change _ = _ * normEDS _ (psi3 (ga gA GK * _) (gb gA gX GK * _) (gx gX GK * _ - _))
    (psi4 (ga gA GK * _) (gb gA gX GK * _) (gx gX GK * _ - _)) _
  generalize ps (ga gA GK) (gb gA gX GK) (gx gX GK) (gy GB GK) = W at *
  generalize algebraMap GB[X] GK t = t' at *
  rw [← hx, psi3_scale, psi4_scale]
  have : t' = W m ^ 3 * (2 * yc (m • gP gA gX GK)) := by
    apply mul_left_cancel₀ hu'
    rw [ht', ← hy]; ring
  rw [this, norm_scale hu', e]
  rfl

/-- The chain rule over every commutative ring. -/
theorem ps_mul {R : Type*} [CommRing R] {a b x y : R} (h : y ^ 2 = x ^ 3 + a * x + b) (m k : ℕ) (hm : m ≠ 0) :
    ∃ t, ps a b x y m * t = ps a b x y ((2 * m : ℕ) : ℤ) ∧
      ps a b x y ((k * m : ℕ) : ℤ) = ps a b x y m *
        normEDS t
          (psi3 (a * ps a b x y m ^ 4) (b * ps a b x y m ^ 6)
            (x * ps a b x y m ^ 2 - ps a b x y (m + 1) * ps a b x y (m - 1)))
          (psi4 (a * ps a b x y m ^ 4) (b * ps a b x y m ^ 6)
            (x * ps a b x y m ^ 2 - ps a b x y (m + 1) * ps a b x y (m - 1))) k := by
  obtain ⟨t, ht⟩ := gps_dvd m hm 2
  have e := congrArg (spec a x y) (gps_mul m k hm t ht.symm)
  have e2 := congrArg (spec a x y) ht
  rw [map_mul] at e2
  have m3 : ∀ u v w : GB[X], spec a x y (psi3 u v w) = psi3 (spec a x y u) (spec a x y v) (spec a x y w) := by
    intro u v w; simp only [psi3, map_mul, map_add, map_sub, map_pow, map_ofNat]
  have m4 : ∀ u v w : GB[X], spec a x y (psi4 u v w) = psi4 (spec a x y u) (spec a x y v) (spec a x y w) := by
    intro u v w; simp only [psi4, map_mul, map_add, map_sub, map_pow, map_ofNat]
  rw [map_mul, map_normEDS, m3, m4] at e
  simp only [map_mul, map_sub, map_pow, spec_ps h, spec_A, spec_X, spec_B _ _ _ h] at e e2
  exact ⟨_, e2.symm, e⟩

/-- The chain rule at a point of a curve of odd characteristic. -/
theorem F_mul {K : Type*} [Field K] [DecidableEq K] {a b : K} {P : Pt a b} (h2 : (2 : K) ≠ 0) (hP : P ≠ 0)
    (m k : ℕ) (hm : m ≠ 0) (hQ : m • P ≠ 0) : F P (k * m) = F P m ^ (k ^ 2) * F (m • P) k := by
  obtain ⟨t, ht, e⟩ := ps_mul (eqn hP) m k hm
  have hx := F_x h2 hP m hm hQ
  have hy := F_y h2 hP m hm hQ
  have hu : F P m ≠ 0 := fun hz => hQ ((F_eq_zero_iff h2 hP m hm).1 hz)
  simp only [F, Nat.cast_sub (show 1 ≤ m by omega)] at hx hy hu ⊢
  push_cast at hx hy hu ht e ⊢
  have : t = ps a b (xc P) (yc P) m ^ 3 * (2 * yc (m • P)) := by
    apply mul_left_cancel₀ hu
    rw [ht, ← hy]; ring
  rw [e, ← hx, psi3_scale, psi4_scale, this, norm_scale hu]
  rfl
end chain2
end EC.EDS
