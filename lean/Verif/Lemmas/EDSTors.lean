import Verif.Lemmas.EDSUniv

/-! The values of the division polynomials at an arbitrary point of a curve of odd characteristic. -/

set_option linter.unusedSectionVars false

namespace EC.EDS
open WeierstrassCurve

variable {K : Type*} [Field K] [DecidableEq K] {a b : K}

/-- The value of the `n`-th division polynomial at `P`. -/
def F (P : Pt a b) (n : ℕ) : K := ps a b (xc P) (yc P) n

variable (P : Pt a b)

theorem F_zero : F P 0 = 0 := by simp [F, ps]
theorem F_one : F P 1 = 1 := by simp [F, ps]
theorem F_two : F P 2 = 2 * yc P := by simp [F, ps]
theorem F_three : F P 3 = psi3 a b (xc P) := by
  rw [F, ps]; exact normEDS_three _ _ _

theorem F_even_of_y (hy : yc P = 0) (m : ℕ) : F P (2 * m) = 0 := by
  rw [F, ps, normEDS]
  simp [hy]

theorem F_even (m : ℕ) (hm : 2 ≤ m) :
    F P (2 * m) * (2 * yc P) = F P (m - 1) ^ 2 * F P m * F P (m + 2) - F P (m - 2) * F P m * F P (m + 1) ^ 2 := by
  have := normEDS_even (2 * yc P) (psi3 a b (xc P)) (psi4 a b (xc P)) m
  simp only [F, ps, Nat.cast_sub (show 1 ≤ m by omega), Nat.cast_sub hm]
  push_cast
  exact this

variable {P} (h2 : (2 : K) ≠ 0) (hP : P ≠ 0)
include h2 hP

theorem F_rel (n k : ℕ) (hn : n ≠ 0) (hk : k ≠ 0) :
    F P (2 * n + k) * F P k = F P (n + k + 1) * F P (n + k - 1) * F P n ^ 2 -
      F P (n + 1) * F P (n - 1) * F P (n + k) ^ 2 := by
  have := rel (eqn hP) n k hn hk
  simp only [F, Nat.cast_sub (show 1 ≤ n by omega), Nat.cast_sub (show 1 ≤ n + k by omega)]
  push_cast
  exact this

theorem F_relx (m : ℕ) (hm : 2 ≤ m) :
    2 * xc P * (F P (m + 1) * F P (m - 1)) ^ 2 - F P (m + 2) * F P m * F P (m - 1) ^ 2
      - F P m * F P (m - 2) * F P (m + 1) ^ 2
    = 2 * (a * F P m ^ 2 + xc P * (xc P * F P m ^ 2 - F P (m + 1) * F P (m - 1)))
        * (2 * xc P * F P m ^ 2 - F P (m + 1) * F P (m - 1)) + 4 * b * F P m ^ 4 := by
  have := relx (eqn hP) m hm
  simp only [F, Nat.cast_sub (show 1 ≤ m by omega), Nat.cast_sub hm]
  push_cast
  exact this

/-- Before the order of the point is reached nothing vanishes. -/
theorem F_before : ∀ n : ℕ, n ≠ 0 → (∀ k, 1 ≤ k → k ≤ n → k • P ≠ 0) →
    F P n ≠ 0 ∧ xc (n • P) * F P n ^ 2 = xc P * F P n ^ 2 - F P (n + 1) * F P (n - 1) := by
  intro n
  induction n using Nat.strong_induction_on with
  | _ n ih =>
  intro hn hk
  rcases Nat.lt_or_ge n 3 with h3 | h3
  · rcases (by omega : n = 1 ∨ n = 2) with rfl | rfl
    · rw [F_one, one_smul, Nat.sub_self, F_zero]
      exact ⟨one_ne_zero, by ring⟩
    · have h := hk 2 (by omega) (by omega)
      rw [two_smul, Ne, two_nsmul_eq_zero_iff h2 hP] at h
      refine ⟨by rw [F_two]; exact mul_ne_zero h2 h, ?_⟩
      have e := xc_double h2 hP h
      have e2 := eqn hP
      rw [F_two, two_smul, e, F_three, F_one, psi3]
      linear_combination -12 * xc P * e2
  · obtain ⟨m, rfl⟩ : ∃ m, n = m + 1 := ⟨n - 1, by omega⟩
    obtain ⟨f0, e0⟩ := ih m (by omega) (by omega) (fun k h1 h2 => hk k h1 (by omega))
    obtain ⟨f1, e1⟩ := ih (m - 1) (by omega) (by omega) (fun k h1 h2 => hk k h1 (by omega))
    rw [show m - 1 + 1 = m by omega, show m - 1 - 1 = m - 2 by omega] at e1
    have hm0 := hk m (by omega) (by omega)
    have hx : xc (m • P) ≠ xc P := by
      intro e
      rcases (xc_eq_iff hm0 hP).1 e with e | e
      · apply hk (m - 1) (by omega) (by omega)
        have : m • P = (m - 1) • P + P := by rw [← succ_nsmul, show m - 1 + 1 = m by omega]
        rw [this] at e
        simpa using e
      · apply hk (m + 1) (by omega) le_rfl
        rw [succ_nsmul, e]; simp
    have g1 : F P (m + 1) ≠ 0 := by
      intro h
      rw [h, zero_mul, sub_zero] at e0
      exact hx (mul_right_cancel₀ (pow_ne_zero 2 f0) e0)
    refine ⟨g1, ?_⟩
    have q1 := xc_add hm0 hP hx
    have q2 := xc_add (A := m • P) (B := -P) hm0 (by simpa using hP) (by rwa [xc_neg])
    rw [xc_neg, yc_neg, ← sub_eq_add_neg, show m • P - P = (m - 1) • P by
      obtain ⟨k, rfl⟩ := Nat.exists_eq_add_of_le' (show 1 ≤ m by omega)
      rw [add_smul, one_smul, Nat.add_sub_cancel, add_sub_cancel_right]] at q2
    rw [← succ_nsmul] at q1
    have hA := eqn hm0
    have hB := eqn hP
    have r := F_relx h2 hP m (by omega)
    rw [show m + 1 + 1 = m + 2 by omega, show m + 1 - 1 = m by omega]
    apply mul_right_cancel₀ (pow_ne_zero 2 f1)
    generalize xc ((m + 1) • P) = x1 at *
    generalize xc ((m - 1) • P) = x0 at *
    generalize xc (m • P) = xm at *
    generalize yc (m • P) = ym at *
    generalize xc P = x at *
    generalize yc P = y at *
    generalize F P (m + 2) = s2 at *
    generalize F P (m + 1) = s1 at *
    generalize F P (m - 1) = t1 at *
    generalize F P (m - 2) = t2 at *
    generalize F P m = u at *
    have k0 : s1 * t1 = (x - xm) * u ^ 2 := by linear_combination e0
    have k1 : u * t2 = (x - x0) * t1 ^ 2 := by linear_combination e1
    have k2 : s2 * u * t1 ^ 2 = (2 * x - x1 - x0) * (s1 * t1) ^ 2 - u * t2 * s1 ^ 2 := by
      rw [k0] at r ⊢
      linear_combination -r + u ^ 4 * q1 + u ^ 4 * q2 + 2 * u ^ 4 * hA + 2 * u ^ 4 * hB
    rw [k1] at k2
    linear_combination k2

/-- `F` at the order. -/
theorem F_order {r : ℕ} (hr : addOrderOf P = r) (hr0 : r ≠ 0) :
    2 ≤ r ∧ F P r = 0 ∧ F P (r - 1) ≠ 0 ∧ F P (r + 1) ≠ 0 := by
  have hr1 : r ≠ 1 := by
    rintro rfl
    exact hP (AddMonoid.addOrderOf_eq_one_iff.1 hr)
  have hk : ∀ k, 1 ≤ k → k ≤ r - 1 → k • P ≠ 0 := fun k h1 h2 h => by
    have := Nat.le_of_dvd (by omega) (addOrderOf_dvd_of_nsmul_eq_zero h)
    omega
  have hrP : r • P = 0 := hr ▸ addOrderOf_nsmul_eq_zero P
  obtain ⟨f1, e1⟩ := F_before h2 hP (r - 1) (by omega) hk
  refine ⟨by omega, ?_⟩
  rcases (by omega : r = 2 ∨ 3 ≤ r) with rfl | h3
  · rw [two_smul, two_nsmul_eq_zero_iff h2 hP] at hrP
    refine ⟨by rw [F_two, hrP, mul_zero], f1, ?_⟩
    have h0 : 3 * xc P ^ 2 + a ≠ 0 := by
      cases P with
      | zero => exact absurd rfl hP
      | some x y h =>
        have := ((Affine.nonsingular_iff _ _).1 h).2
        simp only [xc, yc] at *
        subst hrP
        intro h0
        simp at this
        exact this (by linear_combination -h0)
    have e := eqn hP
    rw [F_three, psi3]
    rw [hrP] at e
    have : 3 * xc P ^ 4 + 6 * a * xc P ^ 2 + 12 * b * xc P - a ^ 2 = -(3 * xc P ^ 2 + a) ^ 2 := by
      linear_combination -12 * xc P * e
    rw [this]
    exact neg_ne_zero.2 (pow_ne_zero 2 h0)
  · obtain ⟨f2, -⟩ := F_before h2 hP (r - 2) (by omega) (fun k h1 h2 => hk k h1 (by omega))
    have hx : xc ((r - 1) • P) = xc P := by
      have : r • P = (r - 1) • P + P := by rw [← succ_nsmul, show r - 1 + 1 = r by omega]
      rw [this] at hrP
      rw [eq_neg_of_add_eq_zero_left hrP, xc_neg]
    rw [hx, show r - 1 + 1 = r by omega, show r - 1 - 1 = r - 2 by omega] at e1
    have h0 : F P r * F P (r - 2) = 0 := by linear_combination e1
    have h0 := (mul_eq_zero.1 h0).resolve_right f2
    refine ⟨h0, f1, fun hz => ?_⟩
    have q := F_relx h2 hP (r - 1) (by omega)
    rw [show r - 1 + 1 = r by omega, show r - 1 + 2 = r + 1 by omega, h0, hz] at q
    have hy : yc P ≠ 0 := fun hy => by
      have := (two_nsmul_eq_zero_iff h2 hP).2 hy
      rw [← two_smul ℕ] at this
      exact hk 2 (by omega) (by omega) this
    have hq : (2 * yc P) ^ 2 * F P (r - 1) ^ 4 = 0 := by
      linear_combination -q + 4 * F P (r - 1) ^ 4 * eqn hP
    exact mul_ne_zero (pow_ne_zero 2 (mul_ne_zero h2 hy)) (pow_ne_zero 4 f1) hq

theorem F_dvd {r : ℕ} (hr : addOrderOf P = r) (hr0 : r ≠ 0) :
    ∀ n : ℕ, n ≠ 0 → ((r ∣ n → F P n = 0) ∧ (¬ r ∣ n → F P n ≠ 0)) := by
  obtain ⟨r2, z, m1, p1⟩ := F_order h2 hP hr hr0
  have hsmall : ∀ s, 1 ≤ s → s < r → F P s ≠ 0 := fun s h1 hs =>
    (F_before h2 hP s (by omega) (fun k k1 k2 h => by
      have := Nat.le_of_dvd (by omega) (addOrderOf_dvd_of_nsmul_eq_zero h)
      omega)).1
  have hmid : ∀ s, 1 ≤ s → s < r → F P (r + s) ≠ 0 := by
    intro s h1 hs h
    have := F_rel h2 hP s (r - s) (by omega) (by omega)
    rw [show s + (r - s) = r by omega, show 2 * s + (r - s) = r + s by omega, h, z] at this
    have : F P (r + 1) * F P (r - 1) * F P s ^ 2 = 0 := by linear_combination -this
    exact mul_ne_zero (mul_ne_zero p1 m1) (pow_ne_zero 2 (hsmall s h1 hs)) this
  intro n
  induction n using Nat.strong_induction_on with
  | _ n ih =>
  intro hn
  constructor
  · intro hd
    rcases (by omega : r = 2 ∨ 3 ≤ r) with h | h3
    · subst h
      obtain ⟨m, rfl⟩ := hd
      have hy : yc P = 0 := by
        have := hr ▸ addOrderOf_nsmul_eq_zero P
        rwa [two_smul, two_nsmul_eq_zero_iff h2 hP] at this
      exact F_even_of_y P hy m
    · have hle := Nat.le_of_dvd (by omega) hd
      rcases (by omega : n = r ∨ r < n) with rfl | hlt
      · exact z
      · have h2r : 2 * r ≤ n := by
          obtain ⟨q, rfl⟩ := hd
          have : 2 ≤ q := by
            by_contra hq
            have : q ≤ 1 := by omega
            nlinarith
          nlinarith
        have e := F_rel h2 hP (n - r - 1) r (by omega) (by omega)
        rw [show n - r - 1 + r + 1 = n by omega, show n - r - 1 + r - 1 = n - 2 by omega,
          show n - r - 1 + 1 = n - r by omega, show n - r - 1 - 1 = n - r - 2 by omega, z,
          (ih (n - r) (by omega) (by omega)).1 (Nat.dvd_sub hd (dvd_refl r))] at e
        have a1 := (ih (n - 2) (by omega) (by omega)).2 (fun h => by
          have := (Nat.dvd_sub hd h)
          rw [show n - (n - 2) = 2 by omega] at this
          have := Nat.le_of_dvd (by omega) this
          omega)
        have a2 := (ih (n - r - 1) (by omega) (by omega)).2 (fun h => by
          have := (Nat.dvd_sub (Nat.dvd_sub hd (dvd_refl r)) h)
          rw [show n - r - (n - r - 1) = 1 by omega] at this
          have := Nat.le_of_dvd (by omega) this
          omega)
        have : F P n * (F P (n - 2) * F P (n - r - 1) ^ 2) = 0 := by linear_combination -e
        exact (mul_eq_zero.1 this).resolve_right (mul_ne_zero a1 (pow_ne_zero 2 a2))
  · intro hd
    have hs1 : n % r ≠ 0 := fun h => hd (Nat.dvd_of_mod_eq_zero h)
    have hs2 : n % r < r := Nat.mod_lt _ (by omega)
    have hdm := Nat.div_add_mod n r
    rcases Nat.lt_or_ge (n / r) 2 with hq | hq
    · rcases (by generalize n / r = q at hq; omega : n / r = 0 ∨ n / r = 1) with hq | hq
      · rw [hq] at hdm
        exact hsmall n (by omega) (by omega)
      · rw [hq] at hdm
        have : n = r + n % r := by omega
        rw [this]
        exact hmid _ (by omega) hs2
    · set q := n / r / 2 with hqd
      set t := n / r % 2 with htd
      have ht : t < 2 := Nat.mod_lt _ (by omega)
      have hqt : 2 * q + t = n / r := by rw [hqd, htd]; omega
      have hq1 : 1 ≤ q := by omega
      have hqr : r ≤ r * q := Nat.le_mul_of_pos_right r (by omega)
      have hnq : n = 2 * (r * q) + (r * t + n % r) := by
        rw [← hqt] at hdm
        rw [mul_add] at hdm
        have : r * (2 * q) = 2 * (r * q) := by ring
        omega
      set k := r * t + n % r with hkd
      have hk1 : 1 ≤ k := by omega
      have hkr : k % r = n % r := by rw [hkd, Nat.mul_add_mod, Nat.mod_mod]
      have ndk : ¬ r ∣ k := fun h => hs1 (by rw [← hkr]; exact Nat.mod_eq_zero_of_dvd h)
      have ndqk : ¬ r ∣ r * q + k := fun h => ndk ((Nat.dvd_add_right (dvd_mul_right r q)).1 h)
      have e := F_rel h2 hP (r * q) k (by omega) (by omega)
      rw [(ih (r * q) (by omega) (by omega)).1 (dvd_mul_right r q), ← hnq] at e
      have b1 := (ih (r * q + 1) (by omega) (by omega)).2 (fun h => by
        have := (Nat.dvd_add_right (dvd_mul_right r q)).1 h
        have := Nat.le_of_dvd (by omega) this
        omega)
      have b2 := (ih (r * q - 1) (by omega) (by omega)).2 (fun h => by
        have := Nat.dvd_sub (dvd_mul_right r q) h
        rw [show r * q - (r * q - 1) = 1 by omega] at this
        have := Nat.le_of_dvd (by omega) this
        omega)
      have b3 := (ih (r * q + k) (by omega) (by omega)).2 ndqk
      intro h0
      rw [h0] at e
      have : F P (r * q + 1) * F P (r * q - 1) * F P (r * q + k) ^ 2 = 0 := by linear_combination e
      exact mul_ne_zero (mul_ne_zero b1 b2) (pow_ne_zero 2 b3) this

/-- The division polynomials vanish exactly at the torsion points. -/
theorem F_eq_zero_iff (n : ℕ) (hn : n ≠ 0) : F P n = 0 ↔ n • P = 0 := by
  rcases Nat.eq_zero_or_pos (addOrderOf P) with h0 | hpos
  · have hk : ∀ k, k ≠ 0 → k • P ≠ 0 := fun k hk h => by
      have := addOrderOf_dvd_of_nsmul_eq_zero h
      rw [h0] at this
      exact hk (Nat.eq_zero_of_zero_dvd this)
    exact iff_of_false (F_before h2 hP n hn (fun k h _ => hk k (by omega))).1 (hk n hn)
  · have h := F_dvd h2 hP rfl hpos.ne' n hn
    rw [← addOrderOf_dvd_iff_nsmul_eq_zero]
    exact ⟨fun hz => by_contra fun hd => h.2 hd hz, h.1⟩

/-- The `x`-coordinates of the multiples. -/
theorem F_x (n : ℕ) (hn : n ≠ 0) (h : n • P ≠ 0) :
    xc (n • P) * F P n ^ 2 = xc P * F P n ^ 2 - F P (n + 1) * F P (n - 1) := by
  induction n using Nat.strong_induction_on with
  | _ n ih =>
  by_cases hk : ∀ k, 1 ≤ k → k ≤ n → k • P ≠ 0
  · exact (F_before h2 hP n hn hk).2
  · push Not at hk
    obtain ⟨r, r1, rn, hr⟩ := hk
    have hrn : r ≠ n := fun e => h (e ▸ hr)
    obtain ⟨m, rfl⟩ : ∃ m, n = m + r := ⟨n - r, by omega⟩
    have hm : m • P = (m + r) • P := by rw [add_smul, hr, add_zero]
    rw [← hm] at h ⊢
    have e := ih m (by omega) (by omega) h
    have f := fun hz => h ((F_eq_zero_iff h2 hP m (by omega)).1 hz)
    have z := (F_eq_zero_iff h2 hP r (by omega)).2 hr
    have q := F_rel h2 hP m r (by omega) (by omega)
    rw [z] at q
    apply mul_right_cancel₀ (pow_ne_zero 2 f)
    linear_combination F P (m + r) ^ 2 * e - q

/-- The `y`-coordinates of the multiples. -/
theorem F_y (n : ℕ) (hn : n ≠ 0) (h : n • P ≠ 0) :
    2 * yc (n • P) * F P n ^ 4 = F P (2 * n) := by
  by_cases hy : yc P = 0
  · have h2P : 2 • P = 0 := by rw [two_smul, two_nsmul_eq_zero_iff h2 hP]; exact hy
    have : yc (n • P) = 0 := by
      rw [← two_nsmul_eq_zero_iff h2 h, ← two_smul ℕ, smul_smul, mul_comm, mul_smul, h2P, smul_zero]
    rw [this, F_even_of_y P hy]
    ring
  rcases (by omega : n = 1 ∨ 2 ≤ n) with rfl | hn2
  · rw [one_smul, F_one, mul_one, F_two]; ring
  have hy2 := mul_ne_zero h2 hy
  have hB := eqn hP
  have ev := F_even P n hn2
  have rx := F_relx h2 hP n hn2
  have hsub : n • P - P = (n - 1) • P := by
    obtain ⟨k, rfl⟩ := Nat.exists_eq_add_of_le' (show 1 ≤ n by omega)
    rw [add_smul, one_smul, Nat.add_sub_cancel, add_sub_cancel_right]
  apply mul_right_cancel₀ hy2
  by_cases hx : xc (n • P) = xc P
  · rcases (xc_eq_iff h hP).1 hx with e | e
    · have z : F P (n - 1) = 0 := by
        rw [F_eq_zero_iff h2 hP _ (by omega), ← hsub, e, sub_self]
      rw [e, ev]
      rw [z] at rx ⊢
      linear_combination -rx + 4 * F P n ^ 4 * hB
    · have z : F P (n + 1) = 0 := by
        rw [F_eq_zero_iff h2 hP _ (by omega), succ_nsmul, e]; simp
      rw [e, ev, yc_neg]
      rw [z] at rx ⊢
      linear_combination rx - 4 * F P n ^ 4 * hB
  · have hp : (n + 1) • P ≠ 0 := by
      rw [succ_nsmul]; exact add_ne_zero_of_xc h hP hx
    have hm : (n - 1) • P ≠ 0 := by
      rw [← hsub, sub_eq_add_neg]
      exact add_ne_zero_of_xc h (by simpa using hP) (by rwa [xc_neg])
    have e0 := F_x h2 hP n hn h
    have e1 := F_x h2 hP (n + 1) (by omega) hp
    have e2 := F_x h2 hP (n - 1) (by omega) hm
    rw [show n + 1 + 1 = n + 2 by omega, show n + 1 - 1 = n by omega] at e1
    rw [show n - 1 + 1 = n by omega, show n - 1 - 1 = n - 2 by omega] at e2
    have q := xc_add_sub h hP hx
    rw [← succ_nsmul, hsub] at q
    rw [ev]
    generalize xc ((n + 1) • P) = x1 at *
    generalize xc ((n - 1) • P) = x0 at *
    have k0 : F P (n + 1) * F P (n - 1) = (xc P - xc (n • P)) * F P n ^ 2 := by linear_combination e0
    have k1 : F P n * F P (n + 2) = (xc P - x1) * F P (n + 1) ^ 2 := by linear_combination e1
    have k2 : F P n * F P (n - 2) = (xc P - x0) * F P (n - 1) ^ 2 := by linear_combination e2
    have : F P (n - 1) ^ 2 * F P n * F P (n + 2) - F P (n - 2) * F P n * F P (n + 1) ^ 2
        = (x0 - x1) * (F P (n + 1) * F P (n - 1)) ^ 2 := by
      linear_combination F P (n - 1) ^ 2 * k1 - F P (n + 1) ^ 2 * k2
    rw [this, k0]
    linear_combination F P n ^ 4 * q

/-- The formula used for `ω`. -/
theorem F_omega (n : ℕ) (hn : 2 ≤ n) (h : n • P ≠ 0) :
    4 * yc P * (yc (n • P) * F P n ^ 3) = F P (n + 2) * F P (n - 1) ^ 2 - F P (n - 2) * F P (n + 1) ^ 2 := by
  have f : F P n ≠ 0 := fun hz => h ((F_eq_zero_iff h2 hP n (by omega)).1 hz)
  apply mul_right_cancel₀ f
  have e := F_y h2 hP n (by omega) h
  have ev := F_even P n hn
  rw [← e] at ev
  linear_combination ev

/-- `φ` and `ψ` have no common zero. -/
theorem F_phi_ne (n : ℕ) (hn : n ≠ 0) (h : n • P = 0) : F P (n + 1) * F P (n - 1) ≠ 0 := by
  have hn1 : n ≠ 1 := by rintro rfl; exact hP (by simpa using h)
  apply mul_ne_zero
  · rw [Ne, F_eq_zero_iff h2 hP _ (by omega), succ_nsmul, h, zero_add]; exact hP
  · rw [Ne, F_eq_zero_iff h2 hP _ (by omega)]
    intro h'
    have : n • P = (n - 1) • P + P := by rw [← succ_nsmul, show n - 1 + 1 = n by omega]
    rw [h, h', zero_add] at this
    exact hP this.symm

end EC.EDS
