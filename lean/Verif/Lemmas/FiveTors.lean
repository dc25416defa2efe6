import Verif.Lemmas.ModThree
import Mathlib.Tactic.Module

/-! The test on `y` for `l = 5`, for an additive map `σ` on the points of order 5 with `σ^2 P + c P = ± σ P`. -/

namespace EC
open Poly Polynomial WeierstrassCurve EDS

/-- A multiple of a point of order 5 is zero only for a multiplier divisible by 5. -/
theorem five_dvd {G : Type*} [AddCommGroup G] {P : G} (hP : P ≠ 0) (h5 : (5 : ℤ) • P = 0) {k : ℤ} (h : k • P = 0) :
    (5 : ℤ) ∣ k := by
  by_contra hc
  apply hP
  have hr : k = 5 * (k / 5) + k % 5 := by omega
  have hm : (k % 5) • P = 0 := by
    rw [hr] at h
    linear_combination (norm := module) h - (k / 5) • h5
  have : k % 5 = 1 ∨ k % 5 = 2 ∨ k % 5 = 3 ∨ k % 5 = 4 := by omega
  rcases this with h0 | h0 | h0 | h0 <;> rw [h0] at hm
  · rwa [one_smul] at hm
  · linear_combination (norm := module) h5 - (2 : ℤ) • hm
  · linear_combination (norm := module) (2 : ℤ) • hm - h5
  · linear_combination (norm := module) h5 - hm

theorem smul_ne_five {G : Type*} [AddCommGroup G] {P : G} (hP : P ≠ 0) (h5 : (5 : ℤ) • P = 0) {k : ℤ}
    (h : ¬ (5 : ℤ) ∣ k) : k • P ≠ 0 := fun h0 => h (five_dvd hP h5 h0)

section
variable {K : Type} [Field K] [DecidableEq K] {a b : ℤ}

theorem yc_ne_of_five (h2 : (2 : K) ≠ 0) {P : Pt (a : K) b} (hP : P ≠ 0) (h5 : (5 : ℤ) • P = 0) : yc P ≠ 0 := by
  intro h0
  have := (two_nsmul_eq_zero_iff h2 hP).2 h0
  exact smul_ne_five hP h5 (k := 2) (by norm_num) (by rw [two_smul]; exact this)

/-- Three points on a line, in the case of the sum. -/
theorem three_right' (h2 : (2 : K) ≠ 0) {A R J : Pt (a : K) b} (hA : A ≠ 0) (hR : R ≠ 0) (hs : A + R = J)
    (hx : xc A ≠ xc R) (hd : yDefect A R J = 0) :
    xc A = 0 ∨ (yc A = yc R ∧ yc A = -yc J ∧ xc A + xc R + xc J = 0) := by
  have h1 := (three_right h2 (P2 := -J) hA hR (by rw [hs]; abel) hx).1 (by rwa [neg_neg])
  rcases h1 with h1 | h1
  · exact .inl h1
  · right
    have hX := xc_add hA hR hx
    have hY := yc_add hA hR hx
    rw [hs] at hX hY
    have hne := sub_ne_zero.2 hx
    refine ⟨h1, ?_, ?_⟩
    · apply mul_right_cancel₀ hne
      rw [h1] at hY ⊢
      linear_combination hY
    · apply mul_right_cancel₀ (pow_ne_zero 2 hne)
      rw [h1] at hX
      linear_combination hX

/-- Three points on a line, in the case of the difference. -/
theorem three_neg (h2 : (2 : K) ≠ 0) {A R J : Pt (a : K) b} (hA : A ≠ 0) (hR : R ≠ 0) (hs : A + R = -J)
    (hx : xc A ≠ xc R) (hd : yDefect A R J = 0) :
    ∃ L : K, yc J = -xc A * L ∧ yc A = -xc J * L ∧ yc R = yc A + L * (xc R - xc A) ∧
      L ^ 2 = xc A + xc R + xc J := by
  have hne := sub_ne_zero.2 hx
  have hX := xc_add hA hR hx
  have hY := yc_add hA hR hx
  rw [yDefect_of_ne hA hR hx, hs, yc_neg] at hd
  rw [hs, xc_neg] at hX hY
  rw [yc_neg] at hY
  have hd' := (mul_eq_zero.1 hd).resolve_left (pow_ne_zero 2 hne)
  obtain ⟨L, hL⟩ : ∃ L, yc A - yc R = L * (xc A - xc R) := ⟨(yc A - yc R) / (xc A - xc R), by field_simp⟩
  have e1 : yc J = -xc A * L := by
    apply mul_left_cancel₀ h2
    apply mul_right_cancel₀ hne
    linear_combination -hd' - 2 * xc A * hL
  refine ⟨L, e1, ?_, ?_, ?_⟩
  · apply mul_right_cancel₀ hne
    linear_combination hY + (xc A - xc R) * e1 + (xc A - xc J) * hL
  · linear_combination -hL
  · apply mul_right_cancel₀ (pow_ne_zero 2 hne)
    rw [hL] at hX
    linear_combination -hX

/-- A horizontal line through `A`, `B`, `C` for which the line through `A - B` and `B - C` is horizontal as well. -/
theorem a_of_two_lines (h2 : (2 : K) ≠ 0) (h3 : (3 : K) ≠ 0) {A B C : Pt (a : K) b} (hA : A ≠ 0) (hB : B ≠ 0)
    (hC : C ≠ 0) (xAB : xc A ≠ xc B) (xBC : xc B ≠ xc C) (xCA : xc C ≠ xc A) (yB : yc B = yc A) (yC : yc C = yc A)
    (y0 : yc A ≠ 0) (hx : xc A + xc B + xc C = 0) (hs : xc (A - B) + xc (B - C) + xc (C - A) = 0) : (a : K) = 0 := by
  have aux : ∀ {P Q : Pt (a : K) b}, P ≠ 0 → Q ≠ 0 → xc P ≠ xc Q →
      xc (P - Q) * (xc P - xc Q) ^ 2 = (yc P + yc Q) ^ 2 - (xc P + xc Q) * (xc P - xc Q) ^ 2 := by
    intro P Q hP hQ h
    have := xc_add (A := P) (B := -Q) hP (neg_ne_zero.2 hQ) (by rwa [xc_neg])
    rw [xc_neg, yc_neg, ← sub_eq_add_neg, sub_neg_eq_add] at this
    exact this
  have e1 := aux hA hB xAB
  have e2 := aux hB hC xBC
  have e3 := aux hC hA xCA
  have q1 := eqn hA
  have q2 := eqn hB
  have q3 := eqn hC
  rw [yB] at e1 e2 q2
  rw [yC] at e2 e3 q3
  have n1 := sub_ne_zero.2 xAB
  have n2 := sub_ne_zero.2 xBC
  have n3 := sub_ne_zero.2 xCA
  generalize xc (A - B) = u at *
  generalize xc (B - C) = v at *
  generalize xc (C - A) = w at *
  generalize yc A = y at *
  clear aux
  generalize xc A = x at *
  generalize xc B = z at *
  generalize xc C = t at *
  have ht : t = -x - z := by linear_combination hx
  have ha : (a : K) = -(x ^ 2 + x * z + z ^ 2) := by
    apply mul_left_cancel₀ n1
    linear_combination q2 - q1
  have f1 : u * (x - z) ^ 2 = 4 * y ^ 2 + t * (x - z) ^ 2 := by rw [ht]; linear_combination e1
  have f2 : v * (z - t) ^ 2 = 4 * y ^ 2 + x * (z - t) ^ 2 := by rw [ht] at e2 ⊢; linear_combination e2
  have f3 : w * (t - x) ^ 2 = 4 * y ^ 2 + z * (t - x) ^ 2 := by rw [ht] at e3 ⊢; linear_combination e3
  have key : 4 * y ^ 2 * ((z - t) ^ 2 * (t - x) ^ 2 + (x - z) ^ 2 * (t - x) ^ 2 + (x - z) ^ 2 * (z - t) ^ 2) = 0 := by
    linear_combination -(z - t) ^ 2 * (t - x) ^ 2 * f1 - (x - z) ^ 2 * (t - x) ^ 2 * f2 -
      (x - z) ^ 2 * (z - t) ^ 2 * f3 + (x - z) ^ 2 * (z - t) ^ 2 * (t - x) ^ 2 * (hs - hx)
  have h4 : (4 : K) ≠ 0 := by rw [show (4 : K) = 2 * 2 by norm_num]; exact mul_ne_zero h2 h2
  have key2 := (mul_eq_zero.1 key).resolve_left (mul_ne_zero h4 (pow_ne_zero 2 y0))
  have key3 : (3 * (a : K)) ^ 2 = 0 := by
    rw [ha]
    rw [ht] at key2
    linear_combination key2
  exact (mul_eq_zero.1 (pow_eq_zero_iff two_ne_zero |>.1 key3)).resolve_left h3


section
variable {σ : Pt (a : K) b →+ Pt (a : K) b} {c e : ℤ}

theorem sig_tors {P : Pt (a : K) b} (h5 : (5 : ℤ) • P = 0) : (5 : ℤ) • σ P = 0 := by
  rw [← map_zsmul, h5, map_zero]

variable (hσ : ∀ P : Pt (a : K) b, (5 : ℤ) • P = 0 → σ (σ P) + c • P = e • σ P) (hc : ¬ (5 : ℤ) ∣ c)
include hσ

theorem sig_eig {P : Pt (a : K) b} (hP : P ≠ 0) (h5 : (5 : ℤ) • P = 0) {m : ℤ} (h : σ P = m • P) :
    (5 : ℤ) ∣ m * m - e * m + c := by
  apply five_dvd hP h5
  have h1 := hσ P h5
  have h2 : σ (σ P) = m • m • P := by rw [h, map_zsmul, h]
  rw [h2, h] at h1
  linear_combination (norm := module) h1

include hc

theorem sig_ne {P : Pt (a : K) b} (hP : P ≠ 0) (h5 : (5 : ℤ) • P = 0) : σ P ≠ 0 := by
  intro h0
  have h1 := hσ P h5
  rw [h0, map_zero, smul_zero, zero_add] at h1
  exact smul_ne_five hP h5 hc h1

/-- The x-coordinates of `c P` and `σ^2 P` are different unless the points are equal. -/
theorem sig_xc (he : ¬ (5 : ℤ) ∣ e) {P : Pt (a : K) b} (hP : P ≠ 0) (h5 : (5 : ℤ) • P = 0) (h : σ (σ P) ≠ c • P) :
    xc (c • P) ≠ xc (σ (σ P)) := by
  intro hx
  have n1 := sig_ne hσ hc hP h5
  have n2 := sig_ne hσ hc n1 (sig_tors h5)
  rcases (xc_eq_iff (smul_ne_five hP h5 hc) n2).1 hx with h' | h'
  · exact h h'.symm
  · have h1 := hσ P h5
    rw [h', add_neg_cancel] at h1
    exact smul_ne_five n1 (sig_tors h5) he h1.symm

theorem pos_step (h2 : (2 : K) ≠ 0) (he : e = 1) {P : Pt (a : K) b} (hP : P ≠ 0) (h5 : (5 : ℤ) • P = 0)
    (hd : yDefect (c • P) (σ (σ P)) (σ P) = 0) :
    σ (σ P) = c • P ∨ xc (c • P) = 0 ∨
      (yc (c • P) = yc (σ (σ P)) ∧ yc (c • P) = -yc (σ P) ∧ xc (c • P) + xc (σ (σ P)) + xc (σ P) = 0) := by
  by_cases h : σ (σ P) = c • P
  · exact .inl h
  right
  have n1 := sig_ne hσ hc hP h5
  have n2 := sig_ne hσ hc n1 (sig_tors h5)
  refine three_right' h2 (smul_ne_five hP h5 hc) n2 ?_ (sig_xc hσ hc (by rw [he]; norm_num) hP h5 h) hd
  rw [add_comm, hσ P h5, he, one_smul]

theorem neg_step (h2 : (2 : K) ≠ 0) (he : e = -1) {P : Pt (a : K) b} (hP : P ≠ 0) (h5 : (5 : ℤ) • P = 0)
    (hd : yDefect (c • P) (σ (σ P)) (σ P) = 0) :
    σ (σ P) = c • P ∨ ∃ L : K, yc (σ P) = -xc (c • P) * L ∧ yc (c • P) = -xc (σ P) * L ∧
      yc (σ (σ P)) = yc (c • P) + L * (xc (σ (σ P)) - xc (c • P)) ∧
      L ^ 2 = xc (c • P) + xc (σ (σ P)) + xc (σ P) := by
  by_cases h : σ (σ P) = c • P
  · exact .inl h
  right
  have n1 := sig_ne hσ hc hP h5
  have n2 := sig_ne hσ hc n1 (sig_tors h5)
  refine three_neg h2 (smul_ne_five hP h5 hc) n2 ?_ (sig_xc hσ hc (by rw [he]; norm_num) hP h5 h) hd
  rw [add_comm, hσ P h5, he, neg_smul, one_smul]

end

/-- An integer multiple of a point of order 5 with the same x-coordinate. -/
theorem xc_two_ne {P : Pt (a : K) b} (hP : P ≠ 0) (h5 : (5 : ℤ) • P = 0) : xc ((2 : ℤ) • P) ≠ xc P := by
  intro hx
  rcases (xc_eq_iff (smul_ne_five hP h5 (by norm_num)) hP).1 hx with h | h
  · apply hP
    linear_combination (norm := module) h
  · apply smul_ne_five hP h5 (k := 3) (by norm_num)
    linear_combination (norm := module) h

theorem yc_four {P : Pt (a : K) b} (h5 : (5 : ℤ) • P = 0) : yc ((4 : ℤ) • P) = -yc P ∧ xc ((4 : ℤ) • P) = xc P := by
  have : (4 : ℤ) • P = -P := by linear_combination (norm := module) h5
  rw [this, yc_neg, xc_neg]
  exact ⟨rfl, rfl⟩

section
variable {σ : Pt (a : K) b →+ Pt (a : K) b} {c : ℤ}

/-- Sum, `c = 2`. -/
theorem five_pos_two (h2 : (2 : K) ≠ 0)
    (hσ : ∀ P : Pt (a : K) b, (5 : ℤ) • P = 0 → σ (σ P) + (2 : ℤ) • P = (1 : ℤ) • σ P)
    (hz : ∀ P : Pt (a : K) b, P ≠ 0 → (5 : ℤ) • P = 0 → xc P = 0 → ∃ m : ℤ, σ P = m • P)
    (hd : ∀ P : Pt (a : K) b, P ≠ 0 → (5 : ℤ) • P = 0 → yDefect ((2 : ℤ) • P) (σ (σ P)) (σ P) = 0)
    {P : Pt (a : K) b} (hP : P ≠ 0) (h5 : (5 : ℤ) • P = 0) : False := by
  have noeig : ∀ {P : Pt (a : K) b} (m : ℤ), P ≠ 0 → (5 : ℤ) • P = 0 → σ P ≠ m • P := by
    intro P m hP h5 h
    have h1 := sig_eig hσ hP h5 h
    have : m % 5 = 0 ∨ m % 5 = 1 ∨ m % 5 = 2 ∨ m % 5 = 3 ∨ m % 5 = 4 := by omega
    have h3 := Int.emod_eq_zero_of_dvd h1
    rcases this with h | h | h | h | h <;> simp [Int.sub_emod, Int.add_emod, Int.mul_emod, h] at h3
  have step : ∀ {P : Pt (a : K) b}, P ≠ 0 → (5 : ℤ) • P = 0 → yc ((2 : ℤ) • P) = yc (σ (σ P)) ∧
      yc ((2 : ℤ) • P) = -yc (σ P) := by
    intro P hP h5
    rcases pos_step hσ (by norm_num) h2 rfl hP h5 (hd P hP h5) with h | h | h
    · exfalso
      apply noeig 4 hP h5
      have := hσ P h5
      linear_combination (norm := module) h - this
    · exfalso
      obtain ⟨m, hm⟩ := hz _ (smul_ne_five hP h5 (by norm_num)) (by rw [smul_comm, h5, smul_zero]) h
      exact noeig m (smul_ne_five hP h5 (by norm_num)) (by rw [smul_comm, h5, smul_zero]) hm
    · exact ⟨h.1, h.2.1⟩
  -- `y(2 Q) = y(Q)` for `Q = σ R`
  have dbl : ∀ {R : Pt (a : K) b}, R ≠ 0 → (5 : ℤ) • R = 0 → yc ((2 : ℤ) • σ R) = yc (σ R) := by
    intro R hR h5
    have hQ := sig_ne hσ (by norm_num) hR h5
    have s1 := step hR h5
    have s2 := step hQ (sig_tors h5)
    rw [s2.2, ← s1.1, s1.2, neg_neg]
  have d1 := dbl hP h5
  have d2 := dbl (smul_ne_five hP h5 (k := 2) (by norm_num)) (by rw [smul_comm, h5, smul_zero])
  rw [map_zsmul, smul_smul, d1] at d2
  norm_num at d2
  rw [(yc_four (sig_tors h5)).1] at d2
  apply yc_ne_of_five h2 (sig_ne hσ (by norm_num) hP h5) (sig_tors h5)
  apply mul_left_cancel₀ h2
  linear_combination -d2

/-- Sum, `c = -2`. -/
theorem five_pos_neg_two (h2 : (2 : K) ≠ 0)
    (hσ : ∀ P : Pt (a : K) b, (5 : ℤ) • P = 0 → σ (σ P) + (-2 : ℤ) • P = (1 : ℤ) • σ P)
    (hd : ∀ P : Pt (a : K) b, P ≠ 0 → (5 : ℤ) • P = 0 → yDefect ((-2 : ℤ) • P) (σ (σ P)) (σ P) = 0)
    {P : Pt (a : K) b} (hP : P ≠ 0) (h5 : (5 : ℤ) • P = 0) : False := by
  have eig : ∃ m : ℤ, (m = 2 ∨ m = -1) ∧ ∃ P : Pt (a : K) b, P ≠ 0 ∧ (5 : ℤ) • P = 0 ∧ σ P = m • P := by
    by_cases h : σ P = (2 : ℤ) • P
    · exact ⟨2, .inl rfl, P, hP, h5, h⟩
    · refine ⟨-1, .inr rfl, σ P - (2 : ℤ) • P, sub_ne_zero.2 h, ?_, ?_⟩
      · rw [smul_sub, sig_tors h5, smul_comm, h5, smul_zero, sub_zero]
      · have := hσ P h5
        rw [map_sub, map_zsmul]
        linear_combination (norm := module) this
  obtain ⟨m, hm, P, hP, h5, hPm⟩ := eig
  -- on the line of an eigenvector
  have step : ∀ {P : Pt (a : K) b}, P ≠ 0 → (5 : ℤ) • P = 0 → σ P = m • P →
      xc ((2 : ℤ) • P) = 0 ∨ (m = 2 ∧ yc ((2 : ℤ) • P) = yc P ∧ xc P + 2 * xc ((2 : ℤ) • P) = 0) ∨
        (m = -1 ∧ yc ((2 : ℤ) • P) = -yc P ∧ 2 * xc P + xc ((2 : ℤ) • P) = 0) := by
    intro P hP h5 hPm
    have h1 := hd P hP h5
    have hx : xc ((-2 : ℤ) • P) = xc ((2 : ℤ) • P) := by rw [neg_smul, xc_neg]
    have hy : yc ((-2 : ℤ) • P) = -yc ((2 : ℤ) • P) := by rw [neg_smul, yc_neg]
    rcases pos_step hσ (by norm_num) h2 rfl hP h5 h1 with h | h | h
    · exfalso
      rw [hPm, map_zsmul, hPm, smul_smul] at h
      have h3 : (m * m + 2) • P = 0 := by linear_combination (norm := module) h
      have := five_dvd hP h5 h3
      rcases hm with rfl | rfl <;> norm_num at this
    · exact .inl (hx.symm.trans h)
    · right
      rw [hx, hy] at h
      rw [hPm, map_zsmul, hPm, smul_smul] at h
      rcases hm with rfl | rfl
      · left
        norm_num at h
        rw [(yc_four h5).1, (yc_four h5).2] at h
        refine ⟨rfl, ?_, ?_⟩
        · linear_combination -h.1
        · linear_combination h.2
      · right
        norm_num at h
        rw [xc_neg] at h
        refine ⟨rfl, ?_, ?_⟩
        · linear_combination -h.1
        · linear_combination h.2.2
  have hP2 : (2 : ℤ) • P ≠ 0 := smul_ne_five hP h5 (by norm_num)
  have h52 : (5 : ℤ) • (2 : ℤ) • P = 0 := by rw [smul_comm, h5, smul_zero]
  have s1 := step hP h5 hPm
  have s2 := step hP2 h52 (by rw [map_zsmul, hPm, smul_comm])
  have hne := xc_two_ne hP h5
  have hy := yc_ne_of_five h2 hP h5
  rw [smul_smul, show (2 : ℤ) * 2 = 4 by norm_num, (yc_four h5).1, (yc_four h5).2] at s2
  have h0 : yc P ≠ -yc P := by
    intro h; apply hy; apply mul_left_cancel₀ h2; linear_combination h
  rcases s1 with s1 | ⟨e1, s1, s1'⟩ | ⟨e1, s1, s1'⟩
  · rcases s2 with s2 | ⟨-, -, s2⟩ | ⟨-, -, s2⟩
    · exact hne (s1.trans s2.symm)
    · rw [s1, zero_add] at s2
      exact hne (s1.trans ((mul_eq_zero.1 s2).resolve_left h2).symm)
    · rw [s1, mul_zero, zero_add] at s2
      exact hne (s1.trans s2.symm)
  · rcases s2 with s2 | ⟨-, s2, -⟩ | ⟨e2, -, -⟩
    · rw [s2, zero_add] at s1'
      exact hne (((mul_eq_zero.1 s1').resolve_left h2).trans s2.symm)
    · exact h0 (s1 ▸ s2).symm
    · omega
  · rcases s2 with s2 | ⟨e2, -, -⟩ | ⟨-, s2, -⟩
    · rw [s2, mul_zero, zero_add] at s1'
      exact hne (s1'.trans s2.symm)
    · omega
    · rw [s1, neg_neg] at s2
      exact h0 s2.symm

/-- Sum, `c = -1`: the map is the multiplication by 3. -/
theorem five_pos_neg_one (h2 : (2 : K) ≠ 0)
    (hσ : ∀ P : Pt (a : K) b, (5 : ℤ) • P = 0 → σ (σ P) + (-1 : ℤ) • P = (1 : ℤ) • σ P)
    (hz : ∀ P : Pt (a : K) b, P ≠ 0 → (5 : ℤ) • P = 0 → xc P = 0 → ∃ m : ℤ, σ P = m • P)
    (hd : ∀ P : Pt (a : K) b, P ≠ 0 → (5 : ℤ) • P = 0 → yDefect ((-1 : ℤ) • P) (σ (σ P)) (σ P) = 0)
    {P : Pt (a : K) b} (h5 : (5 : ℤ) • P = 0) : σ P = (3 : ℤ) • P := by
  by_contra hne
  have nE : ∀ {P : Pt (a : K) b} {m : ℤ}, (5 : ℤ) • P = 0 → σ P = m • P → σ P = (3 : ℤ) • P := by
    intro P m h5 hm
    by_cases hP : P = 0
    · rw [hP, map_zero, smul_zero]
    have h1 := sig_eig hσ hP h5 hm
    have h3 : m % 5 = 3 := by
      have : m % 5 = 0 ∨ m % 5 = 1 ∨ m % 5 = 2 ∨ m % 5 = 3 ∨ m % 5 = 4 := by omega
      have h3 := Int.emod_eq_zero_of_dvd h1
      rcases this with h | h | h | h | h <;> simp [Int.sub_emod, Int.add_emod, Int.mul_emod, h] at h3 ⊢
    have h4 : m = 5 * (m / 5) + 3 := by omega
    rw [hm, h4]
    linear_combination (norm := module) (m / 5) • h5
  have step : ∀ {P : Pt (a : K) b}, (5 : ℤ) • P = 0 → σ P ≠ (3 : ℤ) • P →
      yc (P - (σ P - (3 : ℤ) • P)) = yc P := by
    intro P h5 hne
    have hP : P ≠ 0 := by rintro rfl; exact hne (by rw [map_zero, smul_zero])
    have h1 := hσ P h5
    rcases pos_step hσ (by norm_num) h2 rfl hP h5 (hd P hP h5) with h | h | h
    · exfalso
      apply hne
      linear_combination (norm := module) h - h1 - h5
    · exfalso
      rw [neg_smul, one_smul, xc_neg] at h
      obtain ⟨m, hm⟩ := hz P hP h5 h
      exact hne (nE h5 hm)
    · have e1 : P - (σ P - (3 : ℤ) • P) = -σ (σ P) := by
        linear_combination (norm := module) h5 + h1
      rw [e1, yc_neg, ← h.1, neg_smul, one_smul, yc_neg, neg_neg]
  set E := σ P - (3 : ℤ) • P with hE
  have hE0 : E ≠ 0 := sub_ne_zero.2 hne
  have h5E : (5 : ℤ) • E = 0 := by rw [hE, smul_sub, sig_tors h5, smul_comm, h5, smul_zero, sub_zero]
  have h1 := hσ P h5
  have σE : σ E = (3 : ℤ) • E := by
    rw [hE, map_sub, map_zsmul]
    linear_combination (norm := module) h1 - sig_tors (σ := σ) h5 + (2 : ℤ) • h5
  have s1 := step h5 hne
  have hP1 : σ (P - E) - (3 : ℤ) • (P - E) = E := by
    rw [map_sub, σE, hE]; module
  have h51 : (5 : ℤ) • (P - E) = 0 := by rw [smul_sub, h5, h5E, sub_zero]
  have s2 := step h51 (by rw [← sub_ne_zero, hP1]; exact hE0)
  rw [hP1] at s2
  rw [← hE] at s1
  have hP : P ≠ 0 := by rintro rfl; exact hne (by rw [map_zero, smul_zero])
  have notm : ∀ k : ℤ, P ≠ k • E := by
    intro k hk
    apply hne
    rw [hk, map_zsmul, σE, smul_comm]
  have nP1 : P - E ≠ 0 := fun h => notm 1 (by linear_combination (norm := module) h)
  have nP2 : P - E - E ≠ 0 := fun h => notm 2 (by linear_combination (norm := module) h)
  have y0 := yc_ne_of_five h2 hP h5
  have x1 : xc P ≠ xc (P - E) := fun hx => hE0 (by
    have := EDS.ext hP nP1 hx s1.symm
    linear_combination (norm := module) this)
  -- the third point on the line
  have hX := xc_add hP nP1 x1
  have hY := yc_add hP nP1 x1
  rw [s1] at hX hY
  have hxx : xc (P + (P - E)) = -xc P - xc (P - E) := by
    apply mul_right_cancel₀ (pow_ne_zero 2 (sub_ne_zero.2 x1))
    linear_combination hX
  have e1 := eqn hP
  have e2 := eqn nP1
  have e3 := eqn nP2
  rw [s1] at e2
  rw [s2, s1] at e3
  have x2 : xc P ≠ xc (P - E - E) := fun hx => hE0 (by
    have h3 := EDS.ext hP nP2 hx (s1.symm.trans s2.symm)
    have : (2 : ℤ) • E = 0 := by linear_combination (norm := module) h3
    by_contra h0
    exact smul_ne_five h0 h5E (k := 2) (by norm_num) this)
  have x3 : xc (P - E) ≠ xc (P - E - E) := fun hx => hE0 (by
    have h3 := EDS.ext nP1 nP2 hx s2.symm
    linear_combination (norm := module) h3)
  have hsum : xc P + xc (P - E) + xc (P - E - E) = 0 := by
    have f1 : xc P ^ 2 + xc P * xc (P - E) + xc (P - E) ^ 2 + a = 0 := by
      apply mul_left_cancel₀ (sub_ne_zero.2 x1); linear_combination e2 - e1
    have f2 : xc P ^ 2 + xc P * xc (P - E - E) + xc (P - E - E) ^ 2 + a = 0 := by
      apply mul_left_cancel₀ (sub_ne_zero.2 x2); linear_combination e3 - e1
    apply mul_left_cancel₀ (sub_ne_zero.2 x3); linear_combination f1 - f2
  have n12 : P + (P - E) ≠ 0 := add_ne_zero_of_xc hP nP1 x1
  have hx4 : xc (P - E - E) = xc (P + (P - E)) := by rw [hxx]; linear_combination hsum
  rcases (xc_eq_iff nP2 n12).1 hx4 with h | h
  · apply notm (-1)
    linear_combination (norm := module) -h
  · apply notm 1
    linear_combination (norm := module) (2 : ℤ) • h - h5 + h5E


/-- Sum, `c = 1`: the coefficient `a` is zero. -/
theorem five_pos_one (h2 : (2 : K) ≠ 0) (h3 : (3 : K) ≠ 0)
    (hσ : ∀ P : Pt (a : K) b, (5 : ℤ) • P = 0 → σ (σ P) + (1 : ℤ) • P = (1 : ℤ) • σ P)
    (hz : ∀ P : Pt (a : K) b, P ≠ 0 → (5 : ℤ) • P = 0 → xc P = 0 → ∃ m : ℤ, σ P = m • P)
    (hd : ∀ P : Pt (a : K) b, P ≠ 0 → (5 : ℤ) • P = 0 → yDefect ((1 : ℤ) • P) (σ (σ P)) (σ P) = 0)
    {P : Pt (a : K) b} (hP : P ≠ 0) (h5 : (5 : ℤ) • P = 0) : (a : K) = 0 := by
  have noeig : ∀ {P : Pt (a : K) b} (m : ℤ), P ≠ 0 → (5 : ℤ) • P = 0 → σ P ≠ m • P := by
    intro P m hP h5 h
    have h1 := sig_eig hσ hP h5 h
    have : m % 5 = 0 ∨ m % 5 = 1 ∨ m % 5 = 2 ∨ m % 5 = 3 ∨ m % 5 = 4 := by omega
    have h3 := Int.emod_eq_zero_of_dvd h1
    rcases this with h | h | h | h | h <;> simp [Int.sub_emod, Int.add_emod, Int.mul_emod, h] at h3
  have step : ∀ {P : Pt (a : K) b}, P ≠ 0 → (5 : ℤ) • P = 0 → yc P = yc (σ (σ P)) ∧ yc P = -yc (σ P) ∧
      xc P + xc (σ (σ P)) + xc (σ P) = 0 := by
    intro P hP h5
    rcases pos_step hσ (by norm_num) h2 rfl hP h5 (hd P hP h5) with h | h | h
    · exfalso
      apply noeig 2 hP h5
      have := hσ P h5
      linear_combination (norm := module) h - this
    · exfalso
      rw [one_smul] at h
      obtain ⟨m, hm⟩ := hz _ hP h5 h
      exact noeig m hP h5 hm
    · rwa [one_smul] at h
  have nS := sig_ne hσ (by norm_num) hP h5
  have h5S := sig_tors (σ := σ) h5
  have nSS := sig_ne hσ (by norm_num) nS h5S
  have r0 := hσ P h5
  have r1 := hσ _ h5S
  set Q := P + σ P with hQ
  have hQ0 : Q ≠ 0 := fun h => noeig (-1) hP h5 (by linear_combination (norm := module) h)
  have h5Q : (5 : ℤ) • Q = 0 := by rw [hQ, smul_add, h5, h5S, add_zero]
  have s1 := step hP h5
  have s2 := (step hQ0 h5Q).2.2
  refine a_of_two_lines h2 h3 (A := P) (B := -σ P) (C := σ (σ P)) hP (neg_ne_zero.2 nS) nSS ?_ ?_ ?_ ?_ s1.1.symm
    (yc_ne_of_five h2 hP h5) ?_ ?_
  · intro hx
    rcases (xc_eq_iff hP (neg_ne_zero.2 nS)).1 hx with h | h
    · exact noeig (-1) hP h5 (by linear_combination (norm := module) h)
    · exact noeig 1 hP h5 (by linear_combination (norm := module) -h)
  · intro hx
    rcases (xc_eq_iff (neg_ne_zero.2 nS) nSS).1 hx with h | h
    · exact noeig (-1) nS h5S (by linear_combination (norm := module) -h)
    · exact noeig 1 nS h5S (by linear_combination (norm := module) h)
  · intro hx
    rcases (xc_eq_iff nSS hP).1 hx with h | h
    · exact noeig 2 hP h5 (by linear_combination (norm := module) h - r0)
    · exact nS (by linear_combination (norm := module) h - r0)
  · rw [yc_neg]; exact s1.2.1.symm
  · rw [xc_neg]; linear_combination s1.2.2
  · have t1 : P - -σ P = Q := by rw [hQ]; abel
    have t2 : -σ P - σ (σ P) = -σ Q := by rw [hQ, map_add]; abel
    have t3 : σ (σ P) - P = σ (σ Q) := by
      rw [hQ, map_add, map_add]
      linear_combination (norm := module) -r1 - r0
    rw [t1, t2, t3, xc_neg]
    linear_combination s2

/-- Difference, `c = 1`. -/
theorem five_neg_one (h2 : (2 : K) ≠ 0)
    (hσ : ∀ P : Pt (a : K) b, (5 : ℤ) • P = 0 → σ (σ P) + (1 : ℤ) • P = (-1 : ℤ) • σ P)
    (hd : ∀ P : Pt (a : K) b, P ≠ 0 → (5 : ℤ) • P = 0 → yDefect ((1 : ℤ) • P) (σ (σ P)) (σ P) = 0)
    {P : Pt (a : K) b} (hP : P ≠ 0) (h5 : (5 : ℤ) • P = 0) : False := by
  have noeig : ∀ {P : Pt (a : K) b} (m : ℤ), P ≠ 0 → (5 : ℤ) • P = 0 → σ P ≠ m • P := by
    intro P m hP h5 h
    have h1 := sig_eig hσ hP h5 h
    have : m % 5 = 0 ∨ m % 5 = 1 ∨ m % 5 = 2 ∨ m % 5 = 3 ∨ m % 5 = 4 := by omega
    have h3 := Int.emod_eq_zero_of_dvd h1
    rcases this with h | h | h | h | h <;> simp [Int.add_emod, Int.mul_emod, h] at h3
  have nS := sig_ne hσ (by norm_num) hP h5
  have h5S := sig_tors (σ := σ) h5
  have nSS := sig_ne hσ (by norm_num) nS h5S
  have h5SS := sig_tors (σ := σ) h5S
  have r0 := hσ P h5
  have r1 := hσ _ h5S
  have d0 := hd P hP h5
  have d1 := hd _ nSS h5SS
  have d2 := hd _ nS h5S
  have c3 : σ (σ (σ P)) = P := by linear_combination (norm := module) r1 - r0
  rw [one_smul] at d0 d1 d2
  rw [c3] at d1 d2
  refine three_wrong' h2 hP nSS nS (yc_ne_of_five h2 nS h5S) ?_ ?_ ?_ ?_ d0 d1 d2
  · linear_combination (norm := module) r0
  · intro hx
    rcases (xc_eq_iff hP nSS).1 hx with h | h
    · exact noeig (-2) hP h5 (by linear_combination (norm := module) h + r0)
    · exact nS (by linear_combination (norm := module) r0 - h)
  · intro hx
    rcases (xc_eq_iff nSS nS).1 hx with h | h
    · exact noeig 1 nS h5S (by linear_combination (norm := module) h)
    · exact noeig (-1) nS h5S (by linear_combination (norm := module) h)
  · intro hx
    rcases (xc_eq_iff nS hP).1 hx with h | h
    · exact noeig 1 hP h5 (by linear_combination (norm := module) h)
    · exact noeig (-1) hP h5 (by linear_combination (norm := module) h)

/-- Difference, `c = 2`. -/
theorem five_neg_two (h2 : (2 : K) ≠ 0)
    (hσ : ∀ P : Pt (a : K) b, (5 : ℤ) • P = 0 → σ (σ P) + (2 : ℤ) • P = (-1 : ℤ) • σ P)
    (hz : ∀ P : Pt (a : K) b, P ≠ 0 → (5 : ℤ) • P = 0 → xc P = 0 → ∃ m : ℤ, σ P = m • P)
    (hd : ∀ P : Pt (a : K) b, P ≠ 0 → (5 : ℤ) • P = 0 → yDefect ((2 : ℤ) • P) (σ (σ P)) (σ P) = 0)
    {P : Pt (a : K) b} (hP : P ≠ 0) (h5 : (5 : ℤ) • P = 0) : False := by
  have noeig : ∀ {P : Pt (a : K) b} (m : ℤ), P ≠ 0 → (5 : ℤ) • P = 0 → σ P ≠ m • P := by
    intro P m hP h5 h
    have h1 := sig_eig hσ hP h5 h
    have : m % 5 = 0 ∨ m % 5 = 1 ∨ m % 5 = 2 ∨ m % 5 = 3 ∨ m % 5 = 4 := by omega
    have h3 := Int.emod_eq_zero_of_dvd h1
    rcases this with h | h | h | h | h <;> simp [Int.add_emod, Int.mul_emod, h] at h3
  have step : ∀ {P : Pt (a : K) b}, P ≠ 0 → (5 : ℤ) • P = 0 →
      xc ((2 : ℤ) • P) * yc ((2 : ℤ) • P) = xc (σ P) * yc (σ P) := by
    intro P hP h5
    rcases neg_step hσ (by norm_num) h2 rfl hP h5 (hd P hP h5) with h | ⟨L, l1, l2, -, -⟩
    · exfalso
      apply noeig (-4) hP h5
      have := hσ P h5
      linear_combination (norm := module) -h + this
    · rw [l1, l2]; ring
  have sq : ∀ {P : Pt (a : K) b}, P ≠ 0 → (5 : ℤ) • P = 0 → xc (σ (σ P)) * yc (σ (σ P)) = -(xc P * yc P) := by
    intro P hP h5
    have s1 := step (sig_ne hσ (by norm_num) hP h5) (sig_tors h5)
    have s2 := step (smul_ne_five hP h5 (k := 2) (by norm_num)) (by rw [smul_comm, h5, smul_zero])
    rw [← map_zsmul] at s1
    rw [← s1, ← s2, smul_smul, show (2 : ℤ) * 2 = 4 by norm_num, (yc_four h5).1, (yc_four h5).2]
    ring
  have dbl : ∀ {P : Pt (a : K) b}, P ≠ 0 → (5 : ℤ) • P = 0 →
      xc ((2 : ℤ) • P) * yc ((2 : ℤ) • P) = -(xc P * yc P) := by
    intro P hP h5
    have n1 := sig_ne hσ (by norm_num) hP h5
    have t1 := sig_tors (σ := σ) h5
    have n2 := sig_ne hσ (by norm_num) n1 t1
    have t2 := sig_tors (σ := σ) t1
    have n3 := sig_ne hσ (by norm_num) n2 t2
    have t3 := sig_tors (σ := σ) t2
    have n4 := sig_ne hσ (by norm_num) n3 t3
    have t4 := sig_tors (σ := σ) t3
    have r0 := hσ _ h5
    have r1 := hσ _ t1
    have r2 := hσ _ t2
    have r3 := hσ _ t3
    have r4 := hσ _ t4
    have h6 : σ (σ (σ (σ (σ (σ P))))) = (2 : ℤ) • P := by
      linear_combination (norm := module) r4 - r3 - r2 + (3 : ℤ) • r1 - r0 - t1
    rw [← h6, sq n4 t4, sq n2 t2, sq hP h5, neg_neg]
  have d1 := dbl hP h5
  have d2 := dbl (smul_ne_five hP h5 (k := 2) (by norm_num)) (by rw [smul_comm, h5, smul_zero])
  rw [smul_smul, show (2 : ℤ) * 2 = 4 by norm_num, (yc_four h5).1, (yc_four h5).2, d1] at d2
  have : xc P * yc P = 0 := by
    apply mul_left_cancel₀ h2; linear_combination -d2
  obtain ⟨m, hm⟩ := hz P hP h5 ((mul_eq_zero.1 this).resolve_right (yc_ne_of_five h2 hP h5))
  exact noeig m hP h5 hm

/-- Difference, `c = -1`: the map is the multiplication by 2. -/
theorem five_neg_neg_one (h2 : (2 : K) ≠ 0)
    (hσ : ∀ P : Pt (a : K) b, (5 : ℤ) • P = 0 → σ (σ P) + (-1 : ℤ) • P = (-1 : ℤ) • σ P)
    (hz : ∀ P : Pt (a : K) b, P ≠ 0 → (5 : ℤ) • P = 0 → xc P = 0 → ∃ m : ℤ, σ P = m • P)
    (hd : ∀ P : Pt (a : K) b, P ≠ 0 → (5 : ℤ) • P = 0 → yDefect ((-1 : ℤ) • P) (σ (σ P)) (σ P) = 0)
    {P : Pt (a : K) b} (h5 : (5 : ℤ) • P = 0) : σ P = (2 : ℤ) • P := by
  by_contra hne
  have nE : ∀ {P : Pt (a : K) b} {m : ℤ}, (5 : ℤ) • P = 0 → σ P = m • P → σ P = (2 : ℤ) • P := by
    intro P m h5 hm
    by_cases hP : P = 0
    · rw [hP, map_zero, smul_zero]
    have h1 := sig_eig hσ hP h5 hm
    have h3 : m % 5 = 2 := by
      have : m % 5 = 0 ∨ m % 5 = 1 ∨ m % 5 = 2 ∨ m % 5 = 3 ∨ m % 5 = 4 := by omega
      have h3 := Int.emod_eq_zero_of_dvd h1
      rcases this with h | h | h | h | h <;> simp [Int.add_emod, Int.mul_emod, h] at h3 ⊢
    have h4 : m = 5 * (m / 5) + 2 := by omega
    rw [hm, h4]
    linear_combination (norm := module) (m / 5) • h5
  have nz : ∀ {P : Pt (a : K) b}, σ P ≠ (2 : ℤ) • P → P ≠ 0 := by
    rintro P h rfl; exact h (by rw [map_zero, smul_zero])
  have step : ∀ {P : Pt (a : K) b}, (5 : ℤ) • P = 0 → σ P ≠ (2 : ℤ) • P →
      xc (σ P) * yc (σ P) = -(xc P * yc P) := by
    intro P h5 hne
    have hP := nz hne
    have h1 := hσ P h5
    rcases neg_step hσ (by norm_num) h2 rfl hP h5 (hd P hP h5) with h | ⟨L, l1, l2, -, -⟩
    · exfalso
      apply hne
      linear_combination (norm := module) -h + h1
    · rw [neg_smul, one_smul, xc_neg] at l1
      rw [neg_smul, one_smul, yc_neg] at l2
      linear_combination xc (σ P) * l1 - xc P * l2
  have nex : ∀ {P : Pt (a : K) b}, (5 : ℤ) • P = 0 → σ P ≠ (2 : ℤ) • P → σ (σ P) ≠ (2 : ℤ) • σ P := by
    intro P h5 hne h
    apply sig_ne hσ (by norm_num) (sub_ne_zero.2 hne) (by rw [smul_sub, sig_tors h5, smul_comm, h5, smul_zero, sub_zero])
    rw [map_sub, map_zsmul, h, sub_self]
  have dbl : ∀ {P : Pt (a : K) b}, (5 : ℤ) • P = 0 → σ P ≠ (2 : ℤ) • P →
      xc ((2 : ℤ) • P) * yc ((2 : ℤ) • P) = -(xc P * yc P) := by
    intro P h5 n0
    have n1 := nex h5 n0
    have t1 := sig_tors (σ := σ) h5
    have n2 := nex t1 n1
    have t2 := sig_tors (σ := σ) t1
    have n3 := nex t2 n2
    have t3 := sig_tors (σ := σ) t2
    have n4 := nex t3 n3
    have t4 := sig_tors (σ := σ) t3
    have r0 := hσ _ h5
    have r1 := hσ _ t1
    have r2 := hσ _ t2
    have r3 := hσ _ t3
    have h6 : σ (σ (σ (σ (σ P)))) = (2 : ℤ) • P := by
      linear_combination (norm := module) r3 - r2 + (2 : ℤ) • r1 - (3 : ℤ) • r0 + t1 - h5
    rw [← h6, step t4 n4, step t3 n3, step t2 n2, step t1 n1, step h5 n0]
    ring
  have d1 := dbl h5 hne
  have d2 := dbl (P := (2 : ℤ) • P) (by rw [smul_comm, h5, smul_zero]) (by
    intro h
    apply hne
    rw [map_zsmul] at h
    have t1 := sig_tors (σ := σ) h5
    linear_combination (norm := module) (-2 : ℤ) • h + t1 - (2 : ℤ) • h5)
  rw [smul_smul, show (2 : ℤ) * 2 = 4 by norm_num, (yc_four h5).1, (yc_four h5).2, d1] at d2
  have : xc P * yc P = 0 := by
    apply mul_left_cancel₀ h2; linear_combination -d2
  obtain ⟨m, hm⟩ := hz P (nz hne) h5 ((mul_eq_zero.1 this).resolve_right (yc_ne_of_five h2 (nz hne) h5))
  exact hne (nE h5 hm)

/-- Difference, `c = -2`. -/
theorem five_neg_neg_two (h2 : (2 : K) ≠ 0) (hK5 : (5 : K) ≠ 0)
    (hσ : ∀ P : Pt (a : K) b, (5 : ℤ) • P = 0 → σ (σ P) + (-2 : ℤ) • P = (-1 : ℤ) • σ P)
    (hd : ∀ P : Pt (a : K) b, P ≠ 0 → (5 : ℤ) • P = 0 → yDefect ((-2 : ℤ) • P) (σ (σ P)) (σ P) = 0)
    {t : Finset K} (ht : 4 ≤ t.card) (htP : ∀ x ∈ t, ∃ P : Pt (a : K) b, P ≠ 0 ∧ (5 : ℤ) • P = 0 ∧ xc P = x) : False := by
  have hx : ∀ P : Pt (a : K) b, xc ((-2 : ℤ) • P) = xc ((2 : ℤ) • P) := fun P => by rw [neg_smul, xc_neg]
  have hy : ∀ P : Pt (a : K) b, yc ((-2 : ℤ) • P) = -yc ((2 : ℤ) • P) := fun P => by rw [neg_smul, yc_neg]
  by_cases hall : ∀ P : Pt (a : K) b, (5 : ℤ) • P = 0 → σ P = (-2 : ℤ) • P
  · have cub : ∀ P : Pt (a : K) b, P ≠ 0 → (5 : ℤ) • P = 0 →
        5 * xc ((2 : ℤ) • P) ^ 3 + 3 * a * xc ((2 : ℤ) • P) + 2 * b = 0 := by
      intro P hP h5
      have hP2 : (2 : ℤ) • P ≠ 0 := smul_ne_five hP h5 (by norm_num)
      have hS := hall P h5
      have hSS : σ (σ P) = -P := by
        rw [hS, map_zsmul, hS, smul_smul]; linear_combination (norm := module) h5
      rcases neg_step hσ (by norm_num) h2 rfl hP h5 (hd P hP h5) with h | ⟨L, l1, l2, l3, l4⟩
      · exfalso
        rw [hSS] at h
        apply hP
        linear_combination (norm := module) h
      · rw [hSS, xc_neg, yc_neg, hx, hy] at l3
        rw [hSS, hS, xc_neg, hx] at l4
        rw [hS, hx, hy] at l1
        have e1 := eqn hP2
        have e2 := eqn hP
        have hne := sub_ne_zero.2 (xc_two_ne hP h5)
        have f1 : yc ((2 : ℤ) • P) = xc ((2 : ℤ) • P) * L := by linear_combination -l1
        have f2 : yc P = -(L * (xc P - 2 * xc ((2 : ℤ) • P))) := by linear_combination -l3 + f1
        rw [f1] at e1
        rw [f2] at e2
        generalize xc ((2 : ℤ) • P) = u at *
        generalize xc P = v at *
        have g1 : u ^ 3 + v * u ^ 2 = a * u + b := by linear_combination e1 - u ^ 2 * l4
        have g2 : -2 * u * v ^ 2 - 4 * u ^ 2 * v + 8 * u ^ 3 = a * v + b := by
          linear_combination e2 - (v - 2 * u) ^ 2 * l4
        have g3 : (a : K) = -7 * u ^ 2 - 2 * u * v := by
          apply mul_left_cancel₀ hne; linear_combination g2 - g1
        linear_combination u * g3 - 2 * g1
    let p : K[X] := C 5 * X ^ 3 + C (3 * (a : K)) * X + C (2 * (b : K))
    have hp3 : p.coeff 3 = 5 := by dsimp only [p]; compute_degree!
    have hp0 : p ≠ 0 := fun h0 => hK5 (by rw [← hp3, h0, coeff_zero])
    have hdeg : p.natDegree ≤ 3 := by dsimp only [p]; compute_degree
    have hsub : t ⊆ p.roots.toFinset := by
      intro x hx
      obtain ⟨P, hP, h5, rfl⟩ := htP x hx
      rw [Multiset.mem_toFinset, mem_roots hp0, IsRoot.def]
      have h53 : (5 : ℤ) • (3 : ℤ) • P = 0 := by rw [smul_comm, h5, smul_zero]
      have := cub ((3 : ℤ) • P) (smul_ne_five hP h5 (by norm_num)) h53
      rw [smul_smul, show ((2 : ℤ) * 3) • P = P by linear_combination (norm := module) h5] at this
      simp only [p, eval_add, eval_mul, eval_pow, eval_C, eval_X]
      exact this
    have h6 := Finset.card_le_card hsub
    have h7 := (Multiset.toFinset_card_le p.roots).trans ((card_roots' p).trans hdeg)
    omega
  · push Not at hall
    obtain ⟨P, h5, hne⟩ := hall
    obtain ⟨Q, hQ0, h5Q, hQ⟩ : ∃ Q : Pt (a : K) b, Q ≠ 0 ∧ (5 : ℤ) • Q = 0 ∧ σ Q = Q := by
      refine ⟨σ P - (-2 : ℤ) • P, sub_ne_zero.2 hne, ?_, ?_⟩
      · rw [smul_sub, sig_tors h5, smul_comm, h5, smul_zero, sub_zero]
      · have := hσ P h5
        rw [map_sub, map_zsmul]
        linear_combination (norm := module) this
    have step : ∀ {Q : Pt (a : K) b}, Q ≠ 0 → (5 : ℤ) • Q = 0 → σ Q = Q →
        xc ((2 : ℤ) • Q) * yc ((2 : ℤ) • Q) = -(xc Q * yc Q) := by
      intro Q hQ0 h5 hQ
      rcases neg_step hσ (by norm_num) h2 rfl hQ0 h5 (hd Q hQ0 h5) with h | ⟨L, l1, l2, -, -⟩
      · exfalso
        rw [hQ, hQ] at h
        apply smul_ne_five hQ0 h5 (k := 3) (by norm_num)
        linear_combination (norm := module) h
      · rw [hQ, hx] at l1
        rw [hQ, hy] at l2
        linear_combination -xc ((2 : ℤ) • Q) * l2 + xc Q * l1
    have s1 := step hQ0 h5Q hQ
    have n2 : (2 : ℤ) • Q ≠ 0 := smul_ne_five hQ0 h5Q (by norm_num)
    have t2 : (5 : ℤ) • (2 : ℤ) • Q = 0 := by rw [smul_comm, h5Q, smul_zero]
    have s2 := step n2 t2 (by rw [map_zsmul, hQ])
    rw [smul_smul, show (2 : ℤ) * 2 = 4 by norm_num, (yc_four h5Q).1, (yc_four h5Q).2] at s2
    have z1 : xc Q * yc Q = 0 := by
      apply mul_left_cancel₀ h2; linear_combination s1 - s2
    rw [z1, neg_zero] at s1
    have x1 := (mul_eq_zero.1 z1).resolve_right (yc_ne_of_five h2 hQ0 h5Q)
    have x2 := (mul_eq_zero.1 s1).resolve_right (yc_ne_of_five h2 n2 t2)
    exact xc_two_ne hQ0 h5Q (x2.trans x1.symm)

/-- The test on `y` passes only if `σ^2 = c` on the points of order 5, or for the sum with `c = 1` and `a = 0`. -/
theorem five_test (h2 : (2 : K) ≠ 0) (h3 : (3 : K) ≠ 0) (hK5 : (5 : K) ≠ 0) {e : ℤ} (he : e = 1 ∨ e = -1)
    (hc : c = 1 ∨ c = 2 ∨ c = -1 ∨ c = -2)
    (hσ : ∀ P : Pt (a : K) b, (5 : ℤ) • P = 0 → σ (σ P) + c • P = e • σ P)
    (hz : ∀ P : Pt (a : K) b, P ≠ 0 → (5 : ℤ) • P = 0 → xc P = 0 → ∃ m : ℤ, σ P = m • P)
    {t : Finset K} (ht : 4 ≤ t.card) (htP : ∀ x ∈ t, ∃ P : Pt (a : K) b, P ≠ 0 ∧ (5 : ℤ) • P = 0 ∧ xc P = x)
    (hd : ∀ P : Pt (a : K) b, P ≠ 0 → (5 : ℤ) • P = 0 → yDefect (c • P) (σ (σ P)) (σ P) = 0) :
    (c = -1 ∧ ∀ P : Pt (a : K) b, (5 : ℤ) • P = 0 → σ (σ P) = c • P) ∨ (e = 1 ∧ c = 1 ∧ (a : K) = 0) := by
  obtain ⟨P, hP, h5⟩ : ∃ P : Pt (a : K) b, P ≠ 0 ∧ (5 : ℤ) • P = 0 := by
    have : t.Nonempty := by rw [← Finset.card_pos]; omega
    obtain ⟨x, hx⟩ := this
    obtain ⟨P, h4, h5, -⟩ := htP x hx
    exact ⟨P, h4, h5⟩
  rcases he with rfl | rfl
  · rcases hc with rfl | rfl | rfl | rfl
    · exact .inr ⟨rfl, rfl, five_pos_one h2 h3 hσ hz hd hP h5⟩
    · exact (five_pos_two h2 hσ hz hd hP h5).elim
    · left
      refine ⟨rfl, fun P h5 => ?_⟩
      have := five_pos_neg_one h2 hσ hz hd h5
      rw [this, map_zsmul, this, smul_smul]
      linear_combination (norm := module) (2 : ℤ) • h5
    · exact (five_pos_neg_two h2 hσ hd hP h5).elim
  · rcases hc with rfl | rfl | rfl | rfl
    · exact (five_neg_one h2 hσ hd hP h5).elim
    · exact (five_neg_two h2 hσ hz hd hP h5).elim
    · left
      refine ⟨rfl, fun P h5 => ?_⟩
      have := five_neg_neg_one h2 hσ hz hd h5
      rw [this, map_zsmul, this, smul_smul]
      linear_combination (norm := module) h5
    · exact (five_neg_neg_two h2 hK5 hσ hd ht htP).elim

end

end
end EC
