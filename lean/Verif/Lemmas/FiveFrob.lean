import Verif.Lemmas.FiveRho
import Verif.Props.SchoofModThree

/-! The action of Frobenius on the points of order 5 and the test on `y` for `l = 5`. -/

namespace EC
open Poly Polynomial WeierstrassCurve EDS

section
variable {K : Type} [Field K] [DecidableEq K] {a b : K}

/-- Divisibility by the fifth division polynomial. -/
theorem psi5_dvd_iff [IsAlgClosed K] (h2 : (2 : K) ≠ 0) (hK5 : (5 : K) ≠ 0) (hd : 4 * a ^ 3 + 27 * b ^ 2 ≠ 0) (G : K[X]) :
    psi5 a b ∣ G ↔ ∀ P : Pt a b, P ≠ 0 → (5 : ℤ) • P = 0 → G.IsRoot (xc P) := by
  constructor
  · rintro ⟨H, rfl⟩ P hP h5
    rw [IsRoot.def, eval_mul, (psi5_root h2 hP h5).eq_zero, zero_mul]
  · intro h
    obtain ⟨t, ht, htP⟩ := card_torsion_x h2 hd (n := 5) (by exact_mod_cast hK5)
    have hp0 : psi5 a b ≠ 0 := by
      intro h0
      have := psi5_natDegree (a := a) (b := b) hK5
      rw [h0, natDegree_zero] at this
      omega
    have hle : t.val ≤ (psi5 a b).roots := by
      rw [Multiset.le_iff_subset t.nodup]
      intro x hx
      obtain ⟨P, hP, h5, rfl⟩ := htP x hx
      rw [mem_roots hp0]
      exact psi5_root h2 hP (by rw [← natCast_zsmul] at h5; exact h5)
    have hcard : (psi5 a b).roots.card ≤ t.val.card := by
      have := card_roots' (psi5 a b)
      rw [psi5_natDegree hK5] at this
      have h3 : t.val.card = t.card := rfl
      omega
    have heq := Multiset.eq_of_le_of_card_le hle hcard
    have hsplit := C_leadingCoeff_mul_prod_multiset_X_sub_C (p := psi5 a b) (by
      have h1 := card_roots' (psi5 a b)
      have h3 : t.val.card = t.card := rfl
      rw [heq] at h3
      rw [psi5_natDegree hK5] at h1 ⊢
      omega)
    rw [← hsplit]
    have hu : IsUnit (C (psi5 a b).leadingCoeff) := isUnit_C.2 (IsUnit.mk0 _ (leadingCoeff_ne_zero.2 hp0))
    rw [hu.mul_left_dvd, ← heq]
    by_cases hG : G = 0
    · rw [hG]; exact dvd_zero _
    rw [Multiset.prod_X_sub_C_dvd_iff_le_roots hG, Multiset.le_iff_subset t.nodup]
    intro x hx
    obtain ⟨P, hP, h5, rfl⟩ := htP x hx
    rw [mem_roots hG]
    exact h P hP (by rw [← natCast_zsmul] at h5; exact h5)

end

section
variable {K : Type} [Field K] [DecidableEq K] {a b q : ℤ} [Fact (Nat.Prime q.toNat)] [CharP K q.toNat]

local notation "φ" => frobPoint q.toNat a b

theorem yDefect_neg (A R J : Pt (a : K) b) : yDefect (-A) (-R) (-J) = -yDefect A R J := by
  unfold yDefect
  simp only [xc_neg, yc_neg]
  ring

theorem smul_mod_five {G : Type*} [AddCommGroup G] {P : G} (h5 : (5 : ℤ) • P = 0) {u v : ℤ} (h : u ≡ v [ZMOD 5]) :
    u • P = v • P := by
  obtain ⟨k, hk⟩ := h.dvd
  rw [show u = v - 5 * k by omega]
  linear_combination (norm := module) (-k) • h5

theorem frob_tors_five (h2 : (2 : K) ≠ 0) {R : Pt (a : K) b} (hR : (5 : ℤ) • R = 0) : (5 : ℤ) • φ R = 0 := by
  rw [← frob_zsmul h2, hR, frob_zero]

theorem five_y_test [IsAlgClosed K] (h2 : (2 : K) ≠ 0) (h3 : (3 : K) ≠ 0) (hK5 : (5 : K) ≠ 0)
    (hd : 4 * (a : K) ^ 3 + 27 * (b : K) ^ 2 ≠ 0) {n j : ℕ} (hn : q % 5 = n) (hn0 : n ≠ 0) (hj : j = 1 ∨ j = 2)
    {e : ℤ} (he : e = 1 ∨ e = -1)
    (hF : ∀ P : Pt (a : K) b, (5 : ℤ) • P = 0 → φ (φ P) + q • P = (e * j) • φ P) :
    (∀ P : Pt (a : K) b, P ≠ 0 → 5 • P = 0 → yDefect (n • P) (φ (φ P)) (j • φ P) = 0) ↔
      (∀ P : Pt (a : K) b, (5 : ℤ) • P = 0 → φ (φ P) = q • P) ∨ (e = 1 ∧ q ≡ j ^ 2 [ZMOD 5] ∧ (a : K) = 0) := by
  -- the normalised map
  obtain ⟨k, δ, hδ, hk1, hk2, hk3⟩ : ∃ k δ : ℤ, (δ = 1 ∨ δ = -1) ∧ k * j ≡ 1 [ZMOD 5] ∧ k * k ≡ δ [ZMOD 5] ∧
      (j : ℤ) ^ 2 ≡ δ [ZMOD 5] := by
    rcases hj with rfl | rfl
    · exact ⟨1, 1, .inl rfl, by decide, by decide, by decide⟩
    · exact ⟨3, -1, .inr rfl, by decide, by decide, by decide⟩
  have hkj : k ≡ δ * j [ZMOD 5] := by
    calc k = k * 1 := by ring
      _ ≡ k * (k * j) [ZMOD 5] := hk1.symm.mul_left k
      _ = k * k * j := by ring
      _ ≡ δ * j [ZMOD 5] := hk2.mul_right _
  have hδδ : δ * δ = 1 := by rcases hδ with rfl | rfl <;> norm_num
  obtain ⟨c, hc, hcn⟩ : ∃ c : ℤ, (c = 1 ∨ c = 2 ∨ c = -1 ∨ c = -2) ∧ c ≡ δ * q [ZMOD 5] := by
    have hn5 : q % 5 = 1 ∨ q % 5 = 2 ∨ q % 5 = 3 ∨ q % 5 = 4 := by omega
    rcases hδ with rfl | rfl <;> rcases hn5 with h | h | h | h
    · exact ⟨1, by norm_num, by simp only [Int.ModEq]; omega⟩
    · exact ⟨2, by norm_num, by simp only [Int.ModEq]; omega⟩
    · exact ⟨-2, by norm_num, by simp only [Int.ModEq]; omega⟩
    · exact ⟨-1, by norm_num, by simp only [Int.ModEq]; omega⟩
    · exact ⟨-1, by norm_num, by simp only [Int.ModEq]; omega⟩
    · exact ⟨-2, by norm_num, by simp only [Int.ModEq]; omega⟩
    · exact ⟨2, by norm_num, by simp only [Int.ModEq]; omega⟩
    · exact ⟨1, by norm_num, by simp only [Int.ModEq]; omega⟩
  obtain ⟨σ, hσdef⟩ : ∃ σ : Pt (a : K) b →+ Pt (a : K) b, ∀ P, σ P = k • φ P := ⟨k • frobHom h2, fun P => rfl⟩
  have hσσ : ∀ P : Pt (a : K) b, (5 : ℤ) • P = 0 → σ (σ P) = δ • φ (φ P) := by
    intro P h5
    rw [hσdef, hσdef, frob_zsmul h2, smul_smul]
    exact smul_mod_five (frob_tors_five h2 (frob_tors_five h2 h5)) hk2
  have hσj : ∀ P : Pt (a : K) b, (5 : ℤ) • P = 0 → σ P = δ • ((j : ℤ) • φ P) := by
    intro P h5
    rw [hσdef, smul_smul]
    exact smul_mod_five (frob_tors_five h2 h5) hkj
  have hcP : ∀ P : Pt (a : K) b, (5 : ℤ) • P = 0 → c • P = δ • (q • P) := by
    intro P h5
    rw [smul_smul]
    exact smul_mod_five h5 hcn
  have hσ : ∀ P : Pt (a : K) b, (5 : ℤ) • P = 0 → σ (σ P) + c • P = e • σ P := by
    intro P h5
    rw [hσσ P h5, hcP P h5, hσj P h5, ← smul_add, hF P h5]
    module
  have hz : ∀ P : Pt (a : K) b, P ≠ 0 → (5 : ℤ) • P = 0 → xc P = 0 → ∃ m : ℤ, σ P = m • P := by
    intro P hP _ hx
    obtain ⟨p1, p2, -⟩ := frobPoint_ne (q := q) hP
    have : xc (φ P) = xc P := by rw [p2, hx, zero_pow (Fact.out : Nat.Prime q.toNat).ne_zero]
    rcases (xc_eq_iff p1 hP).1 this with h | h
    · exact ⟨k, by rw [hσdef, h]⟩
    · exact ⟨-k, by rw [hσdef, h]; module⟩
  have hdef : ∀ P : Pt (a : K) b, (5 : ℤ) • P = 0 →
      (yDefect (c • P) (σ (σ P)) (σ P) = 0 ↔ yDefect (n • P) (φ (φ P)) (j • φ P) = 0) := by
    intro P h5
    have hnq : q • P = n • P := by
      rw [← natCast_zsmul]
      exact smul_mod_five h5 (by simp only [Int.ModEq]; omega)
    rw [hσσ P h5, hcP P h5, hσj P h5, hnq, natCast_zsmul]
    rcases hδ with rfl | rfl
    · rw [one_smul, one_smul, one_smul]
    · rw [neg_one_smul, neg_one_smul, neg_one_smul, yDefect_neg, neg_eq_zero]
  have hnat : ∀ P : Pt (a : K) b, 5 • P = 0 ↔ (5 : ℤ) • P = 0 := by
    intro P
    rw [← natCast_zsmul]; rfl
  constructor
  · intro h
    obtain ⟨t, ht, htP⟩ := card_torsion_x (a := (a : K)) (b := b) h2 hd (n := 5) (by exact_mod_cast hK5)
    rcases five_test h2 h3 hK5 he hc hσ hz (t := t) (by omega) (by
      intro x hx
      obtain ⟨P, hP, h5, hx⟩ := htP x hx
      exact ⟨P, hP, (hnat P).1 h5, hx⟩) (fun P hP h5 => (hdef P h5).2 (h P hP ((hnat P).2 h5))) with ⟨-, h4⟩ | ⟨h4, h5, h6⟩
    · left
      intro P h5
      have := h4 P h5
      rw [hσσ P h5, hcP P h5] at this
      have h7 := congrArg (fun T => δ • T) this
      simp only [smul_smul, hδδ, one_smul] at h7
      rwa [← mul_assoc, hδδ, one_mul] at h7
    · refine .inr ⟨h4, ?_, h6⟩
      rw [h5] at hcn
      calc q = δ * δ * q := by rw [hδδ, one_mul]
        _ = δ * (δ * q) := by ring
        _ ≡ δ * 1 [ZMOD 5] := hcn.symm.mul_left δ
        _ = δ := by ring
        _ ≡ j ^ 2 [ZMOD 5] := hk3.symm
  · rintro (h | ⟨rfl, h, ha⟩) P hP h5
    · rw [h P ((hnat P).1 h5)]
      have hnq : q • P = n • P := by
        rw [← natCast_zsmul]
        exact smul_mod_five ((hnat P).1 h5) (by simp only [Int.ModEq]; omega)
      rw [hnq]; exact yDefect_self _ _
    · have hc1 : c = 1 := by
        have : c ≡ 1 [ZMOD 5] := by
          calc c ≡ δ * q [ZMOD 5] := hcn
            _ ≡ δ * δ [ZMOD 5] := (h.trans hk3).mul_left δ
            _ = 1 := hδδ
        rcases hc with rfl | rfl | rfl | rfl
        · rfl
        all_goals (simp [Int.ModEq] at this)
      rw [hc1] at hσ hdef
      obtain ⟨w, hw1⟩ : ∃ w : K, w ^ 2 + w + 1 = 0 := by
        obtain ⟨w, hw⟩ := IsAlgClosed.exists_root (C 1 * X ^ 2 + C 1 * X + C 1 : K[X]) (by
          rw [degree_quadratic one_ne_zero]; norm_num)
        exact ⟨w, by simpa using hw⟩
      have hw : w ^ 3 = 1 := by linear_combination (w - 1) * hw1
      refine (hdef P ((hnat P).1 h5)).1 (five_rho_test h2 hd ha hw h3 hK5 hw1 hσ hz ?_ hP ((hnat P).1 h5))
      have hwq : w ^ q.toNat = w ∨ w ^ q.toNat = w ^ 2 := by
        have hq3 : q.toNat % 3 ≠ 0 := by
          intro h0
          have := (Nat.prime_dvd_prime_iff_eq Nat.prime_three (Fact.out : Nat.Prime q.toNat)).1 (Nat.dvd_of_mod_eq_zero h0)
          apply h3
          have := CharP.cast_eq_zero K q.toNat
          rw [← ‹3 = q.toNat›] at this
          exact_mod_cast this
        have hq : q.toNat = 3 * (q.toNat / 3) + q.toNat % 3 := by omega
        have : q.toNat % 3 = 1 ∨ q.toNat % 3 = 2 := by omega
        rcases this with h1 | h1 <;> rw [h1] at hq
        · left; rw [hq, pow_add, pow_mul, hw, one_pow, one_mul, pow_one]
        · right; rw [hq, pow_add, pow_mul, hw, one_pow, one_mul]
      have hcom : ∀ P : Pt (a : K) b, P ≠ 0 → ∀ T : Pt (a : K) b, T ≠ 0 → xc T = w ^ q.toNat * xc P ^ q.toNat →
          yc T = yc P ^ q.toNat → φ (rho h2 hd ha w hw P) = T := by
        intro P hP T hT hx hy
        obtain ⟨r1, r2, r3⟩ := rho_ne h2 hd ha hw hP
        obtain ⟨p1, p2, p3⟩ := frobPoint_ne (q := q) r1
        refine EDS.ext p1 hT ?_ ?_
        · rw [p2, r2, mul_pow, hx]
        · rw [p3, r3, hy]
      have hmul : ∀ (m : ℤ) (P : Pt (a : K) b), rho h2 hd ha w hw (m • P) = m • rho h2 hd ha w hw P :=
        fun m P => map_zsmul (rhoHom h2 hd ha hw) m P
      rcases hwq with hwq | hwq
      · left
        intro P
        by_cases hP : P = 0
        · rw [hP, rho_zero, map_zero, rho_zero]
        obtain ⟨p1, p2, p3⟩ := frobPoint_ne (q := q) hP
        obtain ⟨r1, r2, r3⟩ := rho_ne h2 hd ha hw p1
        rw [hσdef, hσdef, hmul, hcom P hP _ r1 (by rw [r2, p2, hwq]) (by rw [r3, p3])]
      · right
        intro P
        by_cases hP : P = 0
        · rw [hP, rho_zero, map_zero, rho_zero, rho_zero]
        obtain ⟨p1, p2, p3⟩ := frobPoint_ne (q := q) hP
        obtain ⟨r1, r2, r3⟩ := rho_ne h2 hd ha hw p1
        obtain ⟨s1, s2, s3⟩ := rho_ne h2 hd ha hw r1
        rw [hσdef, hσdef, hmul, hmul, hcom P hP _ s1 (by rw [s2, r2, p2, hwq]; ring) (by rw [s3, r3, p3])]

end
end EC
