import Verif.Lemmas.FiveDE
import Verif.Props.SchoofReturns

/-! Property C79: the exact entry modulo 5 that `schoof` returns. -/

namespace EC
open Poly Polynomial WeierstrassCurve EDS

section
variable {K : Type} [Field K] [DecidableEq K] [IsAlgClosed K] {a b q : ℤ} [Fact (Nat.Prime q.toNat)]
  [CharP K q.toNat] {fuel : ℕ}

local notation "φ" => frobPoint q.toNat a b

theorem exists_five_tors (h2K : (2 : K) ≠ 0) (h5K : (5 : K) ≠ 0) {a b : K} (hd : 4 * a ^ 3 + 27 * b ^ 2 ≠ 0) :
    ∃ P : Pt a b, P ≠ 0 ∧ (5 : ℤ) • P = 0 := by
  obtain ⟨u, hu, huP⟩ := card_torsion_x h2K hd (n := 5) (by exact_mod_cast h5K)
  have : u.Nonempty := by rw [← Finset.card_pos]; omega
  obtain ⟨x, hx⟩ := this
  obtain ⟨P, h4, h5, -⟩ := huP x hx
  exact ⟨P, h4, by rw [← natCast_zsmul] at h5; exact h5⟩

/-- `psi5` divides `X^(q^2) - X` over GF(q) exactly if `F^2 P` is `P` or `-P` for all points of order 5. -/
theorem psi5_dvd_frob (h2K : (2 : K) ≠ 0) (h5K : (5 : K) ≠ 0) (hd : 4 * (a : K) ^ 3 + 27 * (b : K) ^ 2 ≠ 0) :
    psi5 (a : ZMod q.toNat) b ∣ X ^ (q.toNat ^ 2) - X ↔
      ∀ P : Pt (a : K) b, (5 : ℤ) • P = 0 → φ (φ P) = P ∨ φ (φ P) = -P := by
  let _ : Algebra (ZMod q.toNat) K := _root_.ZMod.algebra K q.toNat
  let f : ZMod q.toNat →+* K := algebraMap (ZMod q.toNat) K
  rw [← Polynomial.map_dvd_map' f, psi5_map, map_intCast, map_intCast, Polynomial.map_sub, Polynomial.map_pow, map_X,
    psi5_dvd_iff h2K h5K hd]
  have key : ∀ P : Pt (a : K) b, P ≠ 0 → ((X ^ (q.toNat ^ 2) - X : K[X]).IsRoot (xc P) ↔ φ (φ P) = P ∨ φ (φ P) = -P) := by
    intro P hP
    obtain ⟨g1, g2, -⟩ := frobPoint_ne (q := q) hP
    obtain ⟨f1, f2, -⟩ := frobPoint_ne (q := q) g1
    rw [← xc_eq_iff f1 hP, f2, g2, ← pow_mul, ← pow_two, IsRoot.def, eval_sub, eval_pow, eval_X, sub_eq_zero]
  constructor
  · intro h P h5
    by_cases hP : P = 0
    · rw [hP, frob_zero, frob_zero]; exact .inl rfl
    · exact (key P hP).1 (h P hP h5)
  · intro h P hP h5
    exact (key P hP).2 (h P h5)

/-- `F^2 = q` on the points of order 5. -/
theorem frob_sq_five_iff (h2K : (2 : K) ≠ 0) (h5K : (5 : K) ≠ 0) (hd : 4 * (a : K) ^ 3 + 27 * (b : K) ^ 2 ≠ 0)
    (hq5 : ¬ (5 : ℤ) ∣ q) {t : ℤ} (ht : ¬ (5 : ℤ) ∣ t)
    (hF : ∀ P : Pt (a : K) b, φ (φ P) + q • P = t • φ P) :
    (∀ P : Pt (a : K) b, (5 : ℤ) • P = 0 → φ (φ P) = q • P) ↔
      t ^ 2 ≡ 4 * q [ZMOD 5] ∧ psi5 (a : ZMod q.toNat) b ∣ X ^ (q.toNat ^ 2) - X := by
  have hqs : ∀ P : Pt (a : K) b, (5 : ℤ) • P = 0 → t ^ 2 ≡ 4 * q [ZMOD 5] →
      ∃ ε : ℤ, (ε = 1 ∨ ε = -1) ∧ q • P = ε • P := by
    intro P hP h
    have h1 : t % 5 = 1 ∨ t % 5 = 2 ∨ t % 5 = 3 ∨ t % 5 = 4 := by omega
    have h2 : t ^ 2 % 5 = 1 ∨ t ^ 2 % 5 = 4 := by
      rw [pow_two, Int.mul_emod]
      rcases h1 with h1 | h1 | h1 | h1 <;> rw [h1] <;> norm_num
    unfold Int.ModEq at h
    rcases h2 with h2 | h2
    · refine ⟨-1, .inr rfl, smul_mod_five hP ?_⟩
      simp only [Int.ModEq]; omega
    · refine ⟨1, .inl rfl, smul_mod_five hP ?_⟩
      simp only [Int.ModEq]; omega
  rw [psi5_dvd_frob (K := K) h2K h5K hd]
  constructor
  · intro h
    have h4 : t ^ 2 ≡ 4 * q [ZMOD 5] := by
      obtain ⟨P, hP, h5P⟩ := exists_five_tors h2K h5K hd
      have h5F := frob_tors_five (q := q) h2K h5P
      have e1 : t • φ P = (2 * q) • P := by
        rw [← hF P, h P h5P]; module
      have e2 : t • φ (φ P) = (2 * q) • φ P := by
        rw [← frob_zsmul h2K, e1, frob_zsmul h2K]
      rw [h P h5P] at e2
      have e3 : (t ^ 2 * q - 4 * q ^ 2) • P = 0 := by
        linear_combination (norm := module) t • e2 + (2 * q) • e1
      have := five_dvd hP h5P e3
      have h6 : (5 : ℤ) ∣ q * (4 * q - t ^ 2) := by
        have : q * (4 * q - t ^ 2) = -(t ^ 2 * q - 4 * q ^ 2) := by ring
        rw [this]; exact (dvd_neg).2 ‹_›
      have h7 := (Int.Prime.dvd_mul' (p := 5) Nat.prime_five (by exact_mod_cast h6)).resolve_left (by exact_mod_cast hq5)
      exact Int.modEq_iff_dvd.2 (by exact_mod_cast h7)
    refine ⟨h4, fun P h5P => ?_⟩
    obtain ⟨ε, hε, he⟩ := hqs P h5P h4
    rw [h P h5P, he]
    rcases hε with rfl | rfl
    · left; rw [one_smul]
    · right; rw [neg_smul, one_smul]
  · rintro ⟨h4, h⟩ P h5P
    by_cases hP : P = 0
    · rw [hP, frob_zero, frob_zero, smul_zero]
    obtain ⟨ε, hε, he⟩ := hqs P h5P h4
    have hg := (frobPoint_ne (q := q) hP).1
    have hne : t • φ P ≠ 0 := smul_ne_five hg (frob_tors_five (q := q) h2K h5P) ht
    have hFP := hF P
    rw [he] at hFP ⊢
    rcases h P h5P with h6 | h6 <;> rcases hε with rfl | rfl
    · rw [h6, one_smul]
    · exfalso; apply hne; rw [← hFP, h6]; module
    · exfalso; apply hne; rw [← hFP, h6]; module
    · rw [h6, neg_smul, one_smul]

/-- The search for `j` in case `l = 5`. -/
theorem congr_five_iff (h2K : (2 : K) ≠ 0) (h5K : (5 : K) ≠ 0) (hd : 4 * (a : K) ^ 3 + 27 * (b : K) ^ 2 ≠ 0)
    (hq5 : ¬ (5 : ℤ) ∣ q) {t : ℤ} (hF : ∀ P : Pt (a : K) b, φ (φ P) + q • P = t • φ P) {j : ℤ} (hj : j = 1 ∨ j = 2) :
    SchoofCongr K a b q (5 : ℕ) j ↔ (t ≡ j [ZMOD 5] ∨ t ≡ -j [ZMOD 5]) ∨
      (∀ P : Pt (a : K) b, (5 : ℤ) • P = 0 → φ (φ P) = q • P) := by
  constructor
  · intro hc
    by_cases ht : t ≡ j [ZMOD 5] ∨ t ≡ -j [ZMOD 5]
    · exact .inl ht
    right
    intro P h5P
    by_cases hP : P = 0
    · rw [hP, frob_zero, frob_zero, smul_zero]
    have hg := (frobPoint_ne (q := q) hP).1
    have h5g := frob_tors_five (q := q) h2K h5P
    rcases hc P h5P with h | h | h
    · exact h
    · exfalso
      rw [hF P] at h
      apply ht; left
      refine (Int.modEq_iff_dvd.2 (five_dvd hg h5g (k := t - j) ?_)).symm
      linear_combination (norm := module) h
    · exfalso
      rw [hF P] at h
      apply ht; right
      refine (Int.modEq_iff_dvd.2 (five_dvd hg h5g (k := t - -j) ?_)).symm
      linear_combination (norm := module) h
  · rintro ((h | h) | h) P h5P
    · right; left
      rw [hF P]
      exact smul_mod_five (frob_tors_five (q := q) h2K h5P) h
    · right; right
      rw [hF P, smul_mod_five (frob_tors_five (q := q) h2K h5P) h, neg_smul]
    · exact .inl (h P h5P)

open Classical in
/-- The entry modulo 5. -/
theorem schoofL_five_exact (h5q : 5 < q) (hi : q ≤ 2147483647)
    (hns : ¬ q ∣ 4 * a ^ 3 + 27 * b ^ 2) {r : ModResult} (h : schoofL fuel a b q (5 : ℕ) = .ok r) {t : ℤ}
    (hF : ∀ P : Pt (a : K) b, φ (φ P) + q • P = t • φ P) :
    r.r = if (5 : ℤ) ∣ t then
        (if q % 5 = 1 ∧ psi5 0 (b : ZMod q.toNat) ∣ X ^ q.toNat - X then 3 else 0)
      else if t ^ 2 ≡ 4 * q [ZMOD 5] ∧ psi5 (a : ZMod q.toNat) b ∣ X ^ (q.toNat ^ 2) - X then 1
      else if (t % 5 = 1 ∨ t % 5 = 2) ∧ ¬ (q ≡ t ^ 2 [ZMOD 5] ∧ q ∣ a) then 5 - t % 5 else t % 5 := by
  have hpr : Nat.Prime q.toNat := Fact.out
  have h2 : q ≠ 2 := by omega
  obtain ⟨h2K, h3K, hd⟩ := char_nonzero_data (K := K) (a := a) (b := b) h2 hns (by omega)
  have h5K : (5 : K) ≠ 0 := by
    intro h0
    have := (CharP.intCast_eq_zero_iff K q.toNat 5).1 (by exact_mod_cast h0)
    rw [Int.toNat_of_nonneg (by omega)] at this
    have := Int.le_of_dvd (by norm_num) this
    omega
  have ha : (a : K) = 0 ↔ q ∣ a := by
    rw [CharP.intCast_eq_zero_iff K q.toNat, Int.toNat_of_nonneg (by omega)]
  have hq5 : ¬ (5 : ℤ) ∣ q := by
    intro h0
    have : 5 ∣ q.toNat := by
      rw [← Int.natCast_dvd_natCast, Int.toNat_of_nonneg (by omega)]; exact h0
    have := (Nat.prime_dvd_prime_iff_eq Nat.prime_five hpr).1 this
    omega
  obtain ⟨n, hn⟩ : ∃ n : ℕ, q % 5 = n := ⟨(q % 5).toNat, by omega⟩
  have hn0 : n ≠ 0 := by omega
  obtain ⟨P0, hP0, h5P0⟩ := exists_five_tors (a := (a : K)) (b := b) h2K h5K hd
  have hD0 : (5 : ℤ) ∣ t → ¬ ∀ P : Pt (a : K) b, (5 : ℤ) • P = 0 → φ (φ P) = q • P := by
    intro ht hc
    have e := hF P0
    rw [hc P0 h5P0, smul_mod_five (frob_tors_five (q := q) h2K h5P0) (v := 0) (Int.modEq_zero_iff_dvd.2 ht), zero_smul] at e
    have := five_dvd hP0 h5P0 (k := 2 * q) (by linear_combination (norm := module) e)
    omega
  unfold schoofL at h
  obtain ⟨nd, hnd, h⟩ := Res.bind_eq_ok.1 h
  obtain ⟨ps, hps, h⟩ := Res.bind_eq_ok.1 h
  obtain ⟨psL, hpsL, h⟩ := Res.bind_eq_ok.1 h
  obtain ⟨o, ho, h⟩ := Res.bind_eq_ok.1 h
  rw [fmod_pos_eq (by norm_num)] at h hnd
  have hql : q % ((5 : ℕ) : ℤ) = (n : ℤ) := hn
  rw [hql] at h hnd
  have hir : irange 1 ((((5 : ℕ) : ℤ) - 1).tdiv 2 + 1) = [1, 2] := by decide
  rw [hir] at ho
  have hT := findJ_iff (T := fun j => SchoofCongr K a b q (5 : ℕ) j) [1, 2] (by
    intro j hj r hr
    obtain ⟨k, rfl, hk1, hk2⟩ : ∃ k : ℕ, j = k ∧ 1 ≤ k ∧ k < 5 := by
      simp only [List.mem_cons, List.not_mem_nil, or_false] at hj
      rcases hj with rfl | rfl
      · exact ⟨1, rfl, by norm_num, by norm_num⟩
      · exact ⟨2, rfl, by norm_num, by norm_num⟩
    rw [xTest_iff (K := K) (j := k) h2 hns Nat.prime_five (by norm_num) (by exact_mod_cast h5q) hql hk1 hk2
      hnd hps hpsL hr]
    simp only [SchoofCongr, natCast_zsmul]) o ho
  have hT1 := congr_five_iff (q := q) h2K h5K hd hq5 hF (j := 1) (.inl rfl)
  have hT2 := congr_five_iff (q := q) h2K h5K hd hq5 hF (j := 2) (.inr rfl)
  cases o with
  | none =>
    have htd : (5 : ℤ) ∣ t := by
      have c1 := fun hc => hT 1 (by simp) (hT1.2 (.inl hc))
      have c2 := fun hc => hT 2 (by simp) (hT2.2 (.inl hc))
      have c1' : ¬ t ≡ 1 [ZMOD 5] := fun h => c1 (.inl h)
      have c1'' : ¬ t ≡ -1 [ZMOD 5] := fun h => c1 (.inr h)
      have c2' : ¬ t ≡ 2 [ZMOD 5] := fun h => c2 (.inl h)
      have c2'' : ¬ t ≡ -2 [ZMOD 5] := fun h => c2 (.inr h)
      simp only [Int.ModEq] at c1' c1'' c2' c2''
      omega
    rw [if_pos htd]
    have hF0 : ∀ P : Pt (a : K) b, (5 : ℤ) • P = 0 → φ (φ P) + q • P = 0 := by
      intro P hP
      rw [hF P, smul_mod_five (frob_tors_five (q := q) h2K hP) (v := 0) (Int.modEq_zero_iff_dvd.2 htd), zero_smul]
    have hn' : n = 1 ∨ n = 2 ∨ n = 3 ∨ n = 4 := by omega
    rcases hn' with rfl | rfl | rfl | rfl
    · rcases schoofDE_five_one hi h5q h with ⟨h4, h5⟩ | ⟨h4, h5⟩
      · rw [h4, if_pos ⟨hn, h5⟩]
      · rw [h4, if_neg fun hc => h5 hc.2]
    · rw [schoofDE_five_non (.inl rfl) h, if_neg (by rw [hn]; rintro ⟨h0, -⟩; norm_num at h0)]
    · rw [schoofDE_five_non (.inr rfl) h, if_neg (by rw [hn]; rintro ⟨h0, -⟩; norm_num at h0)]
    · rw [schoofDE_five_four h2 h5q hn hns h h5K hF0, if_neg (by rw [hn]; rintro ⟨h0, -⟩; norm_num at h0)]
  | some jj =>
    obtain ⟨pre, post, h4, h5, h6⟩ := hT
    have hj12 : jj = 1 ∨ jj = 2 := by
      have : jj ∈ ([1, 2] : List ℤ) := by rw [h4]; simp
      simpa using this
    have hcj := (congr_five_iff (q := q) h2K h5K hd hq5 hF hj12).1 h5
    have htd : ¬ (5 : ℤ) ∣ t := by
      intro htd
      rcases hcj with hc | hc
      · rcases hj12 with rfl | rfl <;> simp only [Int.ModEq] at hc <;> omega
      · exact hD0 htd hc
    rw [if_neg htd]
    obtain ⟨k, hk, hk12⟩ : ∃ k : ℕ, jj = k ∧ (k = 1 ∨ k = 2) := by
      rcases hj12 with rfl | rfl
      · exact ⟨1, rfl, .inl rfl⟩
      · exact ⟨2, rfl, .inr rfl⟩
    subst hk
    obtain ⟨-, hr⟩ := schoofY_shape (by omega) h
    have hy := yTest_iff (K := K) (j := k) h2 hns Nat.prime_five (by norm_num) (by exact_mod_cast h5q) hql (by omega) (by omega)
      hps hpsL h
    have hDe := frob_sq_five_iff (K := K) h2K h5K hd hq5 htd hF
    by_cases hD : ∀ P : Pt (a : K) b, (5 : ℤ) • P = 0 → φ (φ P) = q • P
    · rw [if_pos (hDe.1 hD)]
      have hk1 : k = 1 := by
        rcases hk12 with rfl | rfl
        · rfl
        · exfalso
          have : pre = [1] := by
            rcases pre with _ | ⟨x, _ | ⟨y, l⟩⟩ <;> simp_all
          subst this
          exact h6 1 (by simp) (hT1.2 (.inr hD))
      subst hk1
      apply hy.2
      intro P hP h5P
      rw [← natCast_zsmul] at h5P
      have e : n • P = φ (φ P) := by
        rw [hD P h5P, ← natCast_zsmul, smul_mod_five h5P (u := q) (v := n)]
        simp only [Int.ModEq]; omega
      rw [e]
      unfold yDefect
      ring
    · rw [if_neg fun h0 => hD (hDe.2 h0)]
      have hcj := hcj.resolve_right hD
      obtain ⟨e, he, hte⟩ : ∃ e : ℤ, (e = 1 ∨ e = -1) ∧ t ≡ e * k [ZMOD 5] := by
        rcases hcj with hc | hc
        · exact ⟨1, .inl rfl, by rw [one_mul]; exact hc⟩
        · exact ⟨-1, .inr rfl, by rw [neg_one_mul]; exact hc⟩
      have hFe : ∀ P : Pt (a : K) b, (5 : ℤ) • P = 0 → φ (φ P) + q • P = (e * k) • φ P := by
        intro P hP
        rw [hF P]
        exact smul_mod_five (frob_tors_five (q := q) h2K hP) hte
      rw [five_y_test h2K h3K h5K hd hn hn0 hk12 he hFe, ha] at hy
      have hy := hy.trans (or_iff_right hD)
      push_cast at hr
      have hsq : t ^ 2 ≡ k ^ 2 [ZMOD 5] := by
        have := hte.pow 2
        rcases he with rfl | rfl
        · simpa using this
        · simpa using this
      have hqe : q ≡ t ^ 2 [ZMOD 5] ↔ q ≡ k ^ 2 [ZMOD 5] := ⟨fun h => h.trans hsq, fun h => h.trans hsq.symm⟩
      simp only [hqe]
      have hkt : (e = 1 ∧ t % 5 = k) ∨ (e = -1 ∧ t % 5 = 5 - k) := by
        simp only [Int.ModEq] at hte
        rcases he with rfl | rfl <;> rcases hk12 with rfl | rfl <;> omega
      by_cases hX : q ≡ k ^ 2 [ZMOD 5] ∧ q ∣ a
      · rw [if_neg fun h0 => h0.2 hX]
        rcases hkt with ⟨h7, h8⟩ | ⟨h7, h8⟩
        · rw [h8]; exact hy.2 ⟨h7, hX⟩
        · have : r.r ≠ k := fun h0 => by have := (hy.1 h0).1; omega
          omega
      · have hne : r.r ≠ k := fun h0 => hX (hy.1 h0).2
        rcases hkt with ⟨h7, h8⟩ | ⟨h7, h8⟩
        · rw [if_pos ⟨by omega, hX⟩]; omega
        · rw [if_neg fun h0 => by omega]; omega

end

open Classical in
/-- C79: for a prime `q > 5` and a nonsingular curve of trace `t`, the entry modulo 5 that `schoof` returns is: if 5
divides `t`, then 3 if `q = 1` modulo 5 and the fifth division polynomial of `y^2 = x^3 + b` divides `X^q - X` over GF(q),
and 0 otherwise; if 5 does not divide `t`, then 1 if `t^2 = 4 q` modulo 5 and the fifth division polynomial of the curve
divides `X^(q^2) - X` over GF(q); and else `-t` modulo 5 if `t` is 1 or 2 modulo 5, except for `q = t^2` modulo 5 and `q`
dividing `a`, and `t` modulo 5 in all other cases. -/
theorem C79_mod_five (a b q : ℤ) [hq : Fact (Nat.Prime q.toNat)]
    (hns : ¬ q ∣ 4 * a ^ 3 + 27 * b ^ 2) (fuel : ℕ)
    (r : List ModResult) (h : schoof fuel a b q = .ok r) (e : ModResult) (he : e ∈ r) (hl : e.l = 5) (t : ℤ)
    (ht : t = q + 1 - Nat.card (shortW (a : ZMod q.toNat) (b : ZMod q.toNat)).toAffine.Point) :
    e.r = if (5 : ℤ) ∣ t then
        (if q % 5 = 1 ∧ psi5 0 (b : ZMod q.toNat) ∣ X ^ q.toNat - X then 3 else 0)
      else if t ^ 2 ≡ 4 * q [ZMOD 5] ∧ psi5 (a : ZMod q.toNat) b ∣ X ^ (q.toNat ^ 2) - X then 1
      else if (t % 5 = 1 ∨ t % 5 = 2) ∧ ¬ (q ≡ t ^ 2 [ZMOD 5] ∧ q ∣ a) then 5 - t % 5 else t % 5 := by
  have hi : q ≤ 2147483647 := by
    by_contra hc
    exact C62_large a b q (by omega) fuel r h
  have hS : 5 < q ∧ schoofL fuel a b q (5 : ℕ) = .ok e := by
    obtain ⟨r2, e2, hr⟩ := schoof_eq_ok h
    have hr2 : r2.l = 2 := by
      unfold schoof2 at e2
      obtain ⟨c, -, e2⟩ := Res.bind_eq_ok.1 e2
      simp only [Res.ok.injEq] at e2; subst e2; rfl
    rcases hr with ⟨-, rfl⟩ | ⟨-, -, r3, h3', rfl⟩ | ⟨h5, r3, r5, h3', h5', rfl⟩
    · simp only [List.mem_singleton] at he; subst he; omega
    · simp only [List.mem_cons, List.not_mem_nil, or_false] at he
      rcases he with rfl | rfl
      · omega
      · have := (schoofL_shape (by norm_num) h3').1
        omega
    · simp only [List.mem_cons, List.not_mem_nil, or_false] at he
      rcases he with rfl | rfl | rfl
      · omega
      · have := (schoofL_shape (by norm_num) h3').1
        omega
      · exact ⟨h5, h5'⟩
  let K := AlgebraicClosure (ZMod q.toNat)
  have : CharP K q.toNat := charP_of_injective_algebraMap (algebraMap (ZMod q.toNat) K).injective q.toNat
  have : DecidableEq K := Classical.decEq K
  exact schoofL_five_exact (K := K) hS.1 hi hns hS.2 (fun P => frob_char_point (by omega) hns P ht)

/-- C79: when the entry modulo 5 is the trace modulo 5. -/
theorem C79_right (a b q : ℤ) [hq : Fact (Nat.Prime q.toNat)]
    (hns : ¬ q ∣ 4 * a ^ 3 + 27 * b ^ 2) (fuel : ℕ)
    (r : List ModResult) (h : schoof fuel a b q = .ok r) (e : ModResult) (he : e ∈ r) (hl : e.l = 5) (t : ℤ)
    (ht : t = q + 1 - Nat.card (shortW (a : ZMod q.toNat) (b : ZMod q.toNat)).toAffine.Point) :
    (t ≡ 0 [ZMOD 5] → (e.r ≡ t [ZMOD 5] ↔ ¬ (q ≡ 1 [ZMOD 5] ∧ psi5 0 (b : ZMod q.toNat) ∣ X ^ q.toNat - X))) ∧
    (t ≡ 1 [ZMOD 5] → (e.r ≡ t [ZMOD 5] ↔
      (q ≡ 4 [ZMOD 5] ∧ psi5 (a : ZMod q.toNat) b ∣ X ^ (q.toNat ^ 2) - X) ∨ (q ≡ 1 [ZMOD 5] ∧ q ∣ a))) ∧
    (t ≡ 2 [ZMOD 5] → (e.r ≡ t [ZMOD 5] ↔ q ≡ 4 [ZMOD 5] ∧ q ∣ a)) ∧
    (t ≡ 3 [ZMOD 5] → (e.r ≡ t [ZMOD 5] ↔
      ¬ (q ≡ 1 [ZMOD 5] ∧ psi5 (a : ZMod q.toNat) b ∣ X ^ (q.toNat ^ 2) - X))) ∧
    (t ≡ 4 [ZMOD 5] → (e.r ≡ t [ZMOD 5] ↔
      ¬ (q ≡ 4 [ZMOD 5] ∧ psi5 (a : ZMod q.toNat) b ∣ X ^ (q.toNat ^ 2) - X))) := by
  have hm := C79_mod_five a b q hns fuel r h e he hl t ht
  have hsq : ∀ c : ℤ, t ≡ c [ZMOD 5] → t ^ 2 % 5 = c ^ 2 % 5 := fun c hc => hc.pow 2
  refine ⟨fun h0 => ?_, fun h0 => ?_, fun h0 => ?_, fun h0 => ?_, fun h0 => ?_⟩ <;>
    have hs := hsq _ h0 <;> norm_num at hs <;> simp only [Int.ModEq] at h0 hm ⊢ <;> norm_num at h0
  · rw [if_pos (by omega)] at hm
    by_cases hc : psi5 0 (b : ZMod q.toNat) ∣ X ^ q.toNat - X
    · simp only [hc, and_true] at hm ⊢
      split_ifs at hm <;> omega
    · simp only [hc, and_false, if_false, not_false_eq_true, iff_true] at hm ⊢
      omega
  all_goals
    rw [if_neg (by omega)] at hm
    by_cases hc : psi5 (a : ZMod q.toNat) b ∣ X ^ (q.toNat ^ 2) - X <;> by_cases hc2 : q ∣ a <;>
    · simp only [hc, hc2, and_true, and_false, if_false, not_false_eq_true, not_true_eq_false, iff_true, iff_false,
        or_false, false_or] at hm ⊢
      split_ifs at hm <;> omega

/-- The hypotheses of C79 hold for `y^2 = x^3 + x` over GF(7): the call returns a list with an entry modulo 5. -/
example : ∃ fuel r, schoof fuel 1 0 7 = .ok r ∧ ∃ e ∈ r, e.l = 5 := by
  obtain ⟨r, N, h⟩ := returns_7
  have h' := h N le_rfl
  refine ⟨N, r, h', ?_⟩
  have := (C54_shape 1 0 7 N r h').1
  norm_num at this
  have h5 : (5 : ℤ) ∈ r.map (·.l) := by rw [this]; simp
  obtain ⟨e, he, h4⟩ := List.mem_map.1 h5
  exact ⟨e, he, h4⟩

end EC
