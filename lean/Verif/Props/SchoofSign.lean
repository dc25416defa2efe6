import Verif.Lemmas.SchoofSign

/-! Property C67: the sign of the residues modulo 3 that `schoof` returns. -/

namespace EC
open Poly Polynomial WeierstrassCurve EDS

section
variable {K : Type} [Field K] [DecidableEq K] {a b q : ℤ} [Fact (Nat.Prime q.toNat)] [CharP K q.toNat] {fuel : ℕ}

/-- The test on `y` fails for `l = 3`, `q = 2` modulo 3, at every point of order 3, if the third division polynomial
has no root in GF(q). -/
theorem sign_three [Algebra (ZMod q.toNat) K] (h3 : q % 3 = 2) (h2 : q ≠ 2)
    (hr : ∀ z : ZMod q.toNat, psi3 (a : ZMod q.toNat) b z ≠ 0) {P A R : Pt (a : K) b} (hP : P ≠ 0) (h3P : 3 • P = 0)
    (hA : A = 2 • P) (hR : R = frobPoint q.toNat a b (frobPoint q.toNat a b P)) :
    (yc A - yc R) * ((2 * xc R - xc A) * (xc A - xc R) ^ 2 - (yc A - yc R) ^ 2) -
      yc R * (xc A - xc R) ^ 3 ≠ yc (frobPoint q.toNat a b P) * (xc A - xc R) ^ 3 := by
  intro hV
  have hpr : Nat.Prime q.toNat := Fact.out
  have hq := two_le_of_prime (p := q) hpr
  have h2K := two_ne_char (K := K) h2
  have hroot : psi3 (a : K) b (xc P) = 0 := by
    rw [← F_three]; exact (F_eq_zero_iff h2K hP 3 (by norm_num)).2 h3P
  obtain ⟨n1, n2⟩ := no_quadratic_root (p := q.toNat) (K := K) (a := a) (b := b) (by omega) (by omega) hr _ hroot
  obtain ⟨g1, g2, g3⟩ := frobPoint_ne (q := q) hP
  obtain ⟨f1, f2, f3⟩ := frobPoint_ne (q := q) g1
  obtain ⟨s, hs, hsP⟩ := three_char (K := K) (a := a) (b := b) h3 h2 hr
  have hx0 : xc P ≠ 0 := fun h0 => n1 (by rw [h0, zero_pow hpr.ne_zero])
  have hA' : A = -P := by
    rw [hA, eq_neg_iff_add_eq_zero, ← h3P]; abel
  have hy0 : yc P ≠ 0 := by
    intro h0
    have := (two_nsmul_eq_zero_iff h2K hP).2 h0
    apply hP
    rw [show (3 : ℕ) • P = P + P + P by abel, this, zero_add] at h3P
    exact h3P
  have xA : xc A = xc P := by rw [hA', xc_neg]
  have yA : yc A = -yc P := by rw [hA', yc_neg]
  have hA0 : A ≠ 0 := by rw [hA']; exact neg_ne_zero.2 hP
  have hR0 : R ≠ 0 := hR ▸ f1
  rw [← hR] at f2 f3
  have hD : xc P ≠ xc R := by
    intro h0; apply n2
    rw [pow_two, pow_mul, ← g2, ← f2, ← h0]
  have hD' := sub_ne_zero.2 hD
  have key := hsP P h3P
  rw [← hR] at key
  have frob3 : 3 • frobPoint q.toNat a b P = 0 := by
    have := frob_zsmul (q := q) h2K 3 P
    rw [show (3 : ℤ) = ((3 : ℕ) : ℤ) from rfl, natCast_zsmul, h3P, frob_zero, natCast_zsmul] at this
    exact this.symm
  have key2 := hsP _ frob3
  rw [← hR] at key2
  have frob3R : 3 • R = 0 := by
    have := frob_zsmul (q := q) h2K 3 (frobPoint q.toNat a b P)
    rw [show (3 : ℤ) = ((3 : ℕ) : ℤ) from rfl, natCast_zsmul, frob3, frob_zero, natCast_zsmul, ← hR] at this
    exact this.symm
  have key3 := hsP _ frob3R
  obtain ⟨k1, k2, k3⟩ := frobPoint_ne (q := q) hR0
  obtain ⟨l1, l2, l3⟩ := frobPoint_ne (q := q) k1
  set Q := frobPoint q.toNat a b P with hQ
  -- the fourth power of Frobenius is the inversion
  have hF4 : frobPoint q.toNat a b (frobPoint q.toNat a b R) = -P := by
    have e : ∀ s : ℤ, (s = 1 ∨ s = -1) → s * s = 1 := by rintro s (rfl | rfl) <;> norm_num
    rw [key3, key2, smul_add, ← mul_smul, e s hs, one_smul, eq_neg_iff_add_eq_zero]
    have : R + (s • Q + R) + P = (3 : ℤ) • (P + s • Q) := by
      rw [key]; abel
    rw [this, smul_add, show (3 : ℤ) = ((3 : ℕ) : ℤ) from rfl, natCast_zsmul, h3P, smul_comm, natCast_zsmul, frob3,
      smul_zero, add_zero]
  have hneg : ∀ u : K, (-u) ^ q.toNat = -u ^ q.toNat := fun u => by
    rw [← frobenius_def, map_neg, frobenius_def]
  have hsum : A + R = s • Q := by rw [key, hA', neg_add_cancel_left]
  have hX := xc_add hA0 hR0 (by rw [xA]; exact hD)
  have hY := yc_add hA0 hR0 (by rw [xA]; exact hD)
  have l3' : yc (-P) = yc R ^ q.toNat ^ 2 := by rw [← hF4, l3, k3, ← pow_mul, pow_two]
  have l2' : xc (-P) = xc R ^ q.toNat ^ 2 := by rw [← hF4, l2, k2, ← pow_mul, pow_two]
  rw [yc_neg] at l3'
  rw [xc_neg] at l2'
  have hRP : yc R = yc P ^ q.toNat ^ 2 := by rw [f3, g3, ← pow_mul, pow_two]
  have hRx : xc R = xc P ^ q.toNat ^ 2 := by rw [f2, g2, ← pow_mul, pow_two]
  rcases hs with rfl | rfl
  · rw [one_smul] at hsum
    rw [hsum, xA, yA] at hX hY
    rw [xA, yA] at hV
    have h5 : xc P * (yc P + yc R) = 0 := by
      apply mul_left_cancel₀ (mul_ne_zero h2K (pow_ne_zero 2 hD'))
      linear_combination hV + (yc P + yc R) * hX + (xc P - xc R) ^ 2 * hY
    have h6 : yc R = -yc P := by
      have := (mul_eq_zero.1 h5).resolve_left hx0
      linear_combination this
    have h7 : yc R ^ q.toNat ^ 2 = -yc R := by
      rw [h6, pow_two, pow_mul, hneg, hneg, ← pow_mul, ← pow_two, ← hRP, h6]
    rw [h7, h6, neg_neg] at l3'
    apply hy0
    apply mul_left_cancel₀ h2K
    linear_combination -l3'
  · rw [neg_smul, one_smul] at hsum
    rw [hsum, xA, yA, xc_neg] at hX
    rw [hsum, xA, yA, xc_neg, yc_neg] at hY
    rw [xA, yA] at hV
    have h5 : xc P * (yc P + yc R) = yc Q * (xc P - xc R) := by
      apply mul_left_cancel₀ (mul_ne_zero h2K (pow_ne_zero 2 hD'))
      linear_combination hV + (yc P + yc R) * hX + (xc P - xc R) ^ 2 * hY
    have h6 : xc Q * yc Q = -(xc P * yc P) := by
      apply mul_left_cancel₀ hD'
      linear_combination (xc P - xc Q) * h5 - xc P * hY
    have h7 : (xc P * yc P) ^ q.toNat = -(xc P * yc P) := by rw [mul_pow, ← g2, ← g3, h6]
    have h8 : xc R * yc R = xc P * yc P := by
      rw [hRx, hRP, ← mul_pow, pow_two, pow_mul, h7, hneg, h7, neg_neg]
    have h9 : xc P * -yc P = xc P * yc P := by
      rw [l3']
      nth_rewrite 1 [l2']
      rw [← mul_pow, h8, pow_two, pow_mul, h7, hneg, h7, neg_neg]
    apply mul_ne_zero h2K (mul_ne_zero hx0 hy0)
    linear_combination -h9

theorem schoofL_three_ne [IsAlgClosed K] [Algebra (ZMod q.toNat) K] (h2 : q ≠ 2) (h3 : q % 3 = 2)
    (hns : ¬ q ∣ 4 * a ^ 3 + 27 * b ^ 2) (hroot : ∀ z : ZMod q.toNat, psi3 (a : ZMod q.toNat) b z ≠ 0)
    {e : ModResult} (hS : schoofL fuel a b q (3 : ℕ) = .ok e) : e.r ≠ 1 := by
  intro her
  have hpr : Nat.Prime q.toNat := Fact.out
  have hq2 := two_le_of_prime (p := q) hpr
  have hzc : ((q.toNat : ℕ) : ℤ) = q := Int.toNat_of_nonneg (by omega)
  have h2K := two_ne_char (K := K) h2
  have hcast : ∀ n : ℤ, (n : K) = 0 → q ∣ n := by
    intro n hn
    have := (CharP.intCast_eq_zero_iff K q.toNat n).1 hn
    rwa [hzc] at this
  have hd : 4 * (a : K) ^ 3 + 27 * (b : K) ^ 2 ≠ 0 := by
    intro h0
    apply hns
    apply hcast
    push_cast
    exact h0
  have hlK : ((3 : ℕ) : K) ≠ 0 := by
    intro h0
    have := hcast 3 (by exact_mod_cast h0)
    have := Int.le_of_dvd (by norm_num) this
    omega
  obtain ⟨s, hs, hsP⟩ := card_torsion (a := (a : K)) (b := b) h2K hd hlK
  obtain ⟨P, hPs, hP0⟩ : ∃ P ∈ s, P ≠ 0 := by
    by_contra hc
    push Not at hc
    have : s ⊆ {0} := fun P hP => by rw [Finset.mem_singleton]; exact hc P hP
    have := Finset.card_le_card this
    rw [hs, Finset.card_singleton] at this
    omega
  have h3P : 3 • P = 0 := hsP P hPs
  unfold schoofL at hS
  obtain ⟨nd, hnd, hS⟩ := Res.bind_eq_ok.1 hS
  obtain ⟨ps, hps, hS⟩ := Res.bind_eq_ok.1 hS
  obtain ⟨psL, hpsL, hS⟩ := Res.bind_eq_ok.1 hS
  obtain ⟨o, ho, hS⟩ := Res.bind_eq_ok.1 hS
  rw [fmod_pos_eq (by norm_num)] at hS
  cases o with
  | none =>
    obtain ⟨-, h4 | ⟨w, h5, h6, h7, -⟩⟩ := schoofDE_shape (by norm_num) hS
    · omega
    · have hw : w = 1 ∨ w = 2 := by
        push_cast at h6; omega
      push_cast at h7
      rcases hw with rfl | rfl <;> omega
  | some jj =>
    have hj := schoofFindJ_mem ho
    rw [mem_irange] at hj
    have hj1 : jj = 1 := by
      have : ((((3 : ℕ) : ℤ) - 1).tdiv 2 + 1) = 2 := by decide
      omega
    subst hj1
    have hql : q % ((3 : ℕ) : ℤ) = ((2 : ℕ) : ℤ) := by push_cast; exact h3
    rw [hql] at hS
    have hy0 : yc P ≠ 0 := by
      intro h0
      have := (two_nsmul_eq_zero_iff h2K hP0).2 h0
      apply hP0
      rw [show (3 : ℕ) • P = P + P + P by abel, this, zero_add] at h3P
      exact h3P
    have hF0 : F P 3 = 0 := (F_eq_zero_iff h2K hP0 3 (by omega)).2 h3P
    have v3 := Ev.rem (show 1 ≤ q by omega) (char_smulK (K := K) (q := q) (by omega)) (ev_psi hP0 hps) hpsL
    rw [hF0] at v3
    have hQ := (frobPoint_ne (q := q) hP0).1
    have := ev_schoofY (K := K) h2K hq2 hP0 hy0 (n := 2) (j := 1) (by norm_num)
      (by rw [two_nsmul]; exact fun h0 => hy0 ((two_nsmul_eq_zero_iff h2K hP0).1 h0)) le_rfl
      (by rw [one_smul]; exact hQ) (by norm_num) v3 hS (by rw [her]; rfl) rfl rfl
    rw [one_smul] at this
    exact sign_three h3 h2 hroot hP0 h3P rfl rfl this

end

/-- C67: for an odd prime `q = 2` modulo 3 and a nonsingular curve, the entry `r mod 3` that `schoof` returns is 0 if
the trace of Frobenius is divisible by 3, and 2 otherwise: it is never 1, and it is wrong exactly if the trace is 1
modulo 3. -/
theorem C67_mod_three (a b q : ℤ) [hq : Fact (Nat.Prime q.toNat)] (h2 : q ≠ 2) (h3 : q % 3 = 2)
    (hns : ¬ q ∣ 4 * a ^ 3 + 27 * b ^ 2) (fuel : ℕ)
    (r : List ModResult) (h : schoof fuel a b q = .ok r) (e : ModResult) (he : e ∈ r) (hl : e.l = 3) (t : ℤ)
    (ht : t = q + 1 - Nat.card (shortW (a : ZMod q.toNat) (b : ZMod q.toNat)).toAffine.Point) :
    e.r = (if (3 : ℤ) ∣ t then 0 else 2) ∧ (e.r ≡ t [ZMOD 3] ↔ ¬ t ≡ 1 [ZMOD 3]) := by
  have hb := (C54_shape a b q fuel r h).2 e he
  have hc := C66_mod_three a b q h2 h3 hns fuel r h e he hl t ht
  rw [hl] at hb
  have main : e.r = if (3 : ℤ) ∣ t then 0 else 2 := by
    split_ifs with htd
    · simp only [Int.ModEq] at hc; omega
    by_contra hne
    have her : e.r = 1 := by simp only [Int.ModEq] at hc; omega
    have hroot := no_root_of_trace h2 h3 hns ht htd
    have hpr : Nat.Prime q.toNat := Fact.out
    have hq2 := two_le_of_prime (p := q) hpr
    have hzc : ((q.toNat : ℕ) : ℤ) = q := Int.toNat_of_nonneg (by omega)
    have hS : schoofL fuel a b q (3 : ℕ) = .ok e := by
      obtain ⟨r2, e2, hr⟩ := schoof_eq_ok h
      have hr2 : r2.l = 2 := by
        unfold schoof2 at e2
        obtain ⟨c, -, e2⟩ := Res.bind_eq_ok.1 e2
        simp only [Res.ok.injEq] at e2; subst e2; rfl
      rcases hr with ⟨-, rfl⟩ | ⟨-, -, r3, h3', rfl⟩ | ⟨-, r3, r5, h3', h5', rfl⟩
      · simp only [List.mem_singleton] at he; subst he; omega
      · simp only [List.mem_cons, List.not_mem_nil, or_false] at he
        rcases he with rfl | rfl
        · omega
        · exact h3'
      · simp only [List.mem_cons, List.not_mem_nil, or_false] at he
        rcases he with rfl | rfl | rfl
        · omega
        · exact h3'
        · have := (schoofL_shape (by norm_num) h5').1
          omega
    let K := AlgebraicClosure (ZMod q.toNat)
    have : CharP K q.toNat := charP_of_injective_algebraMap (algebraMap (ZMod q.toNat) K).injective q.toNat
    have : DecidableEq K := Classical.decEq K
    exact schoofL_three_ne (K := K) h2 h3 hns hroot hS her
  refine ⟨main, ?_⟩
  rw [main]
  simp only [Int.ModEq]
  split_ifs <;> omega

/-- The hypotheses are met by `y^2 = x^3 + 2 x` over GF(5): entry `2 mod 3`, trace 4. -/
example : ¬ (2 : ℤ) ≡ 4 [ZMOD 3] := by
  obtain ⟨⟨N, hN⟩, ht⟩ := C61_trace_mod_three_refuted
  have : Fact (Nat.Prime (5 : ℤ).toNat) := ⟨by decide⟩
  have := (C67_mod_three 2 0 5 (by norm_num) (by norm_num) (by norm_num) N _ (hN N le_rfl) ⟨3, 2⟩ (by simp) rfl 4 ht.symm).2
  rw [this]
  simp [Int.ModEq]

/-- A run of `schoof` for `y^2 = x^3 + 1` over GF(5). -/
theorem schoof_0_1_5 : ((schoof 60 0 1 5) >>= fun r => .ok (r.map fun m => (m.l, m.r))) = .ok [(2, 1), (3, 0)] := by
  decide +kernel

/-- The hypotheses are met by `y^2 = x^3 + 1` over GF(5): the entry `0 mod 3` shows that 3 divides the trace. -/
example (t : ℤ) (ht : t = 5 + 1 - Nat.card (shortW ((0 : ℤ) : ZMod (5 : ℤ).toNat) ((1 : ℤ) : ZMod (5 : ℤ).toNat)).toAffine.Point) :
    (3 : ℤ) ∣ t := by
  obtain ⟨r, hr, h⟩ := Res.bind_eq_ok.1 schoof_0_1_5
  have hr' : r = [{ l := 2, r := 1 }, { l := 3, r := 0 }] := by
    simp only [Res.ok.injEq] at h
    match r, h with
    | [⟨_, _⟩, ⟨_, _⟩], h => simpa using h
  have : Fact (Nat.Prime (5 : ℤ).toNat) := ⟨by decide⟩
  have := (C67_mod_three 0 1 5 (by norm_num) (by norm_num) (by norm_num) 60 r hr ⟨3, 0⟩ (by rw [hr']; simp) rfl t ht).1
  by_contra hn
  rw [if_neg hn] at this
  simp at this

end EC
