import Mathlib.Algebra.Algebra.ZMod
import Verif.Props.Hasse
import Verif.Props.SchoofExact

/-! Property C72: the residues returned by `schoof` and the trace of Frobenius. -/

namespace EC
open Poly Polynomial WeierstrassCurve EDS

section
variable {K : Type} [Field K] [DecidableEq K] {a b q : ℤ} [Fact (Nat.Prime q.toNat)] [CharP K q.toNat]

/-- `F^2 P + q P = t F P` for every point, where `t = q + 1 - #E(GF(q))`. -/
theorem frob_char_point (h2 : q ≠ 2) (hns : ¬ q ∣ 4 * a ^ 3 + 27 * b ^ 2) (P : Pt (a : K) (b : K)) {t : ℤ}
    (ht : t = q + 1 - Nat.card (shortW (a : ZMod q.toNat) (b : ZMod q.toNat)).toAffine.Point) :
    frobPoint q.toNat a b (frobPoint q.toNat a b P) + q • P = t • frobPoint q.toNat a b P := by
  let _ : Algebra (ZMod q.toNat) K := _root_.ZMod.algebra K q.toNat
  have hpr : Nat.Prime q.toNat := Fact.out
  have hqz : ((q.toNat : ℕ) : ℤ) = q := Int.toNat_of_nonneg (by have := hpr.two_le; omega)
  have hcast : ∀ n : ℤ, ((n : ℤ) : ZMod q.toNat) = 0 → q ∣ n := by
    intro n hn
    have := (ZMod.intCast_zmod_eq_zero_iff_dvd n q.toNat).1 hn
    rwa [hqz] at this
  have h2' : (2 : ZMod q.toNat) ≠ 0 := by
    intro h0
    have := Int.le_of_dvd (by norm_num) (hcast 2 (by exact_mod_cast h0))
    have := hpr.two_le
    omega
  have hd' : 4 * (a : ZMod q.toNat) ^ 3 + 27 * (b : ZMod q.toNat) ^ 2 ≠ 0 := by
    intro h0
    exact hns (hcast _ (by push_cast; exact h0))
  have hs : ∀ n : ℤ, algebraMap (ZMod q.toNat) K (n : ZMod q.toNat) = n := fun n => map_intCast _ n
  have ha : algebraMap (ZMod q.toNat) K (a : ZMod q.toNat) = 1 ^ 4 * RingHom.id K (a : K) := by
    rw [hs]; simp
  have hb : algebraMap (ZMod q.toNat) K (b : ZMod q.toNat) = 1 ^ 6 * RingHom.id K (b : K) := by
    rw [hs]; simp
  let ι : Pt (a : K) (b : K) →+ EPt (a : ZMod q.toNat) (b : ZMod q.toNat) K :=
    scaleHom (RingHom.id K) 1 (two_ne_ext h2' K) (disc_ext hd' K) ha hb one_ne_zero
  have hι : ∀ {Q : Pt (a : K) (b : K)}, Q ≠ 0 → ι Q ≠ 0 ∧ xc (ι Q) = xc Q ∧ yc (ι Q) = yc Q := by
    intro Q hQ
    obtain ⟨p1, p2, p3⟩ := scaleFun_ne (RingHom.id K) 1 (two_ne_ext h2' K) (disc_ext hd' K) ha hb hQ
    exact ⟨p1, p2.trans (by simp), p3.trans (by simp)⟩
  have hf : ∀ Q, ι (frobPoint q.toNat a b Q) = frobK h2' hd' K (ι Q) := by
    intro Q
    by_cases hQ : Q = 0
    · rw [hQ, frob_zero, map_zero, map_zero]
    · obtain ⟨c1, c2, c3⟩ := frobPoint_ne (q := q) hQ
      obtain ⟨d1, d2, d3⟩ := hι c1
      obtain ⟨e1, e2, e3⟩ := hι hQ
      obtain ⟨f1, f2, f3⟩ := frobK_ne h2' hd' e1
      refine EDS.ext d1 f1 ?_ ?_
      · rw [d2, c2, f2, e2, ZMod.card]
      · rw [d3, c3, f3, e3, ZMod.card]
  have key := frob_char h2' hd' (ι P)
  unfold charP trc at key
  rw [← hf, ← hf, ← map_zsmul, ← map_zsmul, ← map_sub, ← map_add, ZMod.card, hqz, ← ht] at key
  have h0 : frobPoint q.toNat a b (frobPoint q.toNat a b P) - t • frobPoint q.toNat a b P + q • P = 0 := by
    by_contra hc
    exact (hι hc).1 key
  rw [← sub_eq_zero, ← h0]
  abel

end

/-- C72: Schoof's equation, the fact the algorithm rests on: for a nonsingular curve over GF(q), `q` an odd prime, and
every point `P` over every field of characteristic `q`, `F^2 P + q P = t F P` with `t = q + 1 - #E(GF(q))`. -/
theorem C72_schoof_equation (a b q : ℤ) [Fact (Nat.Prime q.toNat)] (h2 : q ≠ 2) (hns : ¬ q ∣ 4 * a ^ 3 + 27 * b ^ 2)
    (t : ℤ) (ht : t = q + 1 - Nat.card (shortW (a : ZMod q.toNat) (b : ZMod q.toNat)).toAffine.Point)
    (K : Type) [Field K] [DecidableEq K] [CharP K q.toNat] (P : (shortW (a : K) (b : K)).toAffine.Point) :
    frobPoint q.toNat a b (frobPoint q.toNat a b P) + q • P = t • frobPoint q.toNat a b P :=
  frob_char_point h2 hns P ht

theorem trace_up_to_sign_aux (K : Type) [Field K] [DecidableEq K] [IsAlgClosed K] (a b q : ℤ)
    [hq : Fact (Nat.Prime q.toNat)] [CharP K q.toNat] (h2 : q ≠ 2)
    (hns : ¬ q ∣ 4 * a ^ 3 + 27 * b ^ 2) (t : ℤ)
    (ht : t = q + 1 - Nat.card (shortW (a : ZMod q.toNat) (b : ZMod q.toNat)).toAffine.Point) (fuel : ℕ)
    (r : List ModResult) (h : schoof fuel a b q = .ok r) (e : ModResult) (he : e ∈ r) (hl : 3 ≤ e.l) :
    (¬ e.l ∣ t → e.r ≡ t [ZMOD e.l] ∨ e.r ≡ -t [ZMOD e.l] ∨
      (e.l = 5 ∧ q ≡ 1 [ZMOD 5] ∧ (t ≡ 2 [ZMOD 5] ∨ t ≡ -2 [ZMOD 5]) ∧ (e.r = 1 ∨ e.r = 4))) ∧
    (e.l ∣ t → e.r = 0 ∨ e.r ^ 2 ≡ 4 * q [ZMOD e.l]) := by
  have hpr : Nat.Prime q.toNat := Fact.out
  have hq2 := two_le_of_prime (p := q) hpr
  have h2K := two_ne_char (K := K) h2
  have hcast : ∀ n : ℤ, (n : K) = 0 → q ∣ n := by
    intro n hn
    have := (CharP.intCast_eq_zero_iff K q.toNat n).1 hn
    rwa [Int.toNat_of_nonneg (by omega)] at this
  have hd : 4 * (a : K) ^ 3 + 27 * (b : K) ^ 2 ≠ 0 := by
    intro h0
    apply hns
    apply hcast
    push_cast
    exact h0
  have hL : e.l = 3 ∨ e.l = 5 := by
    have h1 := (C54_shape a b q fuel r h).1
    have h2 : e.l ∈ r.map (·.l) := List.mem_map_of_mem he
    rw [h1] at h2
    split_ifs at h2
    · simp at h2; omega
    · simp at h2; omega
    · simp at h2; omega
  obtain ⟨l, hlp, hle, hlq⟩ := schoof_l_prime h he hl
  have hlK : (l : K) ≠ 0 := by
    intro h0
    have := hcast l (by exact_mod_cast h0)
    have := Int.le_of_dvd (by have := hlp.pos; omega) this
    omega
  have hτ := fun P : Pt (a : K) (b : K) => frob_char_point h2 hns P ht
  have hlprime : Prime (l : ℤ) := Nat.prime_iff_prime_int.1 hlp
  have hlodd : ¬ (l : ℤ) ∣ 2 := by
    intro h0
    have := Int.le_of_dvd (by norm_num) h0
    omega
  have hlq' : ¬ (l : ℤ) ∣ q := by
    intro h0
    have : l ∣ q.toNat := by
      rw [← Int.natCast_dvd_natCast, Int.toNat_of_nonneg (by omega)]; exact h0
    have := (Nat.prime_dvd_prime_iff_eq hlp hpr).1 this
    omega
  have hz : ∀ R : Pt (a : K) (b : K), R ≠ 0 → (l : ℤ) • R = 0 → ∀ n : ℤ, n • R = 0 → (l : ℤ) ∣ n := by
    intro R hR hlR n hn
    have h1 := addOrderOf_dvd_iff_zsmul_eq_zero.2 hn
    rwa [addOrderOf_eq_prime (by rw [← natCast_zsmul]; exact hlR) hR (hp := ⟨hlp⟩)] at h1
  have hlF : ∀ R : Pt (a : K) (b : K), (l : ℤ) • R = 0 → (l : ℤ) • frobPoint q.toNat a b R = 0 := by
    intro R hR
    rw [← frob_zsmul h2K, hR, frob_zero]
  have hzF : ∀ R : Pt (a : K) (b : K), R ≠ 0 → (l : ℤ) • R = 0 → ∀ n : ℤ, n • frobPoint q.toNat a b R = 0 → (l : ℤ) ∣ n :=
    fun R hR hlR => hz _ (frobPoint_ne (q := q) hR).1 (hlF R hlR)
  obtain ⟨P, hP0, hlP⟩ : ∃ P : Pt (a : K) (b : K), P ≠ 0 ∧ (l : ℤ) • P = 0 := by
    obtain ⟨s, hs, hsP⟩ := card_torsion (a := (a : K)) (b := b) h2K hd hlK
    by_contra hc
    push Not at hc
    have : s ⊆ {0} := fun P hP => by
      rw [Finset.mem_singleton]
      by_contra h0
      exact hc P h0 (by rw [natCast_zsmul]; exact hsP P hP)
    have := Finset.card_le_card this
    rw [hs, Finset.card_singleton] at this
    have := hlp.two_le
    nlinarith
  -- the three alternatives at a nonzero point
  have hcon : ∀ (j : ℤ) (R : Pt (a : K) (b : K)), R ≠ 0 → (l : ℤ) • R = 0 → SchoofCongr K a b q e.l j →
      (frobPoint q.toNat a b (frobPoint q.toNat a b R) = q • R) ∨ j ≡ t [ZMOD l] ∨ j ≡ -t [ZMOD l] := by
    intro j R hR hlR hj
    rcases hj R (by rw [hle]; exact hlR) with h3 | h3 | h3
    · exact .inl h3
    · right; left
      exact Int.modEq_iff_dvd.2 (hzF R hR hlR _ (by rw [sub_smul, ← hτ, ← h3, sub_self]))
    · right; right
      refine Int.modEq_iff_dvd.2 (hzF R hR hlR _ ?_)
      rw [sub_smul, neg_smul, ← hτ, h3, neg_neg, sub_self]
  rcases C66_exact K a b q h2 hns fuel r h e he hl with ⟨j, hj1, hj2, hj, hmin, hr⟩ | ⟨hno, hr⟩
  · have hjl : ¬ (l : ℤ) ∣ j := by
      intro h0
      have := Int.le_of_dvd (by omega) h0
      omega
    refine ⟨fun hlt => ?_, fun hlt => ?_⟩
    · by_cases hpm : j ≡ t [ZMOD l] ∨ j ≡ -t [ZMOD l]
      · rw [← hle] at hpm
        have h3 : e.r ≡ j [ZMOD e.l] ∨ e.r ≡ -j [ZMOD e.l] := by
          rcases hr with hr | hr
          · exact .inl (by rw [hr])
          · right
            rw [hr]
            exact Int.modEq_iff_dvd.2 ⟨-1, by ring⟩
        rcases hpm with h4 | h4
        · rcases h3 with h3 | h3
          · exact .inl (h3.trans h4)
          · exact .inr (.inl (h3.trans h4.neg))
        · rcases h3 with h3 | h3
          · exact .inr (.inl (h3.trans h4))
          · exact .inl ((h3.trans h4.neg).trans (by rw [neg_neg]))
      · right; right
        have hall : ∀ R : Pt (a : K) (b : K), (l : ℤ) • R = 0 →
            frobPoint q.toNat a b (frobPoint q.toNat a b R) = q • R := by
          intro R hR
          by_cases hR0 : R = 0
          · rw [hR0, frob_zero, frob_zero, smul_zero]
          · exact (hcon j R hR0 hR hj).resolve_right hpm
        have hj1' : j = 1 := by
          by_contra hne
          exact hmin 1 le_rfl (by omega) (fun R hR => .inl (hall R (by rw [← hle]; exact hR)))
        have hsq : (l : ℤ) ∣ t ^ 2 - 4 * q := by
          have hτP := hτ P
          rw [hall P hlP, ← add_smul, ← two_mul] at hτP
          have h5 := congrArg (frobPoint q.toNat a b) hτP
          rw [frob_zsmul h2K, frob_zsmul h2K, hall P hlP] at h5
          have h6 : (t ^ 2 * q - (2 * q) * (2 * q)) • P = 0 := by
            rw [sub_smul, pow_two, mul_assoc, mul_smul, mul_smul t q, ← h5, smul_smul t (2 * q), mul_comm t, mul_smul,
              ← hτP, ← mul_smul, sub_self]
          have h7 := hz P hP0 hlP _ h6
          have h8 : t ^ 2 * q - 2 * q * (2 * q) = q * (t ^ 2 - 4 * q) := by ring
          rw [h8] at h7
          exact (hlprime.dvd_mul.1 h7).resolve_left hlq'
        rw [hj1'] at hpm hr
        simp only [Int.ModEq] at hpm ⊢
        push Not at hpm
        rw [← hle] at hsq hpm
        have hsq' := Int.emod_eq_zero_of_dvd hsq
        have hlt' : t % e.l ≠ 0 := fun h0 => hlt (Int.dvd_of_emod_eq_zero h0)
        rcases hL with h3 | h3
        · rw [h3] at hpm hlt'
          omega
        · rw [h3] at hpm hlt' hsq' hr
          have h9 : t % 5 = 2 ∨ t % 5 = 3 := by omega
          refine ⟨h3, ?_, by omega, by omega⟩
          rw [Int.sub_emod, pow_two, Int.mul_emod] at hsq'
          rcases h9 with h9 | h9 <;> rw [h9] at hsq' <;> omega
    · exfalso
      rw [hle] at hlt
      have h0 : t • frobPoint q.toNat a b P = 0 := by
        obtain ⟨c, rfl⟩ := hlt
        rw [mul_comm, mul_smul, hlF P hlP, smul_zero]
      rcases hcon j P hP0 hlP hj with h3 | h3 | h3
      · have h4 := hτ P
        rw [h3, h0, ← add_smul, ← two_mul] at h4
        rcases hlprime.dvd_mul.1 (hz P hP0 hlP _ h4) with h5 | h5
        · exact hlodd h5
        · exact hlq' h5
      · exact hjl ((Int.ModEq.dvd_iff h3).2 hlt)
      · exact hjl ((Int.ModEq.dvd_iff h3).2 (hlt.neg_right))
  · refine ⟨fun hlt => ?_, fun _ => hr⟩
    exfalso
    have hτ0 : t % e.l ≠ 0 := fun h0 => hlt (Int.dvd_of_emod_eq_zero h0)
    have hb := Int.emod_lt_of_pos t (show 0 < e.l by omega)
    have hn := Int.emod_nonneg t (show e.l ≠ 0 by omega)
    have hmul := Int.mul_ediv_add_emod t e.l
    have redu : ∀ P : Pt (a : K) (b : K), e.l • P = 0 →
        t • frobPoint q.toNat a b P = (t % e.l) • frobPoint q.toNat a b P := by
      intro R hR
      have h5 : e.l • frobPoint q.toNat a b R = 0 := by rw [hle] at hR ⊢; exact hlF R hR
      nth_rewrite 1 [← hmul]
      rw [add_smul, mul_comm, mul_smul, h5, smul_zero, zero_add]
    by_cases hc : 2 * (t % e.l) < e.l
    · refine hno (t % e.l) (by omega) hc (fun R hR => .inr (.inl ?_))
      rw [hτ R, redu R hR]
    · refine hno (e.l - t % e.l) (by omega) (by omega) (fun R hR => .inr (.inr ?_))
      have h5 : e.l • frobPoint q.toNat a b R = 0 := by rw [hle] at hR ⊢; exact hlF R hR
      rw [hτ R, redu R hR, sub_smul, h5, zero_sub, neg_neg]

/-- C72: for a nonsingular curve over GF(q), `q` an odd prime, with trace of Frobenius `t = q + 1 - #E(GF(q))`, and every
entry `r mod l` with `l ≥ 3` that `schoof` returns:
* if `l` does not divide `t`, then `r = ± t` modulo `l`, or else `l = 5`, `q = 1`, `t = ± 2` and `r = ± 1` modulo 5;
* if `l` divides `t`, then `r = 0` or `r^2 = 4 q` modulo `l`. -/
theorem C72_trace_up_to_sign (a b q : ℤ) [hq : Fact (Nat.Prime q.toNat)] (h2 : q ≠ 2)
    (hns : ¬ q ∣ 4 * a ^ 3 + 27 * b ^ 2) (t : ℤ)
    (ht : t = q + 1 - Nat.card (shortW (a : ZMod q.toNat) (b : ZMod q.toNat)).toAffine.Point) (fuel : ℕ)
    (r : List ModResult) (h : schoof fuel a b q = .ok r) (e : ModResult) (he : e ∈ r) (hl : 3 ≤ e.l) :
    (¬ e.l ∣ t → e.r ≡ t [ZMOD e.l] ∨ e.r ≡ -t [ZMOD e.l] ∨
      (e.l = 5 ∧ q ≡ 1 [ZMOD 5] ∧ (t ≡ 2 [ZMOD 5] ∨ t ≡ -2 [ZMOD 5]) ∧ (e.r = 1 ∨ e.r = 4))) ∧
    (e.l ∣ t → e.r = 0 ∨ e.r ^ 2 ≡ 4 * q [ZMOD e.l]) := by
  let K := AlgebraicClosure (ZMod q.toNat)
  have : CharP K q.toNat := charP_of_injective_algebraMap (algebraMap (ZMod q.toNat) K).injective q.toNat
  let _ : DecidableEq K := Classical.decEq K
  exact trace_up_to_sign_aux K a b q h2 hns t ht fuel r h e he hl

/-- C72: if `q` is not a square modulo `l`, the entry `r mod l` is the trace up to sign, without exception. -/
theorem C72_nonresidue (a b q : ℤ) [hq : Fact (Nat.Prime q.toNat)] (h2 : q ≠ 2)
    (hns : ¬ q ∣ 4 * a ^ 3 + 27 * b ^ 2) (t : ℤ)
    (ht : t = q + 1 - Nat.card (shortW (a : ZMod q.toNat) (b : ZMod q.toNat)).toAffine.Point) (fuel : ℕ)
    (r : List ModResult) (h : schoof fuel a b q = .ok r) (e : ModResult) (he : e ∈ r) (hl : 3 ≤ e.l)
    (hsq : ¬ ∃ w : ℤ, w ^ 2 ≡ q [ZMOD e.l]) : e.r ≡ t [ZMOD e.l] ∨ e.r ≡ -t [ZMOD e.l] := by
  obtain ⟨h3, h4⟩ := C72_trace_up_to_sign a b q h2 hns t ht fuel r h e he hl
  by_cases hlt : e.l ∣ t
  · left
    rcases h4 hlt with h5 | h5
    · rw [h5]
      exact Int.modEq_iff_dvd.2 (by simpa using hlt)
    · exfalso
      obtain ⟨l, hlp, hle, -⟩ := schoof_l_prime h he hl
      have hodd : e.l % 2 = 1 := by
        rcases hlp.eq_two_or_odd with h0 | h0 <;> omega
      refine hsq ⟨e.r * ((e.l + 1) / 2), ?_⟩
      obtain ⟨c, hc⟩ : ∃ c, e.l = 2 * c - 1 := ⟨(e.l + 1) / 2, by omega⟩
      have hc' : (e.l + 1) / 2 = c := by omega
      rw [hc']
      have h6 : (2 * c) ^ 2 ≡ 1 [ZMOD e.l] := by
        rw [hc]; exact Int.modEq_iff_dvd.2 ⟨-(2 * c + 1), by ring⟩
      calc (e.r * c) ^ 2 = e.r ^ 2 * c ^ 2 := by ring
        _ ≡ 4 * q * c ^ 2 [ZMOD e.l] := h5.mul_right _
        _ = (2 * c) ^ 2 * q := by ring
        _ ≡ 1 * q [ZMOD e.l] := h6.mul_right _
        _ = q := one_mul q
  · rcases h3 hlt with h5 | h5 | ⟨h5, h6, -⟩
    · exact .inl h5
    · exact .inr h5
    · exact absurd ⟨1, by rw [h5]; simpa using h6.symm⟩ hsq

/-- The hypotheses are met by `y^2 = x^3 + 2 x` over GF(5): entry `2 mod 3`, trace 4, and 5 is not a square modulo 3. -/
example : (2 : ℤ) ≡ 4 [ZMOD 3] ∨ (2 : ℤ) ≡ -4 [ZMOD 3] := by
  obtain ⟨⟨N, hN⟩, ht⟩ := C61_trace_mod_three_refuted
  have : Fact (Nat.Prime (5 : ℤ).toNat) := ⟨by decide⟩
  refine C72_nonresidue 2 0 5 (by norm_num) (by norm_num) 4 ht.symm N _ (hN N le_rfl) ⟨3, 2⟩ (by simp) (by simp) ?_
  rintro ⟨w, hw⟩
  simp only [Int.ModEq] at hw
  have h1 : w % 3 = 0 ∨ w % 3 = 1 ∨ w % 3 = 2 := by omega
  rw [pow_two, Int.mul_emod] at hw
  rcases h1 with h1 | h1 | h1 <;> rw [h1] at hw <;> omega

end EC
