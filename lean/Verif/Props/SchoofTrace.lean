import Verif.Lemmas.SchoofEval
import Verif.Props.Schoof

/-! Property C64: Schoof's congruence for the residues that `schoof` returns. -/

namespace EC
open Poly Polynomial WeierstrassCurve

section
variable {K : Type} [Field K] [DecidableEq K] {a b q : ℤ} [Fact (Nat.Prime q.toNat)] [CharP K q.toNat]

theorem char_smulK (hq : 0 ≤ q) (m : K) : q • m = 0 := by
  have : ((q.toNat : ℕ) : K) = 0 := CharP.cast_eq_zero K q.toNat
  rw [zsmul_eq_mul]
  have h2 : (q : K) = ((q.toNat : ℕ) : K) := by
    rw [← Int.cast_natCast, Int.toNat_of_nonneg hq]
  rw [h2, this, zero_mul]

theorem frobPoint_ne {P : EDS.Pt (a : K) b} (hP : P ≠ 0) : frobPoint q.toNat a b P ≠ 0 ∧
    EDS.xc (frobPoint q.toNat a b P) = EDS.xc P ^ q.toNat ∧
    EDS.yc (frobPoint q.toNat a b P) = EDS.yc P ^ q.toNat := by
  cases P with
  | zero => exact absurd rfl hP
  | some x y h => exact ⟨Affine.Point.some_ne_zero _, rfl, rfl⟩

/-- Frobenius raises the values of the division polynomials to the power `q`. -/
theorem F_frob {P : EDS.Pt (a : K) b} (hP : P ≠ 0) (n : ℕ) :
    EDS.F (frobPoint q.toNat a b P) n = EDS.F P n ^ q.toNat := by
  obtain ⟨h1, h2, h3⟩ := frobPoint_ne (q := q) hP
  have e1 := evR_psi (EDS.eqn h1) n
  have e2 := evR_psi (EDS.eqn hP) n
  rw [EDS.F, EDS.F, ← e1, ← e2, ← frobenius_def]
  have : (frobenius K q.toNat).comp (evR K (EDS.xc P) (EDS.yc P)) =
      evR K (EDS.xc (frobPoint q.toNat a b P)) (EDS.yc (frobPoint q.toNat a b P)) := by
    apply Polynomial.ringHom_ext
    · intro r
      induction r using Polynomial.induction_on' with
      | add r s hr hs => rw [C_add, map_add, map_add, hr, hs]
      | monomial n c =>
        rw [← C_mul_X_pow_eq_monomial, C_mul, C_pow, map_mul, map_mul, map_pow, map_pow]
        rw [RingHom.comp_apply, RingHom.comp_apply, evR_CC, evR_CC, evR_CX, evR_CX, h2, map_intCast, frobenius_def]
    · rw [RingHom.comp_apply, evR_X, evR_X, h3, frobenius_def]
  exact (congrArg (fun g => g ((shortW a b).Ψ n)) this).symm

variable {fuel : ℕ} {l ql j : ℤ}

/-- Values of `num1` and `den1`. -/
theorem ev_numDen1 (h2 : (2 : K) ≠ 0) (hq : 2 ≤ q) {P : EDS.Pt (a : K) b} (hP : P ≠ 0) {n : ℕ} (hn : 1 ≤ n)
    (hnP : n • P ≠ 0) {nd : Poly × Poly} (h : schoofNumDen1 a b q n = .ok nd) :
    Ev (EDS.xc P) (EDS.yc P) nd.1
      (((EDS.yc (n • P) - EDS.yc P ^ (q.toNat ^ 2)) ^ 2 - (EDS.xc (n • P) + EDS.xc P ^ (q.toNat ^ 2)) *
        (EDS.xc (n • P) - EDS.xc P ^ (q.toNat ^ 2)) ^ 2) * EDS.F P n ^ 6) ∧
    Ev (EDS.xc P) (EDS.yc P) nd.2
      ((EDS.xc (n • P) - EDS.xc P ^ (q.toNat ^ 2)) ^ 2 * EDS.F P n ^ 6) := by
  have hK := char_smulK (K := K) (q := q) (by omega)
  have hp : 1 ≤ q := by omega
  have hxy := EDS.eqn hP
  have hx := EDS.F_x h2 hP n (by omega) hnP
  unfold schoofNumDen1 at h
  obtain ⟨om, hom, h⟩ := Res.bind_eq_ok.1 h
  obtain ⟨nn1, hnn1, h⟩ := Res.bind_eq_ok.1 h
  obtain ⟨q2, hq2, h⟩ := Res.bind_eq_ok.1 h
  obtain ⟨-, rfl⟩ := chk_eq_ok.1 hq2
  obtain ⟨ps, hps, h⟩ := Res.bind_eq_ok.1 h
  obtain ⟨ps3, hps3, h⟩ := Res.bind_eq_ok.1 h
  obtain ⟨yp, hyp, h⟩ := Res.bind_eq_ok.1 h
  obtain ⟨nn2, hnn2, h⟩ := Res.bind_eq_ok.1 h
  obtain ⟨sq, hsq, h⟩ := Res.bind_eq_ok.1 h
  obtain ⟨n1, hn1, h⟩ := Res.bind_eq_ok.1 h
  obtain ⟨ph, hph, h⟩ := Res.bind_eq_ok.1 h
  rw [hps] at h
  simp only [Res.ok_bind] at h
  obtain ⟨ps2, hps2, h⟩ := Res.bind_eq_ok.1 h
  obtain ⟨xp, hxp, h⟩ := Res.bind_eq_ok.1 h
  rw [hph] at h
  simp only [Res.ok_bind] at h
  rw [hps2] at h
  simp only [Res.ok_bind] at h
  rw [hxp] at h
  simp only [Res.ok_bind] at h
  obtain ⟨n3, hn3, h⟩ := Res.bind_eq_ok.1 h
  obtain ⟨m1, hm1, h⟩ := Res.bind_eq_ok.1 h
  obtain ⟨s1, hs1, h⟩ := Res.bind_eq_ok.1 h
  obtain ⟨num1, hnum1, h⟩ := Res.bind_eq_ok.1 h
  obtain ⟨d1, hd1, h⟩ := Res.bind_eq_ok.1 h
  obtain ⟨d2, hd2, h⟩ := Res.bind_eq_ok.1 h
  obtain ⟨d3, hd3, h⟩ := Res.bind_eq_ok.1 h
  simp only [Res.ok.injEq] at h
  subst h
  have hq2' : ((q ^ 2 : ℤ)).toNat = q.toNat ^ 2 := by
    obtain ⟨m, rfl⟩ := Int.eq_ofNat_of_zero_le (show 0 ≤ q by omega)
    rw [Int.toNat_natCast, ← Int.natCast_pow, Int.toNat_natCast]
  have v1 := Ev.red hp hK hxy (ev_omega hP h2 hn hom hnP) hnn1
  have vp := ev_psi hP hps
  have v2 := Ev.red hp hK hxy ((Ev.ypow (by positivity)).mul (vp.power3 hps3) hyp) hnn2
  have v3 := Ev.mod hp hK ((v1.sub v2).power2 hsq) hn1
  have vf := ev_phi hP hph
  have vx := (Ev.xpow (n := q ^ 2) (by positivity)).mul (vp.power2 hps2) hxp
  have v4 := (vf.sub vx).power2 hn3
  have v5 := Ev.red hp hK hxy (Ev.mod hp hK (v3.add ((vf.add vx).neg.mul v4 hm1)) hs1) hnum1
  have v6 := Ev.red hp hK hxy ((vp.power2 hps2).mul ((vf.sub vx).power2 hd1) hd2) hd3
  rw [← hx, hq2'] at v5 v6
  exact ⟨v5.congr (by ring), v6.congr (by ring)⟩

/-- What a successful test for `j` says about a point of order `l`. -/
theorem ev_xTest (hq : 2 ≤ q) {P : EDS.Pt (a : K) b} (hP : P ≠ 0) {j : ℕ}
    {num1 den1 psiL : Poly} {c d : K} (h1 : Ev (EDS.xc P) (EDS.yc P) num1 c) (h2 : Ev (EDS.xc P) (EDS.yc P) den1 d)
    (h3 : Ev (EDS.xc P) (EDS.yc P) psiL 0) (h : schoofXTest fuel a b q num1 den1 psiL j = .ok true) :
    c * EDS.F (frobPoint q.toNat a b P) j ^ 2 =
      (EDS.xc (frobPoint q.toNat a b P) * EDS.F (frobPoint q.toNat a b P) j ^ 2 -
        EDS.F (frobPoint q.toNat a b P) (j + 1) * EDS.F (frobPoint q.toNat a b P) (j - 1)) * d := by
  have hK := char_smulK (K := K) (q := q) (by omega)
  have hp : 1 ≤ q := by omega
  have hxy := EDS.eqn hP
  obtain ⟨g1, g2, g3⟩ := frobPoint_ne (q := q) hP
  unfold schoofXTest at h
  obtain ⟨ph, hph, h⟩ := Res.bind_eq_ok.1 h
  obtain ⟨phf, hphf, h⟩ := Res.bind_eq_ok.1 h
  obtain ⟨num2, hnum2, h⟩ := Res.bind_eq_ok.1 h
  obtain ⟨ps, hps, h⟩ := Res.bind_eq_ok.1 h
  obtain ⟨psf, hpsf, h⟩ := Res.bind_eq_ok.1 h
  obtain ⟨den2, hden2, h⟩ := Res.bind_eq_ok.1 h
  obtain ⟨t1, ht1, h⟩ := Res.bind_eq_ok.1 h
  obtain ⟨t2, ht2, h⟩ := Res.bind_eq_ok.1 h
  obtain ⟨p1, hp1, h⟩ := Res.bind_eq_ok.1 h
  obtain ⟨p2, hp2, h⟩ := Res.bind_eq_ok.1 h
  obtain ⟨p3, hp3, h⟩ := Res.bind_eq_ok.1 h
  obtain ⟨p4, hp4, h⟩ := Res.bind_eq_ok.1 h
  simp only [Res.ok.injEq] at h
  have vf := ev_phi g1 hph
  have vp := ev_psi g1 hps
  rw [g2, g3] at vf vp
  have v2 := Ev.red hp hK hxy (vf.frob hp hphf) hnum2
  have v3 := (vp.frob hp hpsf).power2 hden2
  have v4 := Ev.mod hp hK ((h1.mul v3 ht1).sub (v2.mul h2 ht2)) hp1
  have v5 := Ev.mod hp hK (Ev.polyMod hp hK h3 (Ev.red hp hK hxy v4 hp2) hp3) hp4
  have := v5.isZero h
  rw [g2]
  linear_combination this

theorem schoofFindJ_test {n d p : Poly} {l : List ℤ}
    (h : schoofFindJ fuel a b q n d p l = .ok (some j)) : schoofXTest fuel a b q n d p j = .ok true := by
  induction l with
  | nil => simp [schoofFindJ] at h
  | cons x t ih =>
    unfold schoofFindJ at h
    obtain ⟨c, hc, h⟩ := Res.bind_eq_ok.1 h
    split_ifs at h with h1
    · simp only [Res.ok.injEq, Option.some.injEq] at h; subst h; rw [hc, h1]
    · exact ih h

/-- The point-wise congruence, from the values. -/
theorem congruence_of_values (h2 : (2 : K) ≠ 0) {P A Q : EDS.Pt (a : K) b} (hA : A ≠ 0) (hQ : Q ≠ 0) (hP : P ≠ 0)
    {j : ℕ} (hj : j ≠ 0) {u : K} (hu : u ≠ 0)
    (h : (((EDS.yc A - EDS.yc P) ^ 2 - (EDS.xc A + EDS.xc P) * (EDS.xc A - EDS.xc P) ^ 2) * u) * EDS.F Q j ^ 2 =
      (EDS.xc Q * EDS.F Q j ^ 2 - EDS.F Q (j + 1) * EDS.F Q (j - 1)) * ((EDS.xc A - EDS.xc P) ^ 2 * u)) :
    P = A ∨ P + A = j • Q ∨ P + A = -(j • Q) := by
  by_cases hx : EDS.xc A = EDS.xc P
  · rw [hx, sub_self] at h
    rcases (EDS.xc_eq_iff hP hA).1 hx.symm with h1 | h1
    · exact .inl h1
    · by_cases hjQ : j • Q = 0
      · right; left; rw [hjQ, h1]; simp
      · left
        have hF : EDS.F Q j ≠ 0 := fun h0 => hjQ ((EDS.F_eq_zero_iff h2 hQ j hj).1 h0)
        have h3 : (EDS.yc A - EDS.yc P) ^ 2 = 0 := by
          have : (EDS.yc A - EDS.yc P) ^ 2 * (u * EDS.F Q j ^ 2) = 0 := by linear_combination h
          exact (mul_eq_zero.1 this).resolve_right (mul_ne_zero hu (pow_ne_zero 2 hF))
        exact (EDS.ext hA hP hx (sub_eq_zero.1 (pow_eq_zero_iff (two_ne_zero) |>.1 h3))).symm
  · right
    have hs := sub_ne_zero.2 hx
    have hne := EDS.add_ne_zero_of_xc hP hA (Ne.symm hx)
    have hjQ : j • Q ≠ 0 := by
      intro h0
      have hF := (EDS.F_eq_zero_iff h2 hQ j hj).2 h0
      have hF2 := EDS.F_phi_ne h2 hQ j hj h0
      rw [hF] at h
      have : EDS.F Q (j + 1) * EDS.F Q (j - 1) * ((EDS.xc A - EDS.xc P) ^ 2 * u) = 0 := by linear_combination h
      exact (mul_ne_zero hF2 (mul_ne_zero (pow_ne_zero 2 hs) hu)) this
    have hF : EDS.F Q j ≠ 0 := fun h0 => hjQ ((EDS.F_eq_zero_iff h2 hQ j hj).1 h0)
    have hadd := EDS.xc_add hP hA (Ne.symm hx)
    have hxj := EDS.F_x h2 hQ j hj hjQ
    refine (EDS.xc_eq_iff hne hjQ).1 ?_
    apply mul_right_cancel₀ (mul_ne_zero (pow_ne_zero 2 hF) (mul_ne_zero (pow_ne_zero 2 hs) hu))
    linear_combination (u * EDS.F Q j ^ 2) * hadd + h - ((EDS.xc A - EDS.xc P) ^ 2 * u) * hxj

theorem two_ne_char (h2 : q ≠ 2) : (2 : K) ≠ 0 := by
  intro h0
  have h2 : ((2 : ℕ) : K) = 0 := by exact_mod_cast h0
  rw [CharP.cast_eq_zero_iff K q.toNat] at h2
  have := (Nat.prime_dvd_prime_iff_eq (Fact.out : Nat.Prime q.toNat) Nat.prime_two).1 h2
  omega

theorem schoofL_congruence (h2 : q ≠ 2) {l : ℕ} (hl : l.Prime) (hlq : (l : ℤ) < q) {r : ModResult}
    (h : schoofL fuel a b q l = .ok r) :
    r.r = 0 ∨ r.r ^ 2 ≡ 4 * q [ZMOD l] ∨
    ∀ P : EDS.Pt (a : K) b, l • P = 0 →
      frobPoint q.toNat a b (frobPoint q.toNat a b P) = q • P ∨
      frobPoint q.toNat a b (frobPoint q.toNat a b P) + q • P = r.r • frobPoint q.toNat a b P ∨
      frobPoint q.toNat a b (frobPoint q.toNat a b P) + q • P = -(r.r • frobPoint q.toNat a b P) := by
  have hpr : Nat.Prime q.toNat := Fact.out
  have hq := two_le_of_prime (p := q) hpr
  have hK := char_smulK (K := K) (q := q) (by omega)
  have hl2 := hl.two_le
  have h2K := two_ne_char (K := K) h2
  unfold schoofL at h
  obtain ⟨nd, hnd, h⟩ := Res.bind_eq_ok.1 h
  obtain ⟨ps, hps, h⟩ := Res.bind_eq_ok.1 h
  obtain ⟨psL, hpsL, h⟩ := Res.bind_eq_ok.1 h
  obtain ⟨o, ho, h⟩ := Res.bind_eq_ok.1 h
  rw [fmod_pos_eq (by omega)] at h hnd
  cases o with
  | none =>
    obtain ⟨-, h1 | ⟨w, -, -, hw, -, hr⟩⟩ := schoofDE_shape (by omega) h
    · exact .inl h1
    · right; left
      have hw' : w ^ 2 ≡ q [ZMOD l] := hw
      rcases hr with hr | hr
      · rw [hr]
        calc (2 * w) ^ 2 = 4 * w ^ 2 := by ring
          _ ≡ 4 * q [ZMOD l] := hw'.mul_left 4
      · rw [hr]
        calc (l - 2 * w) ^ 2 = 4 * w ^ 2 + l * (l - 4 * w) := by ring
          _ ≡ 4 * w ^ 2 [ZMOD l] := by
            rw [Int.ModEq, Int.add_mul_emod_self_left]
          _ ≡ 4 * q [ZMOD l] := hw'.mul_left 4
  | some jj =>
    right; right
    have hj := schoofFindJ_mem ho
    rw [mem_irange, Int.tdiv_eq_ediv_of_nonneg (by omega)] at hj
    obtain ⟨-, hr⟩ := schoofY_shape hj.1 h
    have ht := schoofFindJ_test ho
    obtain ⟨j, rfl⟩ := Int.eq_ofNat_of_zero_le (show 0 ≤ jj by omega)
    obtain ⟨n, hn⟩ := Int.eq_ofNat_of_zero_le (Int.emod_nonneg q (show (l : ℤ) ≠ 0 by omega))
    rw [hn] at hnd
    have hn1 : 1 ≤ n := by
      rcases Nat.eq_zero_or_pos n with rfl | h0
      · exfalso
        have hdv : (l : ℤ) ∣ q := Int.dvd_of_emod_eq_zero (by simpa using hn)
        have : l ∣ q.toNat := by
          rw [← Int.natCast_dvd_natCast, Int.toNat_of_nonneg (by omega)]; exact hdv
        have := (Nat.prime_dvd_prime_iff_eq hl hpr).1 this
        omega
      · exact h0
    have hnl : n < l := by
      have := Int.emod_lt_of_pos q (show (0 : ℤ) < l by omega)
      omega
    intro P hlP
    by_cases hP : P = 0
    · subst hP
      left
      rw [smul_zero]; rfl
    obtain ⟨g1, g2, g3⟩ := frobPoint_ne (q := q) hP
    obtain ⟨f1, f2, f3⟩ := frobPoint_ne (q := q) g1
    have hord : addOrderOf P = l := addOrderOf_eq_prime hlP hP (hp := ⟨hl⟩)
    have hnP : n • P ≠ 0 := by
      intro h0
      have := addOrderOf_dvd_of_nsmul_eq_zero h0
      rw [hord] at this
      exact absurd (Nat.le_of_dvd (by omega) this) (by omega)
    have hqP : q • P = n • P := by
      have e : q = l * (q / l) + n := by
        have := Int.mul_ediv_add_emod q l
        rw [hn] at this; exact this.symm
      rw [e, add_smul, mul_comm, mul_smul, natCast_zsmul, natCast_zsmul, hlP, smul_zero, zero_add]
    have hF0 : EDS.F P l = 0 := (EDS.F_eq_zero_iff h2K hP l (by omega)).2 hlP
    have hlQ : l • frobPoint q.toNat a b P = 0 := by
      rw [← EDS.F_eq_zero_iff h2K g1 l (by omega), F_frob hP, hF0, zero_pow hpr.ne_zero]
    obtain ⟨v1, v2⟩ := ev_numDen1 h2K hq hP hn1 hnP hnd
    have v3 := Ev.rem (show 1 ≤ q by omega) hK (ev_psi hP hps) hpsL
    rw [hF0] at v3
    have key := ev_xTest hq hP v1 v2 v3 ht
    have e1 : EDS.yc P ^ q.toNat ^ 2 = EDS.yc (frobPoint q.toNat a b (frobPoint q.toNat a b P)) := by
      rw [f3, g3, ← pow_mul, pow_two]
    have e2 : EDS.xc P ^ q.toNat ^ 2 = EDS.xc (frobPoint q.toNat a b (frobPoint q.toNat a b P)) := by
      rw [f2, g2, ← pow_mul, pow_two]
    rw [e1, e2] at key
    have hF : EDS.F P n ≠ 0 := fun hz => hnP ((EDS.F_eq_zero_iff h2K hP n (by omega)).1 hz)
    have fin := congruence_of_values h2K hnP g1 f1 (by omega) (pow_ne_zero 6 hF) key
    rw [hqP]
    rcases hr with hr | hr
    · rw [hr, natCast_zsmul]
      exact fin
    · rw [hr, sub_smul, natCast_zsmul, natCast_zsmul, hlQ, zero_sub, neg_neg]
      tauto

end

/-- C64: whenever `schoof` returns, every entry `r mod l` with `l ≥ 3` has `r = 0`, or `r^2 = 4q` modulo `l`, or
satisfies Schoof's congruence up to sign: over every field of characteristic `q`, every point `P` with `l P = 0` has
`F^2 P = q P` or `F^2 P + q P = ± r F P`, where `F` is the Frobenius map `(x, y) ↦ (x^q, y^q)`. -/
theorem C64_congruence (a b q : ℤ) [hq : Fact (Nat.Prime q.toNat)] (h2 : q ≠ 2) (fuel : ℕ) (r : List ModResult)
    (h : schoof fuel a b q = .ok r) (e : ModResult) (he : e ∈ r) (hl : 3 ≤ e.l) :
    e.r = 0 ∨ e.r ^ 2 ≡ 4 * q [ZMOD e.l] ∨
    ∀ (K : Type) [Field K] [DecidableEq K] [CharP K q.toNat] (P : (shortW (a : K) (b : K)).toAffine.Point),
      e.l • P = 0 →
      frobPoint q.toNat a b (frobPoint q.toNat a b P) = q • P ∨
      frobPoint q.toNat a b (frobPoint q.toNat a b P) + q • P = e.r • frobPoint q.toNat a b P ∨
      frobPoint q.toNat a b (frobPoint q.toNat a b P) + q • P = -(e.r • frobPoint q.toNat a b P) := by
  have key : ∀ (l : ℕ) (hl : l.Prime) (hlq : (l : ℤ) < q) (r : ModResult) (h : schoofL fuel a b q l = .ok r),
      r.r = 0 ∨ r.r ^ 2 ≡ 4 * q [ZMOD r.l] ∨
      ∀ (K : Type) [Field K] [DecidableEq K] [CharP K q.toNat] (P : (shortW (a : K) (b : K)).toAffine.Point),
      r.l • P = 0 →
      frobPoint q.toNat a b (frobPoint q.toNat a b P) = q • P ∨
      frobPoint q.toNat a b (frobPoint q.toNat a b P) + q • P = r.r • frobPoint q.toNat a b P ∨
      frobPoint q.toNat a b (frobPoint q.toNat a b P) + q • P = -(r.r • frobPoint q.toNat a b P) := by
    intro l hl hlq r h
    rw [(schoofL_shape (by have := hl.pos; omega) h).1]
    by_cases c1 : r.r = 0
    · exact .inl c1
    by_cases c2 : r.r ^ 2 ≡ 4 * q [ZMOD l]
    · exact .inr (.inl c2)
    right; right
    intro K _ _ _ P hP
    rw [natCast_zsmul] at hP
    exact ((schoofL_congruence h2 hl hlq h).resolve_left c1).resolve_left c2 P hP
  obtain ⟨r2, e2, hr⟩ := schoof_eq_ok h
  have hr2 : r2.l = 2 := by
    unfold schoof2 at e2
    obtain ⟨c, -, e2⟩ := Res.bind_eq_ok.1 e2
    simp only [Res.ok.injEq] at e2; subst e2; rfl
  rcases hr with ⟨-, rfl⟩ | ⟨h3, -, r3, h3', rfl⟩ | ⟨h5, r3, r5, h3', h5', rfl⟩
  · simp only [List.mem_singleton] at he; subst he; omega
  · simp only [List.mem_cons, List.not_mem_nil, or_false] at he
    rcases he with rfl | rfl
    · omega
    · exact key 3 (by norm_num) (by exact_mod_cast h3) _ h3'
  · simp only [List.mem_cons, List.not_mem_nil, or_false] at he
    rcases he with rfl | rfl | rfl
    · omega
    · exact key 3 (by norm_num) (by push_cast; omega) _ h3'
    · exact key 5 (by norm_num) (by exact_mod_cast h5) _ h5'

/-- Frobenius fixes the points with coordinates in GF(q). -/
theorem frobPoint_zmod (a b q : ℤ) [Fact (Nat.Prime q.toNat)]
    (P : (shortW (a : ZMod q.toNat) (b : ZMod q.toNat)).toAffine.Point) : frobPoint q.toNat a b P = P := by
  cases P with
  | zero => rfl
  | some x y h => simp only [frobPoint, ZMod.pow_card]

/-- C64, for the number of points: if `l` divides the number of points of the curve over GF(q) (the trace of Frobenius
is then `q + 1` modulo `l`), the entry `r mod l` has `r = 0`, or `r^2 = 4q` modulo `l`, or `q = 1` modulo `l`, or `r`
is the trace modulo `l` up to sign. -/
theorem C64_order_divisible (a b q : ℤ) [hq : Fact (Nat.Prime q.toNat)] (h2 : q ≠ 2) (fuel : ℕ) (r : List ModResult)
    (h : schoof fuel a b q = .ok r) (e : ModResult) (he : e ∈ r) (hl : 3 ≤ e.l) (t : ℤ)
    (ht : t = q + 1 - Nat.card (shortW (a : ZMod q.toNat) (b : ZMod q.toNat)).toAffine.Point)
    (hd : e.l ∣ Nat.card (shortW (a : ZMod q.toNat) (b : ZMod q.toNat)).toAffine.Point) :
    e.r = 0 ∨ e.r ^ 2 ≡ 4 * q [ZMOD e.l] ∨ q ≡ 1 [ZMOD e.l] ∨ e.r ≡ t [ZMOD e.l] ∨ e.r ≡ -t [ZMOD e.l] := by
  have hlp : ∃ l : ℕ, l.Prime ∧ e.l = l := by
    have h1 := (C54_shape a b q fuel r h).1
    have h2 : e.l ∈ r.map (·.l) := List.mem_map_of_mem he
    rw [h1] at h2
    split_ifs at h2
    · simp at h2; omega
    · simp at h2; exact ⟨3, by norm_num, by omega⟩
    · simp at h2
      rcases h2 with h2 | h2 | h2
      · omega
      · exact ⟨3, by norm_num, by omega⟩
      · exact ⟨5, by norm_num, by omega⟩
  obtain ⟨l, hlp, hle⟩ := hlp
  rcases C64_congruence a b q h2 fuel r h e he hl with h1 | h1 | h1
  · exact .inl h1
  · exact .inr (.inl h1)
  right; right
  rw [hle] at hd h1 ⊢
  have hfin : Finite (shortW (a : ZMod q.toNat) (b : ZMod q.toNat)).toAffine.Point := by
    apply Finite.of_injective (β := Option (ZMod q.toNat × ZMod q.toNat))
      (fun P => match P with | .zero => none | .some x y _ => some (x, y))
    intro P Q hPQ
    cases P <;> cases Q <;> simp_all
  have hF : Fact (Nat.Prime l) := ⟨hlp⟩
  obtain ⟨P, hP⟩ := exists_prime_addOrderOf_dvd_card' (G := (shortW (a : ZMod q.toNat) (b : ZMod q.toNat)).toAffine.Point)
    l (by exact_mod_cast hd)
  have hz : ∀ n : ℤ, n • P = 0 → (l : ℤ) ∣ n := fun n hn => by
    have := addOrderOf_dvd_iff_zsmul_eq_zero.2 hn
    rwa [hP] at this
  have hlP : (l : ℤ) • P = 0 := by rw [natCast_zsmul, ← hP]; exact addOrderOf_nsmul_eq_zero P
  have htm : t ≡ q + 1 [ZMOD l] := by
    rw [ht]
    exact Int.modEq_iff_dvd.2 (by simpa using hd)
  have h3 := h1 (ZMod q.toNat) P hlP
  simp only [frobPoint_zmod] at h3
  rcases h3 with h3 | h3 | h3
  · left
    exact Int.modEq_iff_dvd.2 (hz _ (by rw [sub_smul, one_smul, ← h3, sub_self])) 
  · right; left
    refine (Int.modEq_iff_dvd.2 (hz _ ?_)).trans htm.symm
    rw [sub_smul, ← h3, add_smul, one_smul]; abel
  · right; right
    refine (Int.modEq_iff_dvd.2 (hz _ ?_)).trans htm.symm.neg
    have h5 : -(q + 1) - e.r = -((1 + q) + e.r) := by ring
    rw [h5, neg_smul, add_smul, add_smul, one_smul, h3, neg_add_cancel, neg_zero]

/-- C64: for `q = 2` modulo 3 a nonzero entry `r mod 3` is the trace of Frobenius modulo 3 up to sign. -/
theorem C64_mod_three (a b q : ℤ) [hq : Fact (Nat.Prime q.toNat)] (h2 : q ≠ 2) (h3 : q % 3 = 2) (fuel : ℕ)
    (r : List ModResult) (h : schoof fuel a b q = .ok r) (e : ModResult) (he : e ∈ r) (hl : e.l = 3) (hr : e.r ≠ 0) (t : ℤ)
    (ht : t = q + 1 - Nat.card (shortW (a : ZMod q.toNat) (b : ZMod q.toNat)).toAffine.Point) :
    e.r ≡ t [ZMOD 3] ∨ e.r ≡ -t [ZMOD 3] := by
  have hb := (C54_shape a b q fuel r h).2 e he
  rw [hl] at hb
  by_cases hd : (3 : ℤ) ∣ t
  · exfalso
    have := C64_order_divisible a b q h2 fuel r h e he (by omega) t ht (by rw [hl]; omega)
    rw [hl] at this
    simp only [Int.ModEq] at this
    have h12 : e.r = 1 ∨ e.r = 2 := by omega
    rcases h12 with h1 | h1 <;> rw [h1] at this <;> omega
  · have : e.r = 1 ∨ e.r = 2 := by omega
    simp only [Int.ModEq]
    rcases this with h1 | h1 <;> rw [h1] <;> omega

/-- The hypotheses are met by `y^2 = x^3 + 2 x` over GF(5) (entry `2 mod 3`, trace 4). -/
example : (2 : ℤ) ≡ 4 [ZMOD 3] ∨ (2 : ℤ) ≡ -4 [ZMOD 3] := by
  obtain ⟨⟨N, hN⟩, ht⟩ := C61_trace_mod_three_refuted
  have : Fact (Nat.Prime (5 : ℤ).toNat) := ⟨by decide⟩
  exact C64_mod_three 2 0 5 (by norm_num) (by norm_num) N _ (hN N le_rfl) ⟨3, 2⟩ (by simp) rfl (by norm_num) 4 ht.symm

end EC
