import Verif.Props.Curve

/-! Properties C46, C49, C51: the exact result of scalar multiplication of points whose order is a power of two, the
exact result of `division_points`, and `isogeny` with a trivial kernel. -/

namespace EC
open Poly WeierstrassCurve

namespace EllipticCurve
variable {ec : EllipticCurve} [Fact (Nat.Prime ec.p.toNat)]

theorem plus_inf_inf (h : ec.Fair) {r : ECPoint} (hr : r.z = 0) :
    ec.plus r ECPoint.infinity = .ok ECPoint.infinity := plus_inf_left (Q2 := .zero) h hr rfl

theorem mulLoop_inf_inf (h : ec.Fair) : ∀ (n : ℕ) (r : ECPoint), 1 ≤ n → r.z = 0 →
    ec.mulLoop n ECPoint.infinity r = .ok ECPoint.infinity := by
  intro n
  induction n using Nat.strong_induction_on with
  | _ n ih =>
    intro r hn hr
    by_cases h1 : n = 1
    · subst h1; rw [Nat.cast_one, mulLoop_one ec le_rfl, plus_inf_inf h hr]
    · rw [mulLoop_gt ec (by omega)]
      have hdiv : ((n : ℤ) / 2) = ((n / 2 : ℕ) : ℤ) := by push_cast; rfl
      by_cases hodd : (n : ℤ) % 2 = 1
      · simp only [hodd, if_true, plus_inf_inf h hr, plus_inf_inf h (r := ECPoint.infinity) rfl, Res.ok_bind, hdiv]
        exact ih _ (by omega) _ (by omega) rfl
      · simp only [hodd, if_false, plus_inf_inf h (r := ECPoint.infinity) rfl, Res.ok_bind, hdiv]
        exact ih _ (by omega) _ (by omega) hr

open Classical in
theorem mulLoop_inf_affine (h : ec.Fair) : ∀ (n : ℕ) (r : ECPoint) (R : ec.W.Point), 1 ≤ n → ec.Rep r R → r.z ≠ 0 →
    ec.mulLoop n ECPoint.infinity r = .ok (if ∃ k, n = 2 ^ k then ⟨r.x, 1, 0⟩ else ECPoint.infinity) := by
  intro n
  induction n using Nat.strong_induction_on with
  | _ n ih =>
    intro r R hn rr hr
    have hpl : ec.plus r ECPoint.infinity = .ok ⟨r.x, 1, 0⟩ := plus_inf_right h rr hr rfl
    by_cases h1 : n = 1
    · subst h1
      rw [Nat.cast_one, mulLoop_one ec le_rfl, hpl, if_pos ⟨0, by simp⟩]
    · rw [mulLoop_gt ec (by omega)]
      have hdiv : ((n : ℤ) / 2) = ((n / 2 : ℕ) : ℤ) := by push_cast; rfl
      by_cases hodd : (n : ℤ) % 2 = 1
      · simp only [hodd, if_true, hpl, plus_inf_inf h (r := ECPoint.infinity) rfl, Res.ok_bind, hdiv]
        rw [mulLoop_inf_inf h _ _ (by omega) rfl, if_neg]
        rintro ⟨k, hk⟩
        cases k with
        | zero => simp at hk; omega
        | succ k => rw [pow_succ] at hk; omega
      · simp only [hodd, if_false, plus_inf_inf h (r := ECPoint.infinity) rfl, Res.ok_bind, hdiv]
        rw [ih _ (by omega) r R (by omega) rr hr]
        congr 2
        apply propext
        constructor
        · rintro ⟨k, hk⟩
          exact ⟨k + 1, by rw [pow_succ]; omega⟩
        · rintro ⟨k, hk⟩
          cases k with
          | zero => simp at hk; omega
          | succ k => exact ⟨k, by rw [pow_succ] at hk; omega⟩

open Classical in
theorem mulLoop_exc (h : ec.Fair) : ∀ (j n : ℕ) (b r : ECPoint) (B R : ec.W.Point), 2 ^ j ≤ n →
    ec.Rep b B → ec.Rep r R → 2 ^ j • B = 0 → (∀ i < j, 2 ^ i • B ≠ 0) → (j = 0 → b.Canonical ec.p) →
    R + (n % 2 ^ j) • B ≠ 0 →
    ∃ T, ec.Rep T (R + (n % 2 ^ j) • B) ∧ (b.Canonical ec.p → r.Canonical ec.p → T.Canonical ec.p) ∧
      ec.mulLoop n b r = .ok (if ∃ k, n / 2 ^ j = 2 ^ k then ⟨T.x, 1, 0⟩ else ECPoint.infinity) := by
  intro j
  induction j with
  | zero =>
    intro n b r B R hn rb rr hB _ hbc hne
    rw [pow_zero, one_smul] at hB
    have hb : b = ECPoint.infinity := by
      have hz := (rep_zero_iff rb).2 hB
      rcases hbc rfl with rfl | ⟨-, -, h1⟩
      · rfl
      · omega
    subst hb
    rw [pow_zero, Nat.mod_one, zero_nsmul, add_zero] at hne ⊢
    refine ⟨r, rr, fun _ h => h, ?_⟩
    rw [mulLoop_inf_affine h n r R (by simpa using hn) rr (fun hz => hne ((rep_zero_iff rr).1 hz))]
    simp only [Nat.div_one]
  | succ j ih =>
    intro n b r B R hn rb rr hB hmin hbc hne
    have h2 : 2 ≤ n := by
      have : 2 ^ 1 ≤ 2 ^ (j + 1) := Nat.pow_le_pow_right (by norm_num) (by omega)
      omega
    have hb0 : b.z ≠ 0 := fun hz => hmin 0 (by omega) (by
      rw [(rep_zero_iff rb).1 hz, nsmul_zero])
    rw [mulLoop_gt ec (by omega)]
    have hdiv : ((n : ℤ) / 2) = ((n / 2 : ℕ) : ℤ) := by push_cast; rfl
    obtain ⟨b', f1, f2, f3⟩ := plus_rep h rb rb (.inr hb0)
    have hB' : 2 ^ j • (B + B) = 0 := by rwa [pow_succ, mul_smul, two_smul] at hB
    have hmin' : ∀ i < j, 2 ^ i • (B + B) ≠ 0 := by
      intro i hi
      have := hmin (i + 1) (by omega)
      rwa [pow_succ, mul_smul, two_smul] at this
    have hj : 2 ^ j ≤ n / 2 := by rw [pow_succ] at hn; omega
    have hmod : n % 2 ^ (j + 1) = n % 2 + 2 * (n / 2 % 2 ^ j) := by rw [pow_succ', Nat.mod_mul]
    have hdd : n / 2 ^ (j + 1) = n / 2 / 2 ^ j := by rw [pow_succ', Nat.div_div_eq_div_mul]
    have hsm : (n % 2 ^ (j + 1)) • B = (n % 2) • B + (n / 2 % 2 ^ j) • (B + B) := by
      rw [hmod, add_smul, mul_comm, mul_smul, two_smul]
    rw [hdd]
    by_cases hodd : (n : ℤ) % 2 = 1
    · obtain ⟨r', g1, g2, g3⟩ := plus_rep h rr rb (.inr hb0)
      have hs : R + (n % 2 ^ (j + 1)) • B = R + B + (n / 2 % 2 ^ j) • (B + B) := by
        rw [hsm, show n % 2 = 1 by omega, one_smul, add_assoc]
      rw [hs] at hne ⊢
      obtain ⟨T, e1, e2, e3⟩ := ih (n / 2) b' r' _ _ hj f2 g2 hB' hmin' (fun _ => f3 (.inl hb0)) hne
      refine ⟨T, e1, fun hc _ => e2 (f3 (.inl hb0)) (g3 (.inr hc)), ?_⟩
      simp only [hodd, if_true, g1, f1, Res.ok_bind, hdiv, e3]
    · have hs : R + (n % 2 ^ (j + 1)) • B = R + (n / 2 % 2 ^ j) • (B + B) := by
        rw [hsm, show n % 2 = 0 by omega, zero_nsmul, zero_add]
      rw [hs] at hne ⊢
      obtain ⟨T, e1, e2, e3⟩ := ih (n / 2) b' r _ _ hj f2 rr hB' hmin' (fun _ => f3 (.inl hb0)) hne
      refine ⟨T, e1, fun _ hc => e2 (f3 (.inl hb0)) hc, ?_⟩
      simp only [hodd, if_false, f1, Res.ok_bind, hdiv, e3]

open Classical in
/-- C46, the exceptional case exactly: if the order of the point `Q` that `P` denotes is a power of two `2^j ≤ n` that
does not divide `n`, the result is not `n Q` (which is affine) but `(x, 1, 0)`, where `x` is the x-coordinate of that
affine point `(n mod 2^j) Q = n Q`, if `n div 2^j` is a power of two, and `(0, 1, 0)` otherwise. -/
theorem C46_exceptional (h : ec.Fair) (P : ECPoint) (Q : ec.W.Point) (r : ec.Rep P Q) (n j : ℕ)
    (hj : addOrderOf Q = 2 ^ j) (hn : 2 ^ j ≤ n) (hd : ¬ 2 ^ j ∣ n) :
    ∃ T, ec.Rep T (n • Q) ∧ T.z ≠ 0 ∧ (P.Canonical ec.p → T.Canonical ec.p) ∧
      ec.multiplyScalar P n = .ok (if ∃ k, n / 2 ^ j = 2 ^ k then ⟨T.x, 1, 0⟩ else ⟨0, 1, 0⟩) := by
  have hj0 : j ≠ 0 := by rintro rfl; simp at hd
  have h2 : 2 ≤ n := by
    have : 2 ^ 1 ≤ 2 ^ j := Nat.pow_le_pow_right (by norm_num) (by omega)
    omega
  have hmod : (n % 2 ^ j) • Q = n • Q := by rw [← hj, mod_addOrderOf_nsmul]
  have hne : n • Q ≠ 0 := fun h0 => hd (hj ▸ addOrderOf_dvd_of_nsmul_eq_zero h0)
  obtain ⟨T, e1, e2, e3⟩ := mulLoop_exc h j n P ECPoint.infinity Q 0 hn r (rep_infinity ec)
    (hj ▸ addOrderOf_nsmul_eq_zero Q)
    (fun i hi h0 => by
      have h1 := addOrderOf_dvd_of_nsmul_eq_zero h0
      rw [hj, Nat.pow_dvd_pow_iff_le_right (by norm_num)] at h1
      omega)
    (fun h0 => absurd h0 hj0) (by rw [zero_add, hmod]; exact hne)
  rw [zero_add, hmod] at e1
  refine ⟨T, e1, fun hz => hne ((rep_zero_iff e1).1 hz), fun hc => e2 hc (canonical_infinity _), ?_⟩
  unfold multiplyScalar mulPos
  rw [if_neg (by omega), if_neg (by omega), if_neg (by omega), e3]
  rfl

omit [Fact (Nat.Prime ec.p.toNat)] in
/-- C49, exactly: a listed point `P`, denoting `Q`, is in `division_points(n)` iff `n Q = O`, or the order of `Q` is a
power of two `2^j ≤ |n|` and moreover `|n| div 2^j` is not a power of two or `|n| Q` has x-coordinate 0. -/
theorem C49_iff (a b p : ℤ) (h : EllipticCurve.new a b p = .ok ec)
    (hne : p ≠ 2) (hd : ¬ p ∣ 4 * a ^ 3 + 27 * b ^ 2) [Fact (Nat.Prime ec.p.toNat)] (n : ℤ) :
    ∃ l, ec.divisionPoints n = .ok l ∧ l.Sublist ec.points ∧
      ∀ P ∈ ec.points, ∀ Q, ec.Rep P Q → (P ∈ l ↔ n • Q = 0 ∨ ∃ j, addOrderOf Q = 2 ^ j ∧ 2 ^ j ≤ n.natAbs ∧
        ((¬ ∃ k, n.natAbs / 2 ^ j = 2 ^ k) ∨ ∃ y hy, n.natAbs • Q = .some 0 y hy)) := by
  obtain ⟨hg, -, -, hpts⟩ := good_of_new hne hd h
  have hm : ∀ P ∈ ec.points, P.Canonical ec.p ∧ ∃ Q, ec.Rep P Q := fun P hP => by
    rw [hpts] at hP; exact (points_rep hg).1 hP
  classical
  let g : ECPoint → Bool := fun P => decide (ec.multiplyScalar P n = .ok ECPoint.infinity)
  refine ⟨ec.points.filter g, ?_, List.filter_sublist, ?_⟩
  · unfold divisionPoints
    have := foldlM_filter (fun P => (do let R ← ec.multiplyScalar P n; Res.ok (decide (R = ECPoint.infinity)))) g
      ec.points (by
        intro P hP
        obtain ⟨c, Q, r⟩ := hm P hP
        obtain ⟨S, e1, -⟩ := mul_eq_infinity hg r c n
        simp only [e1, Res.ok_bind, g, Res.ok.injEq]) []
    rw [List.nil_append] at this
    rw [← this]
    congr 1
    funext vec P
    cases ec.multiplyScalar P n with
    | ok R => by_cases hR : R = ECPoint.infinity <;> simp [hR]
    | panic w => rfl
    | timeout => rfl
  · intro P hP Q r
    obtain ⟨c, -⟩ := hm P hP
    obtain ⟨S, e1, e2, e3⟩ := mul_eq_infinity hg r c n
    have hmem : P ∈ ec.points.filter g ↔ S = ECPoint.infinity := by
      rw [List.mem_filter]
      simp only [g, e1, decide_eq_true_eq, Res.ok.injEq]
      exact ⟨fun h => h.2, fun h => ⟨hP, h⟩⟩
    rw [hmem]
    by_cases hz : n • Q = 0
    · exact ⟨fun _ => .inl hz, fun _ => e2 hz⟩
    have hz' : ¬ addOrderOf Q ∣ n.natAbs := by
      intro h0
      apply hz
      rw [← Int.natCast_dvd] at h0
      exact addOrderOf_dvd_iff_zsmul_eq_zero.1 h0
    by_cases hb : ∃ j, addOrderOf Q = 2 ^ j ∧ addOrderOf Q ≤ n.natAbs ∧ ¬ addOrderOf Q ∣ n.natAbs
    · obtain ⟨j, h1, h2, h3⟩ := hb
      rw [h1] at h2 h3
      have hms : ec.multiplyScalar P n = ec.multiplyScalar P n.natAbs := by
        rcases Int.natAbs_eq n with hn | hn
        · conv_lhs => rw [hn]
        · conv_lhs => rw [hn]
          exact C47_negative_scalar_partial hg P ((isOnCurve_iff_rep hg P).2 ⟨Q, r⟩) _
      obtain ⟨T, t1, t2, t3, t4⟩ := C46_exceptional hg P Q r n.natAbs j h1 h2 h3
      rw [← hms, e1, Res.ok.injEq] at t4
      have hx : T.x = 0 ↔ ∃ y hy, n.natAbs • Q = .some 0 y hy := by
        rcases t3 c with hT | ⟨c1, c2, c3⟩
        · exact absurd (by rw [hT]) t2
        · generalize n.natAbs • Q = M at t1
          cases M with
          | zero => exact absurd t1 t2
          | some x y hxy =>
            obtain ⟨-, r2, -⟩ := t1
            constructor
            · intro h0
              rw [h0, Int.cast_zero] at r2
              subst r2
              exact ⟨y, hxy, rfl⟩
            · rintro ⟨y', hy', h0⟩
              simp only [Affine.Point.some.injEq] at h0
              rw [h0.1] at r2
              have := (ZMod.intCast_zmod_eq_zero_iff_dvd T.x ec.p.toNat).1 r2
              rw [Int.toNat_of_nonneg hg.p_pos.le] at this
              exact Int.eq_zero_of_dvd_of_nonneg_of_lt c1.1 c1.2 this
      rw [t4]
      constructor
      · intro h0
        refine .inr ⟨j, h1, h2, ?_⟩
        split_ifs at h0 with hk
        · right
          rw [← hx]
          simpa [ECPoint.infinity] using h0
        · exact .inl hk
      · rintro (h0 | ⟨j', h4, h5, h6⟩)
        · exact absurd h0 hz
        · have hjj : j' = j := Nat.pow_right_injective le_rfl (h4.symm.trans h1)
          rw [hjj] at h6
          rcases h6 with h6 | h6
          · rw [if_neg h6]; exact rfl
          · rw [hx.2 h6]
            split_ifs <;> rfl
    · refine ⟨fun h0 => absurd (e3 hb h0) hz, ?_⟩
      rintro (h0 | ⟨j, h1, h2, -⟩)
      · exact absurd h0 hz
      · exact absurd ⟨j, h1, h1 ▸ h2, hz'⟩ hb

omit [Fact (Nat.Prime ec.p.toNat)] in
/-- C51 fails for every curve: if the kernel is trivial (`division_points(n)` lists only `O`), the isogenous curve should
be the curve itself, but for coefficients reduced modulo `p` the curve returned is always the singular `y^2 = x^3`. -/
theorem C51_trivial_kernel_refuted (a b p n : ℤ) (h : EllipticCurve.new a b p = .ok ec) (ha : 0 ≤ a ∧ a < p)
    (hb : 0 ≤ b ∧ b < p) (hl : ec.divisionPoints n = .ok [⟨0, 1, 0⟩]) :
    ∃ ec', ec.isogeny n = .ok ec' ∧ ec'.a = 0 ∧ ec'.b = 0 ∧ ec'.p = p := by
  by_cases hc : Nat.Prime p.toNat ∧ p < 2 ^ 64
  · have h' := h
    rw [new_eq hc.1 hc.2] at h'
    have e1 : ec.a = a := by cases h'; rfl
    have e2 : ec.b = b := by cases h'; rfl
    have e3 : ec.p = p := by cases h'; rfl
    have hp : p ≠ 0 := by omega
    have hz : ∀ x : ℤ, 0 ≤ x ∧ x < p → divFloor x p = .ok 0 := by
      intro x hx
      rw [divFloor_of hp, Res.ok.injEq, Int.fdiv_eq_ediv_of_nonneg x (by omega)]
      exact Int.ediv_eq_zero_of_lt hx.1 hx.2
    unfold isogeny
    rw [hl]
    have hstep : ([⟨0, 1, 0⟩] : List ECPoint).foldlM (ec.isogenyStep (n % 2 = 1)) ((0, 0) : ℤ × ℤ) = .ok (0, 0) := rfl
    simp only [Res.ok_bind, hstep, e1, e2, e3, hz 0 ⟨le_rfl, by omega⟩, mul_zero, sub_zero, hz a ha, hz b hb]
    rw [new_eq hc.1 hc.2]
    exact ⟨_, rfl, rfl, rfl, rfl⟩
  · obtain ⟨w, hw⟩ := C45_new_panics a b p hc
    rw [hw] at h; cases h

omit [Fact (Nat.Prime ec.p.toNat)] in
/-- C51 fails for every curve: in particular `isogeny(1)`, which should be the identity, always gives `y^2 = x^3`. -/
theorem C51_isogeny_one_refuted (a b p : ℤ) (h : EllipticCurve.new a b p = .ok ec) (hne : p ≠ 2)
    (hd : ¬ p ∣ 4 * a ^ 3 + 27 * b ^ 2) (ha : 0 ≤ a ∧ a < p) (hb : 0 ≤ b ∧ b < p) :
    ∃ ec', ec.isogeny 1 = .ok ec' ∧ ec'.a = 0 ∧ ec'.b = 0 ∧ ec'.p = p := by
  apply C51_trivial_kernel_refuted a b p 1 h ha hb
  obtain ⟨hg, -, -, hpts⟩ := good_of_new hne hd h
  have : Fact (Nat.Prime ec.p.toNat) := ⟨hg.prime⟩
  obtain ⟨l, e1, e2, e3⟩ := C49_exact a b p h hne hd 1 (.inr ⟨0, rfl⟩)
  have hinf : (⟨0, 1, 0⟩ : ECPoint) ∈ ec.points := by rw [hpts]; simp [ECPoint.infinity]
  have hm : ∀ P ∈ ec.points, P.Canonical ec.p ∧ ∃ Q, ec.Rep P Q := fun P hP => by
    rw [hpts] at hP; exact (points_rep hg).1 hP
  have hmem : ∀ P ∈ l, P = ⟨0, 1, 0⟩ := by
    intro P hP
    obtain ⟨c, Q, r⟩ := hm P (e2.subset hP)
    have h0 := (e3 P (e2.subset hP) Q r).1 hP
    rw [one_smul] at h0
    have hz := (rep_zero_iff r).2 h0
    rcases c with rfl | ⟨-, -, c3⟩
    · rfl
    · omega
  have hin : (⟨0, 1, 0⟩ : ECPoint) ∈ l := (e3 _ hinf 0 rfl).2 (zsmul_zero _)
  have hnd : l.Nodup := by
    refine e2.nodup ?_
    rw [hpts]
    exact EllipticCurve.nodup_points hg.prime
  rw [e1]
  congr 1
  match l, hmem, hin, hnd with
  | [], _, h, _ => simp at h
  | [x], hm, _, _ => rw [hm x (by simp)]
  | x :: y :: t, hm, _, hn =>
    rw [hm x (by simp), hm y (by simp)] at hn
    simp at hn

/-- The hypotheses of C51 are met by `y^2 = x^3 + x + 1` over GF(5). -/
example : ∃ ec ec', EllipticCurve.new 1 1 5 = .ok ec ∧ ec.isogeny 1 = .ok ec' ∧ ec'.a = 0 ∧ ec'.b = 0 := by
  obtain ⟨ec, h, -⟩ := C45_new 1 1 5 (by show Nat.Prime 5; norm_num) (by norm_num)
  obtain ⟨ec', h1, h2, h3, -⟩ := C51_isogeny_one_refuted 1 1 5 h (by norm_num) (by norm_num) (by norm_num) (by norm_num)
  exact ⟨ec, ec', h, h1, h2, h3⟩

/-- The hypotheses of C46 and both outcomes: on `y^2 = x^3 - 2x + 1` over GF(7) the point `(1,0)` has order 2;
`multiply_scalar` by 3 gives `(1,1,0)` and by 7 gives `(0,1,0)`. -/
example : ∃ (ec : EllipticCurve) (_ : Fact (Nat.Prime ec.p.toNat)) (Q : ec.W.Point), ec.Good ∧ ec.Rep ⟨1, 0, 1⟩ Q ∧
    addOrderOf Q = 2 ^ 1 ∧ ec.multiplyScalar ⟨1, 0, 1⟩ 3 = .ok ⟨1, 1, 0⟩ ∧
    ec.multiplyScalar ⟨1, 0, 1⟩ 7 = .ok ⟨0, 1, 0⟩ := by
  have hF : Fact (Nat.Prime (newRaw (-2) 1 7).p.toNat) := ⟨by show Nat.Prime 7; norm_num⟩
  have hg : (newRaw (-2) 1 7).Good :=
    ⟨rfl, hF.out, by show (7 : ℤ) ≠ 2; norm_num, by show ¬ (7 : ℤ) ∣ 4 * (-2) ^ 3 + 27 * 1 ^ 2; norm_num⟩
  obtain ⟨Q, r⟩ := (isOnCurve_iff_rep hg ⟨1, 0, 1⟩).1 (by decide +kernel)
  refine ⟨newRaw (-2) 1 7, hF, Q, hg, r, ?_, by decide +kernel, by decide +kernel⟩
  obtain ⟨N, hN⟩ := C48_point_order hg ⟨1, 0, 1⟩ Q r
  have h1 := hN (N + 5) (by omega)
  have h2 : pointOrder (N + 5) (newRaw (-2) 1 7) ⟨1, 0, 1⟩ = .ok 2 := by
    have h3 : ∀ f, orderLoop (newRaw (-2) 1 7) ⟨1, 0, 1⟩ (f + 1) ⟨1, 0, 1⟩ 2 = .ok 2 := by
      intro f
      have h4 : (newRaw (-2) 1 7).plus ⟨1, 0, 1⟩ ⟨1, 0, 1⟩ = .ok ⟨0, 1, 0⟩ := by decide +kernel
      simp only [orderLoop, h4, Res.ok_bind]
      rfl
    exact h3 (N + 4)
  have h5 := h1.symm.trans h2
  simp only [Res.ok.injEq] at h5
  rw [pow_one]
  exact_mod_cast h5

end EllipticCurve
end EC
