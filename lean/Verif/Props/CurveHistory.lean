import Verif.Props.Hasse
import Verif.Spec.CurveCalls

/-! Properties C80 and C81: histories of calls on one curve; point orders and the number of points. -/

namespace EC
open EllipticCurve WeierstrassCurve

section
variable {ec : EllipticCurve} [Fact (Nat.Prime ec.p.toNat)]

theorem mul_rep_some (h : ec.Good) {P : ECPoint} {Q : ec.W.Point} (r : ec.Rep P Q) (n : ℤ) :
    ∃ S, ec.multiplyScalar P n = .ok S ∧ ∃ R, ec.Rep S R := by
  have hm : ec.multiplyScalar P n = ec.multiplyScalar P n.natAbs := by
    rcases Int.natAbs_eq n with hn | hn
    · conv_lhs => rw [hn]
    · conv_lhs => rw [hn]
      exact C47_negative_scalar_partial h P ((isOnCurve_iff_rep h P).2 ⟨Q, r⟩) _
  rw [hm]
  obtain ⟨S, e1, e2, e3⟩ := C46_multiply_scalar h P Q r n.natAbs
  refine ⟨S, e1, ?_⟩
  by_cases hc : ∃ j, addOrderOf Q = 2 ^ j ∧ addOrderOf Q ≤ n.natAbs
  · exact ⟨.zero, by simpa [ECPoint.isInfinity, Rep] using e3 hc⟩
  · exact ⟨_, e2 hc⟩

theorem plus_rep_some (h : ec.Good) {P1 P2 : ECPoint} {Q1 Q2 : ec.W.Point} (r1 : ec.Rep P1 Q1) (r2 : ec.Rep P2 Q2) :
    ∃ S, ec.plus P1 P2 = .ok S ∧ (∃ R, ec.Rep S R) ∧ ((Q2 = 0 → Q1 = 0) → ec.Rep S (Q1 + Q2)) := by
  by_cases z1 : P1.z = 0
  · refine ⟨P2, plus_inf_left h z1 r2, ⟨_, r2⟩, fun _ => ?_⟩
    rw [(rep_zero_iff r1).1 z1, zero_add]; exact r2
  by_cases z2 : P2.z = 0
  · refine ⟨_, plus_inf_right h r1 z1 z2, ⟨.zero, z2⟩, fun hz => ?_⟩
    exact absurd ((rep_zero_iff r1).2 (hz ((rep_zero_iff r2).1 z2))) z1
  · obtain ⟨R, e1, -, e3⟩ := plus_affine h r1 r2 z1 z2
    exact ⟨R, e1, ⟨_, e3⟩, fun _ => e3⟩

/-- C80: any nest of calls of `plus`, `negate` and `multiply_scalar` on points of the curve returns a point of the
curve; no such history panics. -/
theorem C80_closed (h : ec.Good) (e : Call) (ho : e.OnCurve ec) :
    ∃ S, e.run ec = .ok S ∧ ec.isOnCurve S = .ok true := by
  suffices hs : ∃ S, e.run ec = .ok S ∧ ∃ Q, ec.Rep S Q by
    obtain ⟨S, e1, e2⟩ := hs
    exact ⟨S, e1, (isOnCurve_iff_rep h S).2 e2⟩
  induction e with
  | point P => exact ⟨P, rfl, (isOnCurve_iff_rep h P).1 ho⟩
  | plus e f ihe ihf =>
    obtain ⟨S, e1, Q1, r1⟩ := ihe ho.1
    obtain ⟨T, f1, Q2, r2⟩ := ihf ho.2
    obtain ⟨R, g1, g2, -⟩ := plus_rep_some h r1 r2
    exact ⟨R, by simp only [Call.run, e1, f1, Res.ok_bind, g1], g2⟩
  | negate e ih =>
    obtain ⟨S, e1, Q1, r1⟩ := ih ho
    obtain ⟨N, g1, -, -, g2⟩ := C44_negate h S ((isOnCurve_iff_rep h S).2 ⟨Q1, r1⟩)
    exact ⟨N, by simp only [Call.run, e1, Res.ok_bind, g1], _, g2 Q1 r1⟩
  | multiplyScalar e n ih =>
    obtain ⟨S, e1, Q1, r1⟩ := ih ho
    obtain ⟨R, g1, g2⟩ := mul_rep_some h r1 n
    exact ⟨R, by simp only [Call.run, e1, Res.ok_bind, g1], g2⟩

theorem Call.den_unique (e : Call) : ∀ {Q Q' : ec.W.Point}, e.Den ec Q → e.Den ec Q' → Q = Q' := by
  induction e with
  | point P => intro Q Q' r r'; exact Rep.unique r r'
  | plus e f ihe ihf =>
    rintro Q Q' ⟨A, B, a1, a2, rfl⟩ ⟨A', B', b1, b2, rfl⟩
    rw [ihe a1 b1, ihf a2 b2]
  | negate e ih =>
    rintro Q Q' ⟨A, a1, rfl⟩ ⟨A', b1, rfl⟩
    rw [ih a1 b1]
  | multiplyScalar e n ih =>
    rintro Q Q' ⟨A, a1, rfl⟩ ⟨A', b1, rfl⟩
    rw [ih a1 b1]

/-- C80: a history that hits none of the defects of C43, C46 and C47 computes the element of the group that it means. -/
theorem C80_value (h : ec.Good) (e : Call) (hs : e.Safe ec) (Q : ec.W.Point) (hQ : e.Den ec Q) :
    ∃ S, e.run ec = .ok S ∧ ec.Rep S Q := by
  induction e generalizing Q with
  | point P => exact ⟨P, rfl, hQ⟩
  | plus e f ihe ihf =>
    obtain ⟨Q1, Q2, d1, d2, rfl⟩ := hQ
    obtain ⟨S, e1, r1⟩ := ihe hs.1 Q1 d1
    obtain ⟨T, f1, r2⟩ := ihf hs.2.1 Q2 d2
    obtain ⟨R, g1, -, g2⟩ := plus_rep_some h r1 r2
    refine ⟨R, by simp only [Call.run, e1, f1, Res.ok_bind, g1], g2 fun hz => ?_⟩
    exact e.den_unique d1 (hs.2.2 (hz ▸ d2))
  | negate e ih =>
    obtain ⟨Q1, d1, rfl⟩ := hQ
    obtain ⟨S, e1, r1⟩ := ih hs Q1 d1
    obtain ⟨N, g1, -, -, g2⟩ := C44_negate h S ((isOnCurve_iff_rep h S).2 ⟨Q1, r1⟩)
    exact ⟨N, by simp only [Call.run, e1, Res.ok_bind, g1], g2 Q1 r1⟩
  | multiplyScalar e n ih =>
    obtain ⟨Q1, d1, rfl⟩ := hQ
    obtain ⟨S, e1, r1⟩ := ih hs.1 Q1 d1
    obtain ⟨n, rfl⟩ : ∃ m : ℕ, n = m := ⟨n.toNat, by have := hs.2.1; omega⟩
    obtain ⟨R, g1, g2⟩ := (C46_multiply_scalar_iff h S Q1 r1 n).2 fun ⟨j, h1, h2, h3⟩ =>
      hs.2.2 Q1 d1 ⟨j, h1, by exact_mod_cast h2, by exact_mod_cast h3⟩
    refine ⟨R, by simp only [Call.run, e1, Res.ok_bind, g1], ?_⟩
    rw [natCast_zsmul]; exact g2

end

/-! The results of the other calls do not depend on the point list. -/

section
variable {ec : EllipticCurve} (l : List ECPoint)

theorem isOnCurve_points (P : ECPoint) : ({ ec with points := l } : EllipticCurve).isOnCurve P = ec.isOnCurve P := rfl
theorem plus_points (P P' : ECPoint) : ({ ec with points := l } : EllipticCurve).plus P P' = ec.plus P P' := rfl
theorem negate_points (P : ECPoint) : ({ ec with points := l } : EllipticCurve).negate P = ec.negate P := rfl
theorem mulLoop_points (e : ℤ) (b r : ECPoint) :
    ({ ec with points := l } : EllipticCurve).mulLoop e b r = ec.mulLoop e b r := by
  obtain ⟨m, hm⟩ : ∃ m : ℕ, e.toNat = m := ⟨_, rfl⟩
  induction m using Nat.strong_induction_on generalizing e b r with
  | _ m ih =>
    rw [mulLoop, mulLoop]
    by_cases h : e > 1
    · simp only [if_pos h, plus_points]
      have : (e.tdiv 2).toNat < m := by
        have : e.tdiv 2 = e / 2 := by rw [Int.tdiv_eq_ediv_of_nonneg (by omega)]
        omega
      have ih' : ∀ b r, ({ ec with points := l } : EllipticCurve).mulLoop (e.tdiv 2) b r = ec.mulLoop (e.tdiv 2) b r :=
        fun b r => ih _ this _ _ _ rfl
      simp only [ih']
    · simp only [if_neg h, plus_points]
theorem multiplyScalar_points (P : ECPoint) (n : ℤ) :
    ({ ec with points := l } : EllipticCurve).multiplyScalar P n = ec.multiplyScalar P n := by
  unfold multiplyScalar mulPos
  simp only [mulLoop_points, plus_points]
theorem pointOrder_points (fuel : ℕ) (P : ECPoint) :
    pointOrder fuel { ec with points := l } P = pointOrder fuel ec P := by
  have : ∀ fuel r x, orderLoop { ec with points := l } P fuel r x = orderLoop ec P fuel r x := by
    intro fuel
    induction fuel with
    | zero => intros; rfl
    | succ n ih => intro r x; simp only [orderLoop, plus_points, ih]
  unfold pointOrder
  rw [this]
theorem jInvariant_points : ({ ec with points := l } : EllipticCurve).jInvariant = ec.jInvariant := rfl

end

theorem createPointsTimes_eq {ec : EllipticCurve} (hp : 0 < ec.p) (k : ℕ) : ∀ L : List ECPoint,
    createPointsTimes k { ec with points := L } = .ok { ec with
      points := L ++ (List.replicate k ((irange 0 ec.p).flatMap ec.ptsAt ++ [ECPoint.infinity])).flatten } := by
  induction k with
  | zero => intro L; simp [createPointsTimes]
  | succ k ih =>
    intro L
    rw [createPointsTimes, createPoints_eq (ec := { ec with points := L }) hp]
    rw [Res.ok_bind]
    refine (ih _).trans ?_
    simp only [List.replicate_succ, List.flatten_cons, List.append_assoc]
    rfl

/-- C80: `k` further calls of `create_points` on a curve made by `new` return the same curve with the point list written
`k + 1` times; `cardinality` is then `k + 1` times the number of points (so it is right only for `k = 0`); the results of
`is_on_curve`, `plus`, `negate`, `multiply_scalar`, `point_order` and `j_invariant` do not change, and `division_points`
gives its list `k + 1` times. -/
theorem C80_create_points (a b p : ℤ) (ec : EllipticCurve) (h : EllipticCurve.new a b p = .ok ec)
    (hne : p ≠ 2) (hd : ¬ p ∣ 4 * a ^ 3 + 27 * b ^ 2) (k : ℕ) :
    ∃ ec', createPointsTimes k ec = .ok ec' ∧ ec'.a = a ∧ ec'.b = b ∧ ec'.p = p ∧
      ec'.points = (List.replicate (k + 1) ec.points).flatten ∧
      ec'.cardinality = (k + 1) * Nat.card (shortW (a : ZMod p.toNat) (b : ZMod p.toNat)).toAffine.Point ∧
      (∀ P, ec'.isOnCurve P = ec.isOnCurve P) ∧ (∀ P P', ec'.plus P P' = ec.plus P P') ∧
      (∀ P, ec'.negate P = ec.negate P) ∧ (∀ P n, ec'.multiplyScalar P n = ec.multiplyScalar P n) ∧
      (∀ fuel P, pointOrder fuel ec' P = pointOrder fuel ec P) ∧ ec'.jInvariant = ec.jInvariant ∧
      ∀ n, ∃ l, ec.divisionPoints n = .ok l ∧ ec'.divisionPoints n = .ok (List.replicate (k + 1) l).flatten := by
  obtain ⟨hg, hp, hb, hpts⟩ := good_of_new hne hd h
  have hab : ec.a = a ∧ ec.b = b := by
    obtain ⟨ec', e1, e2, e3, -⟩ := C45_new a b p (hp ▸ hg.prime) hb
    rw [h] at e1; cases e1
    exact ⟨e2, e3⟩
  have hcard := C45_cardinality a b p ec h hne hd
  have := createPointsTimes_eq hg.p_pos k ec.points
  rw [← hpts] at this
  have hrep : ec.points ++ (List.replicate k ec.points).flatten = (List.replicate (k + 1) ec.points).flatten := by
    rw [List.replicate_succ, List.flatten_cons]
  rw [hrep] at this
  refine ⟨_, this, hab.1, hab.2, hp, rfl, ?_, fun P => rfl, fun P P' => rfl, fun P => rfl,
    fun P n => multiplyScalar_points _ P n, fun fuel P => pointOrder_points _ fuel P, rfl, fun n => ?_⟩
  · rw [← hcard]
    simp [cardinality, List.length_flatten]
  · have : Fact (Nat.Prime ec.p.toNat) := ⟨hg.prime⟩
    let g : ECPoint → Bool := fun P => decide (ec.multiplyScalar P n = .ok ECPoint.infinity)
    have key : ∀ L : List ECPoint, (∀ P ∈ L, P ∈ ec.points) →
        ({ ec with points := L } : EllipticCurve).divisionPoints n = .ok (L.filter g) := by
      intro L hL
      unfold divisionPoints
      have := foldlM_filter (fun P => (do let R ← ec.multiplyScalar P n; Res.ok (decide (R = ECPoint.infinity)))) g
        L (by
          intro P hP
          have hm := hL P hP
          rw [hpts] at hm
          obtain ⟨c, Q, r⟩ := (points_rep hg).1 hm
          obtain ⟨S, e1, -⟩ := mul_eq_infinity hg r c n
          simp only [e1, Res.ok_bind, g, Res.ok.injEq]) []
      rw [List.nil_append] at this
      rw [← this]
      simp only [multiplyScalar_points]
      congr 1
      funext vec P
      cases ec.multiplyScalar P n with
      | ok R => by_cases hR : R = ECPoint.infinity <;> simp [hR]
      | panic w => rfl
      | timeout => rfl
    refine ⟨_, key ec.points fun P hP => hP, ?_⟩
    rw [key _ (by
      intro P hP
      obtain ⟨L, hL, hP⟩ := List.mem_flatten.1 hP
      rw [List.eq_of_mem_replicate hL] at hP
      exact hP)]
    rw [List.filter_flatten, List.map_replicate]

/-! ### C81 -/

/-- C81: the order of a point divides the number of points, so it is at most `p + 1 + 2 sqrt p`. -/
theorem C81_order_dvd (a b p : ℤ) (ec : EllipticCurve) (h : EllipticCurve.new a b p = .ok ec)
    (hne : p ≠ 2) (hd : ¬ p ∣ 4 * a ^ 3 + 27 * b ^ 2) (P : ECPoint) (o : ec.isOnCurve P = .ok true) :
    ∃ n : ℤ, Returns (fun fuel => pointOrder fuel ec P) n ∧ 1 ≤ n ∧ n ∣ ec.cardinality ∧
      (p + 1 < n → (n - (p + 1)) ^ 2 ≤ 4 * p) := by
  obtain ⟨hg, hp, hb, hpts⟩ := good_of_new hne hd h
  have : Fact (Nat.Prime ec.p.toNat) := ⟨hg.prime⟩
  obtain ⟨Q, r⟩ := (isOnCurve_iff_rep hg P).1 o
  have hfin : Finite ec.W.Point := finite_point hg.p_pos
  have hpos : 0 < addOrderOf Q := (isOfFinAddOrder_of_finite Q).addOrderOf_pos
  have hdv : (addOrderOf Q : ℤ) ∣ ec.cardinality := by
    rw [EllipticCurve.cardinality, hpts, EllipticCurve.length_points hg]
    exact_mod_cast addOrderOf_dvd_natCard Q
  refine ⟨_, C48_point_order hg P Q r, by omega, hdv, fun hlt => ?_⟩
  have hc := C70_hasse a b p ec h hne hd
  have h0 : 0 < ec.cardinality := by
    unfold cardinality; rw [hpts]; simp
  have := Int.le_of_dvd (by exact_mod_cast h0) hdv
  nlinarith

/-- C81: the number of points times any point is `O`. -/
theorem C81_annihilates (a b p : ℤ) (ec : EllipticCurve) (h : EllipticCurve.new a b p = .ok ec)
    (hne : p ≠ 2) (hd : ¬ p ∣ 4 * a ^ 3 + 27 * b ^ 2) (P : ECPoint) (o : ec.isOnCurve P = .ok true) :
    ∃ S, ec.multiplyScalar P ec.cardinality = .ok S ∧ S.isInfinity = true := by
  obtain ⟨hg, hp, hb, hpts⟩ := good_of_new hne hd h
  have : Fact (Nat.Prime ec.p.toNat) := ⟨hg.prime⟩
  obtain ⟨Q, r⟩ := (isOnCurve_iff_rep hg P).1 o
  have hdv : addOrderOf Q ∣ ec.cardinality := by
    rw [EllipticCurve.cardinality, hpts, EllipticCurve.length_points hg]
    exact addOrderOf_dvd_natCard Q
  obtain ⟨S, e1, e2⟩ := (C46_multiply_scalar_iff hg P Q r ec.cardinality).2 fun ⟨_, _, _, h3⟩ => h3 hdv
  rw [addOrderOf_dvd_iff_nsmul_eq_zero.1 hdv] at e2
  exact ⟨S, e1, by simp [ECPoint.isInfinity, (rep_zero_iff e2).2 rfl]⟩

/-- C81: one point of large order determines the number of points: if `point_order(P) = n` with `n > 4 sqrt p`, then
`cardinality` is the only multiple of `n` in Hasse's interval. -/
theorem C81_determines (a b p : ℤ) (ec : EllipticCurve) (h : EllipticCurve.new a b p = .ok ec)
    (hne : p ≠ 2) (hd : ¬ p ∣ 4 * a ^ 3 + 27 * b ^ 2) (P : ECPoint) (o : ec.isOnCurve P = .ok true) (n : ℤ)
    (hn : Returns (fun fuel => pointOrder fuel ec P) n) (hbig : 16 * p < n ^ 2) (m : ℤ) :
    ((p + 1 - m) ^ 2 ≤ 4 * p ∧ n ∣ m) ↔ m = ec.cardinality := by
  obtain ⟨n', h1, h2, h3, -⟩ := C81_order_dvd a b p ec h hne hd P o
  have hnn : n' = n := by
    obtain ⟨N, hN⟩ := hn
    obtain ⟨N', hN'⟩ := h1
    have a1 := hN (max N N') (le_max_left _ _)
    have a2 := hN' (max N N') (le_max_right _ _)
    rw [a1] at a2; cases a2; rfl
  subst hnn
  have hc := C70_hasse a b p ec h hne hd
  constructor
  · rintro ⟨h4, h5⟩
    by_contra hne'
    have hdv := dvd_sub h5 h3
    have hle := Int.le_of_dvd (abs_pos.2 (sub_ne_zero.2 hne')) ((dvd_abs _ _).2 hdv)
    have hsq : n' ^ 2 ≤ (m - ec.cardinality) ^ 2 := by
      rw [← sq_abs (m - ec.cardinality)]
      exact pow_le_pow_left₀ (by omega) hle 2
    nlinarith [sq_nonneg ((p + 1 - m) + (p + 1 - ec.cardinality))]
  · rintro rfl
    exact ⟨hc, h3⟩

theorem orderLoop_mono {ec : EllipticCurve} {P : ECPoint} {n : ℤ} : ∀ (f f' : ℕ) (r : ECPoint) (x : ℤ), f ≤ f' →
    orderLoop ec P f r x = .ok n → orderLoop ec P f' r x = .ok n := by
  intro f
  induction f with
  | zero => intro f' r x _ h; simp [orderLoop] at h
  | succ f ih =>
    intro f' r x hf h
    obtain ⟨f', rfl⟩ : ∃ g, f' = g + 1 := ⟨f' - 1, by omega⟩
    simp only [orderLoop] at h ⊢
    obtain ⟨R, h1, h⟩ := Res.bind_eq_ok.1 h
    rw [h1, Res.ok_bind]
    by_cases hR : R.isInfinity = true
    · rw [if_pos hR] at h ⊢; exact h
    · rw [if_neg hR] at h ⊢; exact ih _ _ _ (by omega) h

theorem pointOrder_returns {ec : EllipticCurve} {P : ECPoint} {n : ℤ} {f : ℕ} (h : pointOrder f ec P = .ok n) :
    Returns (fun fuel => pointOrder fuel ec P) n := by
  refine ⟨f, fun f' hf => ?_⟩
  unfold pointOrder at h ⊢
  split_ifs at h ⊢
  · exact h
  · exact orderLoop_mono _ _ _ _ hf h

/-- The hypotheses of C80 hold for `(0,1) + 2 (0,1)` on `y^2 = x^3 - 2 x + 1` over GF(7). -/
example : (newRaw (-2) 1 7).Good ∧
    (Call.plus (.point ⟨0, 1, 1⟩) (.multiplyScalar (.point ⟨0, 1, 1⟩) 2)).OnCurve (newRaw (-2) 1 7) ∧
    (Call.plus (.point ⟨0, 1, 1⟩) (.multiplyScalar (.point ⟨0, 1, 1⟩) 2)).run (newRaw (-2) 1 7) = .ok ⟨0, 6, 1⟩ :=
  ⟨⟨rfl, (show Nat.Prime 7 by norm_num), by norm_num [newRaw], by norm_num [newRaw]⟩, ⟨show (newRaw (-2) 1 7).isOnCurve ⟨0, 1, 1⟩ = _ by decide +kernel,
    show (newRaw (-2) 1 7).isOnCurve ⟨0, 1, 1⟩ = _ by decide +kernel⟩, by decide +kernel⟩

/-- The hypotheses of C81 hold for the point `(1,2)` of order 13 of `y^2 = x^3 + 3` over GF(7). -/
example : ∃ ec, EllipticCurve.new 0 3 7 = .ok ec ∧ ec.isOnCurve ⟨1, 2, 1⟩ = .ok true ∧
    Returns (fun fuel => pointOrder fuel ec ⟨1, 2, 1⟩) 13 ∧ 16 * 7 < (13 : ℤ) ^ 2 := by
  refine ⟨_, new_eq (show Nat.Prime 7 by norm_num) (by norm_num), by decide +kernel,
    pointOrder_returns (f := 20) (by decide +kernel), by norm_num⟩

end EC
