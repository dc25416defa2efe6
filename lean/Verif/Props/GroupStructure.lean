import Verif.Lemmas.GroupStr
import Verif.Props.Hasse

/-! Property C94: the structure of the group of points: `Z/m × Z/n` with `m ∣ n` and `m ∣ p - 1`. -/

namespace EC
open EllipticCurve WeierstrassCurve

namespace EllipticCurve
variable {ec : EllipticCurve}

theorem nat_card_filter (hg : ec.Good) (hpts : ec.points = (irange 0 ec.p).flatMap ec.ptsAt ++ [ECPoint.infinity])
    (g : ECPoint → Bool) (S : Set ec.W.Point) (hS : ∀ P ∈ ec.points, ∀ Q, ec.Rep P Q → (g P = true ↔ Q ∈ S)) :
    (ec.points.filter g).length = Nat.card S := by
  have hr : ∀ {P : ECPoint}, P ∈ ec.points ↔ P.Canonical ec.p ∧ ∃ Q, ec.Rep P Q := by rw [hpts]; exact points_rep hg
  have hnd : (ec.points.filter g).Nodup := (hpts ▸ nodup_points hg.prime).filter _
  have hm : ∀ P : {P // P ∈ ec.points.filter g}, ∃ Q, ec.Rep P.1 Q := fun P => ((hr).1 (List.mem_filter.1 P.2).1).2
  choose f hf using hm
  have hfS : ∀ P, f P ∈ S := fun P => (hS _ (List.mem_filter.1 P.2).1 _ (hf P)).1 (List.mem_filter.1 P.2).2
  have hb : Function.Bijective (fun P => (⟨f P, hfS P⟩ : S)) := by
    constructor
    · intro P P' hPP
      have hPP' : f P = f P' := congrArg Subtype.val hPP
      apply Subtype.ext
      exact canonical_unique hg.p_pos (hf P) (hPP' ▸ hf P') ((hr).1 (List.mem_filter.1 P.2).1).1
        ((hr).1 (List.mem_filter.1 P'.2).1).1
    · rintro ⟨Q, hQ⟩
      obtain ⟨P, hc, hPr⟩ := exists_canonical hg Q
      have hmem : P ∈ ec.points := (hr).2 ⟨hc, Q, hPr⟩
      have hmem' : P ∈ ec.points.filter g := List.mem_filter.2 ⟨hmem, (hS P hmem Q hPr).2 hQ⟩
      exact ⟨⟨P, hmem'⟩, Subtype.ext ((hf ⟨P, hmem'⟩).unique hPr)⟩
  rw [← Nat.card_congr (Equiv.ofBijective _ hb), ← Nat.card_congr hnd.getEquiv, Nat.card_fin]

/-- The group of points of a good curve. -/
theorem good_structure [hpr : Fact (Nat.Prime ec.p.toNat)] (hg : ec.Good) : ∃ m n : ℕ, 0 < m ∧ 0 < n ∧ m ∣ n ∧ (m : ℤ) ∣ ec.p - 1 ∧
    Nonempty (ZMod m × ZMod n ≃+ ec.W.Point) := by
  have hfin : Finite ec.W.Point := finite_point hg.p_pos
  have hF : Finite (EDS.Pt (ec.a : ZMod ec.p.toNat) (ec.b : ZMod ec.p.toNat)) := hfin
  have hch : CharP (ZMod ec.p.toNat) (Fintype.card (ZMod ec.p.toNat)) := by rw [ZMod.card]; infer_instance
  have hdisc : 4 * (ec.a : ZMod ec.p.toNat) ^ 3 + 27 * (ec.b : ZMod ec.p.toNat) ^ 2 ≠ 0 := by
    intro h0
    apply hg.disc
    have := (ZMod.intCast_zmod_eq_zero_iff_dvd (4 * ec.a ^ 3 + 27 * ec.b ^ 2) ec.p.toNat).1 (by push_cast; exact h0)
    rwa [Int.toNat_of_nonneg hg.p_pos.le] at this
  obtain ⟨m, n, h1, h2, h3, h4, ⟨e⟩⟩ := group_structure (a := (ec.a : ZMod ec.p.toNat)) (b := (ec.b : ZMod ec.p.toNat))
    hg.two_ne hdisc (by rw [ZMod.card]; exact hg.prime)
  refine ⟨m, n, h1, h2, h3, ?_, ⟨e⟩⟩
  rw [ZMod.card] at h4
  have : ((ec.p.toNat - 1 : ℕ) : ℤ) = ec.p - 1 := by have := hg.prime.two_le; omega
  rw [← this]
  exact_mod_cast h4

end EllipticCurve

/-- C94: the group of points of a nonsingular curve over GF(p) is `Z/m × Z/n` with `m ∣ n` and `m ∣ p - 1`. -/
theorem C94_group (a b p : ℤ) (ec : EllipticCurve) (h : EllipticCurve.new a b p = .ok ec) (hne : p ≠ 2)
    (hd : ¬ p ∣ 4 * a ^ 3 + 27 * b ^ 2) [Fact (Nat.Prime ec.p.toNat)] :
    ∃ m n : ℕ, 0 < m ∧ m ∣ n ∧ (m : ℤ) ∣ p - 1 ∧ m * n = ec.cardinality ∧ Nonempty (ZMod m × ZMod n ≃+ ec.W.Point) := by
  obtain ⟨hg, hp, -, hpts⟩ := good_of_new hne hd h
  obtain ⟨m, n, h1, h2, h3, h4, ⟨e⟩⟩ := good_structure hg
  refine ⟨m, n, h1, h3, hp ▸ h4, ?_, ⟨e⟩⟩
  rw [cardinality, hpts, length_points hg, ← Nat.card_congr e.toEquiv, Nat.card_prod, Nat.card_zmod, Nat.card_zmod]

/-- C94 in terms of the library calls: `point_order` returns a number for every listed point, and there are `m ∣ n` with
`m n = cardinality()` and `m ∣ p - 1` such that, for every `k`, the number of listed points whose `point_order` divides
`k` is `gcd(m, k) gcd(n, k)`; `n` is the largest order: every order divides it and some listed point has it.  Where
`division_points(k)` is exact (C49), its length is `gcd(m, k) gcd(n, k)`. -/
theorem C94_structure (a b p : ℤ) (ec : EllipticCurve) (h : EllipticCurve.new a b p = .ok ec) (hne : p ≠ 2)
    (hd : ¬ p ∣ 4 * a ^ 3 + 27 * b ^ 2) :
    ∃ (m n : ℕ) (ord : ECPoint → ℕ), 0 < m ∧ m ∣ n ∧ (m : ℤ) ∣ p - 1 ∧ m * n = ec.cardinality ∧
      (∀ P ∈ ec.points, Returns (fun fuel => pointOrder fuel ec P) (ord P : ℤ)) ∧
      (∀ k : ℕ, (ec.points.filter (fun P => ord P ∣ k)).length = m.gcd k * n.gcd k) ∧
      (∀ P ∈ ec.points, ord P ∣ n) ∧ (∃ P ∈ ec.points, ord P = n) ∧
      (∀ k : ℤ, (Odd ec.cardinality ∨ ∃ j, k.natAbs = 2 ^ j) →
        ∃ l, ec.divisionPoints k = .ok l ∧ l.length = m.gcd k.natAbs * n.gcd k.natAbs) := by
  obtain ⟨hg, hp, -, hpts⟩ := good_of_new hne hd h
  have hpr : Fact (Nat.Prime ec.p.toNat) := ⟨hg.prime⟩
  have hfin : Finite ec.W.Point := finite_point hg.p_pos
  have hr : ∀ {P : ECPoint}, P ∈ ec.points ↔ P.Canonical ec.p ∧ ∃ Q, ec.Rep P Q := by rw [hpts]; exact points_rep hg
  obtain ⟨m, n, h1, h3, h4, h5, ⟨e⟩⟩ := C94_group a b p ec h hne hd
  have h2 : 0 < n := Nat.pos_of_ne_zero fun h0 => by
    have : 0 < Nat.card ec.W.Point := Nat.card_pos
    rw [cardinality, hpts, length_points hg, h0] at h5
    omega
  classical
  let ord : ECPoint → ℕ := fun P => if hQ : ∃ Q, ec.Rep P Q then addOrderOf hQ.choose else 0
  have ho : ∀ P Q, ec.Rep P Q → ord P = addOrderOf Q := by
    intro P Q r
    have hQ : ∃ Q, ec.Rep P Q := ⟨Q, r⟩
    simp only [ord, dif_pos hQ]
    rw [hQ.choose_spec.unique r]
  have hN : ∀ Q : ec.W.Point, n • Q = 0 := by
    intro Q
    rw [← e.apply_symm_apply Q, ← map_nsmul, AddEquiv.map_eq_zero_iff]
    refine Prod.ext ?_ ?_
    · show n • (e.symm Q).1 = 0
      obtain ⟨c, rfl⟩ := h3
      rw [nsmul_eq_mul]; push_cast; rw [ZMod.natCast_self, zero_mul, zero_mul]
    · show n • (e.symm Q).2 = 0
      rw [nsmul_eq_mul, ZMod.natCast_self, zero_mul]
  have hcount : ∀ (k : ℕ) (g : ECPoint → Bool), (∀ P ∈ ec.points, ∀ Q, ec.Rep P Q → (g P = true ↔ k • Q = 0)) →
      (ec.points.filter g).length = m.gcd k * n.gcd k := by
    intro k g hk
    rw [← card_tors_prod h1 h2 e k]
    exact nat_card_filter hg hpts g (tors ec.W.Point k : Set ec.W.Point) fun P hP Q r => (hk P hP Q r).trans mem_tors.symm
  refine ⟨m, n, ord, h1, h3, h4, h5, ?_, ?_, ?_, ?_, ?_⟩
  · intro P hP
    obtain ⟨-, Q, r⟩ := (hr).1 hP
    rw [ho P Q r]
    exact C48_point_order hg.fair P Q r
  · intro k
    refine hcount k _ fun P hP Q r => ?_
    rw [decide_eq_true_iff, ho P Q r, addOrderOf_dvd_iff_nsmul_eq_zero]
  · intro P hP
    obtain ⟨-, Q, r⟩ := (hr).1 hP
    rw [ho P Q r]
    exact addOrderOf_dvd_of_nsmul_eq_zero (hN Q)
  · obtain ⟨P, hc, r⟩ := exists_canonical hg (e (0, 1))
    refine ⟨P, (hr).2 ⟨hc, _, r⟩, ?_⟩
    rw [ho P _ r]
    have h6 : addOrderOf (e ((0 : ZMod m), (1 : ZMod n))) = addOrderOf ((0 : ZMod m), (1 : ZMod n)) :=
      addOrderOf_injective e.toAddMonoidHom e.injective _
    rw [h6, Prod.addOrderOf, addOrderOf_zero, ZMod.addOrderOf_one, Nat.lcm_one_left]
  · intro k hk
    obtain ⟨l, e1, e2, e3⟩ := C49_exact a b p h hne hd k hk
    refine ⟨l, e1, ?_⟩
    have hnd : ec.points.Nodup := hpts ▸ nodup_points hg.prime
    have hl : l.length = (ec.points.filter (fun P => P ∈ l)).length := by
      refine List.Perm.length_eq ((List.perm_ext_iff_of_nodup (hnd.sublist e2) (hnd.filter _)).2 fun P => ?_)
      rw [List.mem_filter, decide_eq_true_iff]
      exact ⟨fun hP => ⟨e2.subset hP, hP⟩, fun hP => hP.2⟩
    rw [hl]
    refine hcount k.natAbs _ fun P hP Q r => ?_
    rw [decide_eq_true_iff, e3 P hP Q r]
    rcases Int.natAbs_eq k with hk' | hk' <;> rw [hk'] <;> simp

/-- C94: never more than `k^2` listed points have order dividing `k`, and the group is cyclic as soon as `cardinality()`
is square-free or prime to `p - 1`: some listed point has order `cardinality()`. -/
theorem C94_cyclic (a b p : ℤ) (ec : EllipticCurve) (h : EllipticCurve.new a b p = .ok ec) (hne : p ≠ 2)
    (hd : ¬ p ∣ 4 * a ^ 3 + 27 * b ^ 2)
    (hc : Squarefree ec.cardinality ∨ ec.cardinality.Coprime (p - 1).toNat) :
    ∃ P ∈ ec.points, Returns (fun fuel => pointOrder fuel ec P) (ec.cardinality : ℤ) := by
  obtain ⟨m, n, ord, h1, h2, h3, h4, h5, -, -, ⟨P, hP, h6⟩, -⟩ := C94_structure a b p ec h hne hd
  refine ⟨P, hP, ?_⟩
  have hm : m = 1 := by
    rcases hc with hc | hc
    · refine Nat.isUnit_iff.1 (hc m ?_)
      rw [← h4]
      exact Nat.mul_dvd_mul_left m h2
    · refine Nat.eq_one_of_dvd_coprimes hc (h4 ▸ Dvd.intro _ rfl) ?_
      have hp2 : 2 ≤ p := by
        obtain ⟨hg, hp, -⟩ := good_of_new hne hd h
        exact hp ▸ hg.two_le
      have : ((p - 1).toNat : ℤ) = p - 1 := Int.toNat_of_nonneg (by omega)
      rw [← this] at h3
      exact_mod_cast h3
  have := h5 P hP
  rwa [h6, show n = ec.cardinality by rw [← h4, hm, one_mul]] at this

theorem C94_torsion_bound (a b p : ℤ) (ec : EllipticCurve) (h : EllipticCurve.new a b p = .ok ec) (hne : p ≠ 2)
    (hd : ¬ p ∣ 4 * a ^ 3 + 27 * b ^ 2) (k : ℕ) (hk : 0 < k) (l : List ECPoint) (hl : l.Nodup)
    (hs : ∀ P ∈ l, P ∈ ec.points ∧ ∃ o : ℕ, o ∣ k ∧ Returns (fun fuel => pointOrder fuel ec P) (o : ℤ)) :
    l.length ≤ k ^ 2 := by
  obtain ⟨m, n, ord, h1, h2, h3, h4, h5, h6, -⟩ := C94_structure a b p ec h hne hd
  have hu : ∀ P ∈ l, P ∈ ec.points.filter (fun P => ord P ∣ k) := by
    intro P hP
    obtain ⟨g1, o, g2, N, g3⟩ := hs P hP
    obtain ⟨N', g4⟩ := h5 P g1
    have e1 := g3 (max N N') (le_max_left _ _)
    rw [g4 (max N N') (le_max_right _ _), Res.ok.injEq] at e1
    have e2 : ord P = o := by exact_mod_cast e1
    exact List.mem_filter.2 ⟨g1, by rw [decide_eq_true_iff, e2]; exact g2⟩
  have h7 : l.length ≤ (ec.points.filter (fun P => ord P ∣ k)).length := (hl.subperm hu).length_le
  rw [h6, ] at h7
  refine h7.trans ?_
  rw [sq]
  exact Nat.mul_le_mul (Nat.gcd_le_right _ hk) (Nat.gcd_le_right _ hk)

/-- The hypotheses are met by `y^2 = x^3 - x` over GF(5): 8 points, four of them killed by 2, so `m = 2`, `n = 4`: not
cyclic, and `m` is a proper divisor of `p - 1 = 4`. -/
example : ∃ ec, EllipticCurve.new (-1) 0 5 = .ok ec ∧ (5 : ℤ) ≠ 2 ∧ ¬ (5 : ℤ) ∣ 4 * (-1) ^ 3 + 27 * 0 ^ 2 ∧
    ec.cardinality = 8 ∧ ∀ m n : ℕ, m * n = ec.cardinality → m ∣ n →
      (∃ l, ec.divisionPoints 2 = .ok l ∧ l.length = m.gcd 2 * n.gcd 2) → m = 2 ∧ n = 4 := by
  obtain ⟨ec, h, -⟩ := C45_new (-1) 0 5 (by show Nat.Prime 5; norm_num) (by norm_num)
  have key : ec.cardinality = 8 ∧ (match ec.divisionPoints 2 with | .ok l => l.length | _ => 0) = 4 := by
    rw [new_eq (by show Nat.Prime 5; norm_num) (by norm_num)] at h
    cases h
    decide +kernel
  refine ⟨ec, h, by norm_num, by norm_num, key.1, ?_⟩
  rintro m n h1 ⟨c, rfl⟩ ⟨l, h2, h3⟩
  have h4 := key.2
  rw [h2] at h4
  have h4' : l.length = 4 := h4
  rw [h4'] at h3
  rw [key.1] at h1
  have hm : m ∣ 8 := ⟨m * c, h1.symm⟩
  have hm8 := Nat.le_of_dvd (by norm_num) hm
  have hc : c ∣ 8 := ⟨m * m, by rw [← h1]; ring⟩
  have hc8 := Nat.le_of_dvd (by norm_num) hc
  clear h2 h4 h4' key h hm hc
  interval_cases m <;> interval_cases c <;> revert h1 h3 <;> decide

/-- The hypotheses of `C94_cyclic` are met by `y^2 = x^3 + x + 1` over GF(5), which has 9 points. -/
example : ∃ ec, EllipticCurve.new 1 1 5 = .ok ec ∧ (5 : ℤ) ≠ 2 ∧ ¬ (5 : ℤ) ∣ 4 * 1 ^ 3 + 27 * 1 ^ 2 ∧
    ec.cardinality.Coprime ((5 : ℤ) - 1).toNat ∧ 1 < ec.cardinality := by
  obtain ⟨ec, h, -⟩ := C45_new 1 1 5 (by show Nat.Prime 5; norm_num) (by norm_num)
  refine ⟨ec, h, by norm_num, by norm_num, ?_⟩
  rw [new_eq (by show Nat.Prime 5; norm_num) (by norm_num)] at h
  cases h
  decide +kernel

end EC
