import Verif.Lemmas.ThreeFrob
import Verif.Lemmas.TwoFrob
import Verif.Props.SeaTwo
import Verif.Props.Schoof
import Verif.Props.SeaThree
import Verif.Props.Hasse

/-! Property C95: what `sea(ec, 2)` and `sea(ec, 3)` say about the number of points. -/

namespace EC
open EllipticCurve WeierstrassCurve

theorem three_setup {ec : EllipticCurve} (hg : ec.Good) (h3 : ec.p ≠ 3) [Fact (Nat.Prime ec.p.toNat)] :
    4 * (ec.a : ZMod ec.p.toNat) ^ 3 + 27 * (ec.b : ZMod ec.p.toNat) ^ 2 ≠ 0 ∧ (3 : ZMod ec.p.toNat) ≠ 0 ∧
      trc (ec.a : ZMod ec.p.toNat) (ec.b : ZMod ec.p.toNat) = ec.p + 1 - Nat.card ec.W.Point := by
  have hp := hg.p_pos
  refine ⟨?_, ?_, ?_⟩
  · intro h0
    apply hg.disc
    rw [← zmod_eq_zero_iff hp.le]; push_cast; exact h0
  · have : ec.p.toNat ≠ 3 := by omega
    exact_mod_cast prime_ne_zero_of_ne (K := ZMod ec.p.toNat) Nat.prime_three this
  · unfold trc
    rw [ZMod.card, Int.toNat_of_nonneg hp.le]

/-- The statement for a curve with any list of points. -/
theorem sea_three_elkies {ec : EllipticCurve} (hg : ec.Good) (h3 : ec.p ≠ 3) (hi : ec.p ≤ 2147483647)
    (ht : ((ec.p + 1 - Nat.card ec.W.Point) ^ 2 - 4 * ec.p) % 3 ≠ 2) :
    ∃ r, Returns (fun fuel => sea fuel ec 3) r ∧ r.isElkiesPrime = true := by
  have : Fact (Nat.Prime ec.p.toNat) := ⟨hg.prime⟩
  have hp := hg.p_pos
  obtain ⟨hd, h3', htr⟩ := three_setup hg h3
  classical
  rw [← htr] at ht
  set t := trc (ec.a : ZMod ec.p.toNat) (ec.b : ZMod ec.p.toNat) with htd
  obtain ⟨l, hl⟩ : ∃ l : ℤ, (3 : ℤ) ∣ l ^ 2 - t * l + ec.p := by
    have key : ∀ u v : Fin 3, ((u : ℤ) ^ 2 - 4 * (v : ℤ)) % 3 ≠ 2 → ∃ l : Fin 3, ((l : ℤ) ^ 2 - (u : ℤ) * l + (v : ℤ)) % 3 = 0 := by decide
    have hu : ∃ u : Fin 3, (u : ℤ) = t % 3 := ⟨⟨(t % 3).toNat, by omega⟩, by simp only; omega⟩
    have hv : ∃ v : Fin 3, (v : ℤ) = ec.p % 3 := ⟨⟨(ec.p % 3).toNat, by omega⟩, by simp only; omega⟩
    obtain ⟨u, hu⟩ := hu
    obtain ⟨v, hv⟩ := hv
    obtain ⟨l, hl⟩ := key u v (by
      rw [hu, hv]
      intro h
      apply ht
      rw [← h, pow_two, pow_two]
      simp only [Int.sub_emod, Int.mul_emod, Int.emod_emod])
    refine ⟨l, Int.dvd_of_emod_eq_zero ?_⟩
    rw [← hl, hu, hv]
    simp only [Int.add_emod, Int.sub_emod, Int.mul_emod, Int.emod_emod]
  obtain ⟨e, he⟩ := exists_rational_psi3 (a := (ec.a : ZMod ec.p.toNat)) (b := (ec.b : ZMod ec.p.toNat)) hg.two_ne hd
    (AlgebraicClosure (ZMod ec.p.toNat)) h3' l (by rw [ZMod.card, Int.toNat_of_nonneg hp.le]; exact hl)
  refine C92_rational_kernel ec hg h3 hi e.val ?_
  rw [← zmod_eq_zero_iff hp.le]
  push_cast
  rw [ZMod.natCast_zmod_val]
  exact he

theorem sea_three_iff {ec : EllipticCurve} (hg : ec.Good) (hp3 : ec.p % 3 = 2) (hi : ec.p ≤ 2147483647) :
    ((3 : ℤ) ∣ Nat.card ec.W.Point → ∃ r, Returns (fun fuel => sea fuel ec 3) r ∧ r.isElkiesPrime = true) ∧
    (¬ (3 : ℤ) ∣ Nat.card ec.W.Point → Diverges (fun fuel => sea fuel ec 3)) := by
  have : Fact (Nat.Prime ec.p.toNat) := ⟨hg.prime⟩
  have hp := hg.p_pos
  have h3 : ec.p ≠ 3 := by omega
  obtain ⟨hd, h3', htr⟩ := three_setup hg h3
  refine ⟨fun h => ?_, fun h => ?_⟩
  · refine sea_three_elkies hg h3 hi ?_
    obtain ⟨c, hc⟩ := h
    rw [hc]
    obtain ⟨d, hd⟩ : ∃ d, ec.p + 1 = 3 * d := ⟨(ec.p + 1) / 3, by omega⟩
    rw [hd, show ((3 * d - 3 * c) ^ 2 - 4 * ec.p) = 3 * (3 * (d - c) ^ 2 - 4 * d + 1) + 1 by linear_combination (-4 : ℤ) * hd]
    omega
  · classical
    refine (C92_sea_three ec hg h3 hi [] List.Pairwise.nil ?_).2 rfl
    intro n
    refine ⟨fun h => absurd h List.not_mem_nil, ?_⟩
    rintro ⟨-, e, he, hx⟩
    exfalso
    apply h
    have hs : ∀ l : ℕ, l.Prime → l % 3 = 1 → (l : ZMod ec.p.toNat) ≠ 0 := fun l hl hl3 => by
      have hne : ec.p.toNat ≠ l := by omega
      exact prime_ne_zero_of_ne (K := ZMod ec.p.toNat) hl hne
    have hc := three_dvd_trc (a := (ec.a : ZMod ec.p.toNat)) (b := (ec.b : ZMod ec.p.toNat)) (K := AlgebraicClosure (ZMod ec.p.toNat))
      hg.two_ne hd (by rw [ZMod.card]; omega) (by exact_mod_cast hs 7 (by norm_num) rfl) (by exact_mod_cast hs 13 (by norm_num) rfl)
      (by exact_mod_cast hs 19 (by norm_num) rfl) (by exact_mod_cast hs 31 (by norm_num) rfl) h3' (n : ZMod ec.p.toNat) e
      (by rw [map_intCast, map_intCast]; exact he) (by rw [map_intCast, map_intCast]; exact hx)
    rw [htr] at hc
    omega

/-- C95: on a curve with `N` points, trace `t = p + 1 - N`, `p > 3`: if `t^2 - 4 p` is a square modulo 3, `sea(ec, 3)` returns
and reports an Elkies prime. -/
theorem C95_elkies (a b p : ℤ) (ec : EllipticCurve) (h : EllipticCurve.new a b p = .ok ec) (hne : p ≠ 2) (h3 : p ≠ 3)
    (hi : p ≤ 2147483647) (hd : ¬ p ∣ 4 * a ^ 3 + 27 * b ^ 2)
    (ht : ∃ s : ℤ, (3 : ℤ) ∣ (p + 1 - ec.cardinality) ^ 2 - 4 * p - s ^ 2) :
    ∃ r, Returns (fun fuel => sea fuel ec 3) r ∧ r.isElkiesPrime = true := by
  obtain ⟨hg, hp, -, hpts⟩ := good_of_new hne hd h
  rw [cardinality, hpts, length_points hg] at ht
  subst hp
  refine sea_three_elkies hg h3 hi ?_
  obtain ⟨s, hs⟩ := ht
  have h6 : s % 3 = 0 ∨ s % 3 = 1 ∨ s % 3 = 2 := by omega
  have h7 : s ^ 2 % 3 = 0 ∨ s ^ 2 % 3 = 1 := by
    rw [pow_two, Int.mul_emod]
    rcases h6 with h6 | h6 | h6 <;> rw [h6] <;> decide
  omega

/-- C95: if `sea(ec, 3)` never returns, `t^2 - 4 p` is not a square modulo 3. -/
theorem C95_atkin (a b p : ℤ) (ec : EllipticCurve) (h : EllipticCurve.new a b p = .ok ec) (hne : p ≠ 2) (h3 : p ≠ 3)
    (hi : p ≤ 2147483647) (hd : ¬ p ∣ 4 * a ^ 3 + 27 * b ^ 2) (hdiv : Diverges (fun fuel => sea fuel ec 3)) :
    ¬ ∃ s : ℤ, (3 : ℤ) ∣ (p + 1 - ec.cardinality) ^ 2 - 4 * p - s ^ 2 := by
  intro ht
  obtain ⟨r, ⟨N, hr⟩, -⟩ := C95_elkies a b p ec h hne h3 hi hd ht
  have h0 := (hr N le_rfl).symm.trans (hdiv N)
  cases h0

/-- C95: for `p = 2` modulo 3 it is exact: `sea(ec, 3)` returns, reporting an Elkies prime, if 3 divides the number of points,
and never returns otherwise. -/
theorem C95_iff (a b p : ℤ) (ec : EllipticCurve) (h : EllipticCurve.new a b p = .ok ec) (hne : p ≠ 2) (hp3 : p % 3 = 2)
    (hi : p ≤ 2147483647) (hd : ¬ p ∣ 4 * a ^ 3 + 27 * b ^ 2) :
    (3 ∣ ec.cardinality → ∃ r, Returns (fun fuel => sea fuel ec 3) r ∧ r.isElkiesPrime = true) ∧
    (¬ 3 ∣ ec.cardinality → Diverges (fun fuel => sea fuel ec 3)) := by
  obtain ⟨hg, hp, -, hpts⟩ := good_of_new hne hd h
  rw [cardinality, hpts, length_points hg]
  subst hp
  have := sea_three_iff hg hp3 hi
  refine ⟨fun h => this.1 (by exact_mod_cast h), fun h => this.2 (by exact_mod_cast h)⟩

/-- C95: the converse of `C95_elkies` fails: on `y^2 = x^3 + x` over GF(7), with 8 points, trace 0, `-28` is no square modulo 3,
yet `sea(ec, 3)` returns and reports an Elkies prime. -/
theorem C95_converse_refuted : ∃ ec, EllipticCurve.new 1 0 7 = .ok ec ∧ ec.cardinality = 8 ∧
    (¬ ∃ s : ℤ, (3 : ℤ) ∣ (7 + 1 - (ec.cardinality : ℤ)) ^ 2 - 4 * 7 - s ^ 2) ∧
    ∃ r, Returns (fun fuel => sea fuel ec 3) r ∧ r.isElkiesPrime = true := by
  obtain ⟨ec, h, -⟩ := C45_new 1 0 7 (by show Nat.Prime 7; norm_num) (by norm_num)
  obtain ⟨hg, hp, -, -⟩ := good_of_new (by norm_num) (by norm_num) h
  have hc : ec.cardinality = 8 := by
    rw [new_eq (by show Nat.Prime 7; norm_num) (by norm_num)] at h
    cases h
    decide +kernel
  refine ⟨ec, h, hc, ?_, ?_⟩
  · rintro ⟨s, hs⟩
    rw [hc] at hs
    have h6 : s % 3 = 0 ∨ s % 3 = 1 ∨ s % 3 = 2 := by omega
    have h7 : s ^ 2 % 3 = 0 ∨ s ^ 2 % 3 = 1 := by
      rw [pow_two, Int.mul_emod]
      rcases h6 with h6 | h6 | h6 <;> rw [h6] <;> decide
    omega
  · obtain ⟨Φ, hΦ, hv, -⟩ := C92_phi3
    obtain ⟨j, hj, -, -, hjc⟩ := EllipticCurve.C50_j_invariant hg
    have hab : ec.a = 1 ∧ ec.b = 0 := by
      rw [new_eq (by show Nat.Prime 7; norm_num) (by norm_num)] at h
      cases h
      decide +kernel
    rw [hab.1, hab.2, hp] at hjc
    have hj7 : (7 : ℤ) ∣ j - 6 := by omega
    obtain ⟨r, h1, -, -, -, -, -, -, -, h8, -⟩ := C55_sea ec hg.prime (by rw [hp]; norm_num) 3 Φ j hΦ hj ⟨6, by
      rw [phi3_evalAt Φ hv]
      have e : (j : ZMod ec.p.toNat) = 6 := by
        have := (zmod_eq_zero_iff hg.p_pos.le (j - 6)).2 (by rw [hp]; exact hj7)
        push_cast at this
        exact sub_eq_zero.1 this
      rw [e, hp]
      decide +kernel⟩
    exact ⟨r, h1, h8⟩

/-- The hypotheses of `C95_elkies` are met by `y^2 = x^3 + 2` over GF(7) (9 points: `t = -1`, `1 - 28 = 0` modulo 3). -/
example : ∃ ec, EllipticCurve.new 0 2 7 = .ok ec ∧ ¬ (7 : ℤ) ∣ 4 * 0 ^ 3 + 27 * 2 ^ 2 ∧ ec.cardinality = 9 ∧
    ∃ s : ℤ, (3 : ℤ) ∣ (7 + 1 - (ec.cardinality : ℤ)) ^ 2 - 4 * 7 - s ^ 2 := by
  obtain ⟨ec, h, -⟩ := C45_new 0 2 7 (by show Nat.Prime 7; norm_num) (by norm_num)
  have hc : ec.cardinality = 9 := by
    rw [new_eq (by show Nat.Prime 7; norm_num) (by norm_num)] at h
    cases h
    decide +kernel
  exact ⟨ec, h, by norm_num, hc, 0, by rw [hc]; norm_num⟩

/-- The hypotheses of `C95_iff` are met in both cases: over GF(5), `y^2 = x^3 + x + 1` has 9 points and `y^2 = x^3 + x + 2` has 4. -/
example : (∃ ec, EllipticCurve.new 1 1 5 = .ok ec ∧ ¬ (5 : ℤ) ∣ 4 * 1 ^ 3 + 27 * 1 ^ 2 ∧ 3 ∣ ec.cardinality) ∧
    ∃ ec, EllipticCurve.new 1 2 5 = .ok ec ∧ ¬ (5 : ℤ) ∣ 4 * 1 ^ 3 + 27 * 2 ^ 2 ∧ ¬ 3 ∣ ec.cardinality := by
  constructor
  · obtain ⟨ec, h, -⟩ := C45_new 1 1 5 (by show Nat.Prime 5; norm_num) (by norm_num)
    refine ⟨ec, h, by norm_num, ?_⟩
    rw [new_eq (by show Nat.Prime 5; norm_num) (by norm_num)] at h
    cases h
    decide +kernel
  · obtain ⟨ec, h, -⟩ := C45_new 1 2 5 (by show Nat.Prime 5; norm_num) (by norm_num)
    refine ⟨ec, h, by norm_num, ?_⟩
    rw [new_eq (by show Nat.Prime 5; norm_num) (by norm_num)] at h
    cases h
    decide +kernel

theorem sea_two_iff {ec : EllipticCurve} (hg : ec.Good) (h3 : ec.p ≠ 3) (hi : ec.p ≤ 2147483647) :
    (ec.p ∣ ec.a ∨ Even (Nat.card ec.W.Point) → ∃ r, Returns (fun fuel => sea fuel ec 2) r ∧ r.isElkiesPrime = true) ∧
    (¬ (ec.p ∣ ec.a ∨ Even (Nat.card ec.W.Point)) → Diverges (fun fuel => sea fuel ec 2)) := by
  have : Fact (Nat.Prime ec.p.toNat) := ⟨hg.prime⟩
  have hp := hg.p_pos
  obtain ⟨hd, h3', -⟩ := three_setup hg h3
  have hodd : Odd ec.p := by
    have h1 := hg.prime.eq_two_or_odd'
    have h2 := hg.odd
    rcases h1 with h | h
    · omega
    · obtain ⟨k, hk⟩ := h; exact ⟨k, by omega⟩
  have hpar : Even (Nat.card ec.W.Point) ↔ ∃ x : ZMod ec.p.toNat, x ^ 3 + ec.a * x + ec.b = 0 := by
    rw [← trace_even_iff ec.a ec.b ec.p hg.prime hg.odd hg.disc, Int.even_sub, Int.even_coe_nat]
    have : Even (ec.p + 1) := hodd.add_one
    simp only [this, true_iff]
  refine ⟨?_, fun h => ?_⟩
  · rintro (h | h)
    · obtain ⟨Φ, hΦ, hv, -⟩ := C40_phi2
      obtain ⟨j, hj, -, -, hjc⟩ := EllipticCurve.C50_j_invariant hg
      have hj0 : (j : ZMod ec.p.toNat) = 0 := by
        have h1 : ec.p ∣ j * (4 * ec.a ^ 3 + 27 * ec.b ^ 2) - 1728 * (4 * ec.a ^ 3) := Int.dvd_of_emod_eq_zero hjc
        rw [← zmod_eq_zero_iff hp.le] at h1 h
        push_cast at h1
        rw [h] at h1 hd
        have h4 : (j : ZMod ec.p.toNat) * (4 * 0 ^ 3 + 27 * (ec.b : ZMod ec.p.toNat) ^ 2) = 0 := by linear_combination h1
        exact (mul_eq_zero.1 h4).resolve_right hd
      obtain ⟨r, h1, -, -, -, -, -, -, -, h8, -⟩ := C55_sea ec hg.prime hi 2 Φ j hΦ hj ⟨54000, by
        rw [phi2_evalAt Φ hv, hj0]
        unfold Phi2
        ring⟩
      exact ⟨r, h1, h8⟩
    · obtain ⟨x, hx⟩ := hpar.1 h
      refine C78_rational_torsion ec hg hi x.val ?_
      rw [← zmod_eq_zero_iff hp.le]
      push_cast
      rw [ZMod.natCast_zmod_val]
      exact hx
  · push Not at h
    refine (C78_sea_two ec hg hi [] List.Pairwise.nil ?_).2 rfl
    intro n
    refine ⟨fun h => absurd h List.not_mem_nil, ?_⟩
    rintro ⟨-, e, he, hx⟩
    exfalso
    refine h.2 (hpar.2 ?_)
    exact exists_root_of_two (K := AlgebraicClosure (ZMod ec.p.toNat)) hg.two_ne h3' hd
      (fun h0 => h.1 ((zmod_eq_zero_iff hp.le _).1 h0)) (n : ZMod ec.p.toNat) e
      (by rw [map_intCast, map_intCast]; exact he) (by rw [map_intCast, map_intCast]; exact hx)

/-- C95: `sea(ec, 2)` returns, reporting an Elkies prime, if the number of points is even or `a` is 0 in the field, and never
returns otherwise (`p > 3`). -/
theorem C95_two (a b p : ℤ) (ec : EllipticCurve) (h : EllipticCurve.new a b p = .ok ec) (hne : p ≠ 2) (h3 : p ≠ 3)
    (hi : p ≤ 2147483647) (hd : ¬ p ∣ 4 * a ^ 3 + 27 * b ^ 2) :
    (p ∣ a ∨ 2 ∣ ec.cardinality → ∃ r, Returns (fun fuel => sea fuel ec 2) r ∧ r.isElkiesPrime = true) ∧
    (¬ (p ∣ a ∨ 2 ∣ ec.cardinality) → Diverges (fun fuel => sea fuel ec 2)) := by
  obtain ⟨hg, hp, hb, hpts⟩ := good_of_new hne hd h
  have ha : ec.a = a := by
    rw [new_eq (hp ▸ hg.prime) hb] at h
    cases h
    rfl
  rw [cardinality, hpts, length_points hg, ← even_iff_two_dvd]
  subst hp ha
  exact sea_two_iff hg h3 hi

/-- All three cases of `C95_two` occur over GF(7): `y^2 = x^3 + 2` has 9 points, `y^2 = x^3 + x` has 8, `y^2 = x^3 + x + 1` has 5. -/
example : (∃ ec, EllipticCurve.new 0 2 7 = .ok ec ∧ ec.cardinality = 9) ∧ (∃ ec, EllipticCurve.new 1 0 7 = .ok ec ∧ ec.cardinality = 8) ∧
    (∃ ec, EllipticCurve.new 1 1 7 = .ok ec ∧ ec.cardinality = 5) := by
  refine ⟨?_, ?_, ?_⟩
  · obtain ⟨ec, h, -⟩ := C45_new 0 2 7 (by show Nat.Prime 7; norm_num) (by norm_num)
    refine ⟨ec, h, ?_⟩
    rw [new_eq (by show Nat.Prime 7; norm_num) (by norm_num)] at h
    cases h
    decide +kernel
  · obtain ⟨ec, h, -⟩ := C45_new 1 0 7 (by show Nat.Prime 7; norm_num) (by norm_num)
    refine ⟨ec, h, ?_⟩
    rw [new_eq (by show Nat.Prime 7; norm_num) (by norm_num)] at h
    cases h
    decide +kernel
  · obtain ⟨ec, h, -⟩ := C45_new 1 1 7 (by show Nat.Prime 7; norm_num) (by norm_num)
    refine ⟨ec, h, ?_⟩
    rw [new_eq (by show Nat.Prime 7; norm_num) (by norm_num)] at h
    cases h
    decide +kernel

end EC
