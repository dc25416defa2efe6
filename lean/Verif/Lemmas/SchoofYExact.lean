import Verif.Lemmas.SchoofSign

/-! When the test on `y` in `schoof` passes. -/

namespace EC
open Poly Polynomial WeierstrassCurve

/-- `x^i y^j` with `0 ≤ i` and `j = m` or `j = m + 1`. -/
def Key.TwoY (m : ℤ) (k : Key) : Prop := k.IsXU ∧ (k.y = m ∨ k.y = m + 1)

theorem polyModLoop_twoY {m p : ℤ} (hm : m = -1 ∨ m = 0) (hp : 0 < p) {oh : Term} {other : Poly}
    (ho : other.All Key.IsX) : ∀ (n : ℕ) (r g : Poly), r.All (Key.TwoY m) →
      Poly.polyModLoop oh other p n r = .ok g → g.All (fun k => k.TwoY m ∧ k.x < oh.xpow) := by
  intro n
  induction n with
  | zero => intro r g _ h; simp [Poly.polyModLoop] at h
  | succ n ih =>
    intro r g hr h
    unfold Poly.polyModLoop at h
    dsimp only at h
    split_ifs at h with hlt
    · simp only [Res.ok.injEq] at h; subst h
      exact fun e he => ⟨hr e he, (le_highest he).trans_lt hlt⟩
    · obtain ⟨inv, -, h⟩ := Res.bind_eq_ok.1 h
      obtain ⟨z, hz, h⟩ := Res.bind_eq_ok.1 h
      obtain ⟨t, ht, h⟩ := Res.bind_eq_ok.1 h
      obtain ⟨d, hd, h⟩ := Res.bind_eq_ok.1 h
      obtain ⟨d', hd', h⟩ := Res.bind_eq_ok.1 h
      obtain ⟨r', hr', h⟩ := Res.bind_eq_ok.1 h
      have hrh := highest_isXU (hr.mono fun _ h => h.1)
      have hry : r.highestTermX.monomial.key.y = m ∨ r.highestTermX.monomial.key.y = m + 1 := by
        by_cases hne : r.entries = []
        · rw [highestTermX_of_nil hne]
          simp only [Term.new, Monomial.key]
          omega
        · obtain ⟨e, he, he2, -⟩ := highestTermX_of_ne hne
          rw [he2]
          exact (hr e he).2
      have hzn : 0 ≤ z := by
        rw [chk_eq_ok] at hz
        omega
      have htm : t.monomial.key.TwoY m := by
        unfold Term.modularAssign at ht
        split_ifs at ht
        simp only [Res.ok.injEq] at ht
        subst ht
        exact ⟨⟨hzn, hrh.2.1, by simp [TermBuilder.build, Monomial.key, SubVar.key, SubVar.new, TermBuilder.new,
          TermBuilder.coef, TermBuilder.xpow, TermBuilder.ypow, TermBuilder.qpow]⟩, hry⟩
      refine ih r' g ?_ h
      refine (modularAssign_eq_ok hp hr').all (all_subAssign hr ((modularAssign_eq_ok hp hd').all ?_))
      refine all_mul (S := Key.TwoY m) (T := Key.IsX) (all_toPol fun _ => htm) ho ?_ hd
      rintro k k' ⟨⟨a1, a3, a4⟩, a5⟩ ⟨b1, b2, b3, b4⟩ -
      refine ⟨⟨by simp only [Key.mul]; omega, by simp only [Key.mul]; omega, ?_⟩, by simp only [Key.mul]; omega⟩
      simp [Key.mul, a4, b4]

/-- A polynomial `y^m (A(x) + y B(x))` of small degree with many zeros is the zero polynomial. -/
theorem zero_of_valuesU {K : Type} [Field K] {p : ℕ} [CharP K p] (h2 : (2 : K) ≠ 0) {f : Poly} {n : ℕ} {m : ℤ}
    (hs : f.All (fun k => k.TwoY m ∧ k.x < n)) (hc : f.Canon) (hr : f.Reduced p) (t : Finset K) (ht : n ≤ t.card)
    (hv : ∀ x ∈ t, ∃ y, y ≠ 0 ∧ EvU x y f 0 ∧ EvU x (-y) f 0) : f.isZero = true := by
  let A : ℤ → K[X] := fun i => f.lin (fun k => if k.y = i then X ^ k.x.toNat else 0)
  have hcoef : ∀ e ∈ f.entries, (A e.1.key.y).coeff e.1.key.x.toNat = ((e.2 : ℤ) : K) := by
    intro e he
    have h1 := map_lin ((Polynomial.lcoeff K e.1.key.x.toNat).toAddMonoidHom)
      (fun k : Key => if k.y = e.1.key.y then (X : K[X]) ^ k.x.toNat else 0) f
    simp only [LinearMap.toAddMonoidHom_coe, lcoeff_apply] at h1
    have h2 : ((f.coef e.1.key : ℤ) : K) = f.lin (fun k => if k = e.1.key then (1 : K) else 0) := by
      unfold coef lin
      rw [← eq_intCast (Int.castRingHom K), map_list_sum, List.map_map]
      congr 1
      apply List.map_congr_left
      intro e _
      simp only [Function.comp]
      split_ifs <;> simp
    simp only [A]
    rw [h1, ← coef_of_mem he, h2]
    apply lin_congr_fun
    intro e' he'
    obtain ⟨⟨⟨k1, k2, k3⟩, -⟩, -⟩ := hs e he
    obtain ⟨⟨⟨l1, l2, l3⟩, -⟩, -⟩ := hs e' he'
    generalize e.1.key = k at *
    generalize e'.1.key = k' at *
    obtain ⟨x, y, q, v⟩ := k
    obtain ⟨x', y', q', v'⟩ := k'
    simp only [Key.mk.injEq] at *
    subst k2 k3 l2 l3
    by_cases hy : y' = y
    · subst hy
      rw [if_pos rfl, coeff_X_pow]
      by_cases hx : x' = x
      · subst hx; simp
      · rw [if_neg (by omega), if_neg (by tauto)]
    · rw [if_neg hy, coeff_zero, if_neg (by tauto)]
  have hdeg : ∀ i, (A i).degree < t.card := by
    intro i
    refine lt_of_lt_of_le ?_ (show ((n : ℕ) : WithBot ℕ) ≤ t.card by exact_mod_cast ht)
    rw [degree_lt_iff_coeff_zero]
    intro d hd
    have h1 := map_lin ((Polynomial.lcoeff K d).toAddMonoidHom)
      (fun k : Key => if k.y = i then (X : K[X]) ^ k.x.toNat else 0) f
    simp only [LinearMap.toAddMonoidHom_coe, lcoeff_apply] at h1
    simp only [A]
    rw [h1]
    have : f.lin (fun _ => (0 : K)) = 0 := by simp [lin]
    rw [← this]
    apply lin_congr_fun
    intro e he
    have h3 := (hs e he).2
    have h4 := (hs e he).1.1.1
    split_ifs
    · rw [coeff_X_pow, if_neg (by omega)]
    · rw [coeff_zero]
  have hval : ∀ x y : K, y ≠ 0 → f.lin (Key.evalU x y) = y ^ m * ((A m).eval x + y * (A (m + 1)).eval x) := by
    intro x y hy
    have e1 : ∀ i, (A i).eval x = f.lin (fun k => if k.y = i then x ^ k.x.toNat else 0) := by
      intro i
      have h1 := map_lin ((Polynomial.leval x).toAddMonoidHom)
        (fun k : Key => if k.y = i then (X : K[X]) ^ k.x.toNat else 0) f
      simp only [LinearMap.toAddMonoidHom_coe, leval_apply] at h1
      simp only [A]
      rw [h1]
      congr 1
      funext k
      split_ifs <;> simp
    rw [e1, e1]
    unfold lin
    rw [← List.sum_map_mul_left, ← List.sum_map_add, ← List.sum_map_mul_left]
    congr 1
    apply List.map_congr_left
    intro e he
    dsimp only
    rcases (hs e he).1.2 with h | h
    · rw [if_pos h, if_neg (by omega), Key.evalU, h, smul_zero, mul_zero, add_zero, mul_smul_comm, mul_comm]
    · rw [if_pos h, if_neg (by omega), Key.evalU, h, smul_zero, zero_add, mul_smul_comm, mul_smul_comm, zpow_add₀ hy,
        zpow_one]
      congr 1
      ring
  have hA : A m = 0 := by
    apply eq_zero_of_degree_lt_of_eval_finset_eq_zero t (hdeg m)
    intro x hx
    obtain ⟨y, hy, v1, v2⟩ := hv x hx
    have e1 := v1.2; have e2 := v2.2
    rw [hval x y hy] at e1
    rw [hval x (-y) (neg_ne_zero.2 hy)] at e2
    have e1 := (mul_eq_zero.1 e1).resolve_left (zpow_ne_zero _ hy)
    have e2 := (mul_eq_zero.1 e2).resolve_left (zpow_ne_zero _ (neg_ne_zero.2 hy))
    have : 2 * (A m).eval x = 0 := by linear_combination e1 + e2
    exact (mul_eq_zero.1 this).resolve_left h2
  have hB : A (m + 1) = 0 := by
    apply eq_zero_of_degree_lt_of_eval_finset_eq_zero t (hdeg (m + 1))
    intro x hx
    obtain ⟨y, hy, v1, v2⟩ := hv x hx
    have e1 := v1.2
    rw [hval x y hy, hA, eval_zero, zero_add] at e1
    exact (mul_eq_zero.1 ((mul_eq_zero.1 e1).resolve_left (zpow_ne_zero _ hy))).resolve_left hy
  rw [isZero_iff]
  by_contra hne
  obtain ⟨e, he⟩ := List.exists_mem_of_ne_nil _ hne
  have hz : ((e.2 : ℤ) : K) = 0 := by
    rw [← hcoef e he]
    rcases (hs e he).1.2 with h | h
    · rw [h, hA, coeff_zero]
    · rw [h, hB, coeff_zero]
  rw [CharP.intCast_eq_zero_iff K p] at hz
  have h0 := hc e he
  obtain ⟨r1, r2⟩ := hr e he
  exact h0 (Int.eq_zero_of_dvd_of_nonneg_of_lt r1 r2 hz)

section
variable {K : Type} [Field K] [DecidableEq K] {a b q : ℤ} [Fact (Nat.Prime q.toNat)] [CharP K q.toNat] {fuel : ℕ}

/-- The difference that the test on `y` compares with zero at `P`. -/
def yDefect (A R J : EDS.Pt (a : K) b) : K :=
  (EDS.yc A - EDS.yc R) * ((2 * EDS.xc R - EDS.xc A) * (EDS.xc A - EDS.xc R) ^ 2 - (EDS.yc A - EDS.yc R) ^ 2) -
      EDS.yc R * (EDS.xc A - EDS.xc R) ^ 3 - EDS.yc J * (EDS.xc A - EDS.xc R) ^ 3

theorem schoofY_poly (h2 : (2 : K) ≠ 0) (hq : 2 ≤ q) 
    {l : ℤ} {n j : ℕ} (hn : 1 ≤ n) (hj : 1 ≤ j) {psiL : Poly} {r : ModResult}
    (h : schoofY fuel a b q l n j psiL = .ok r) {P0 : EDS.Pt (a : K) b} (hP0 : P0 ≠ 0) (hnP0 : n • P0 ≠ 0)
    (hjQ0 : j • frobPoint q.toNat a b P0 ≠ 0) :
    ∃ p8 : Poly, p8.All (fun k => k.IsXY ∧ k.y < 2) ∧
      (∀ P : EDS.Pt (a : K) b, P ≠ 0 → n • P ≠ 0 → j • frobPoint q.toNat a b P ≠ 0 →
        Ev (EDS.xc P) (EDS.yc P) p8 (EDS.F P n ^ 10 * EDS.F (frobPoint q.toNat a b P) j ^ 3 *
          yDefect (n • P) (frobPoint q.toNat a b (frobPoint q.toNat a b P)) (j • frobPoint q.toNat a b P))) ∧
      ∃ p9, (if p8.hasY then p8.divTerm (TermBuilder.new.ypow 1).build else .ok p8) = .ok p9 ∧ (do
        let p9 ← p9.modularAssign q
        let p9 ← p9.polynomialModular fuel psiL q
        let jj := if !p9.isZero then -(j : ℤ) else j
        let jj := if jj < 0 then jj + l else jj
        Res.ok (ModResult.mk l jj)) = .ok r := by
  have hK := char_smulK (K := K) (q := q) (by omega)
  have hp : 1 ≤ q := by omega
  have hq2' : ((q ^ 2 : ℤ)).toNat = q.toNat ^ 2 := by
    obtain ⟨m, rfl⟩ := Int.eq_ofNat_of_zero_le (show 0 ≤ q by omega)
    rw [Int.toNat_natCast, ← Int.natCast_pow, Int.toNat_natCast]
  unfold schoofY at h
  obtain ⟨q2, hq2, h⟩ := Res.bind_eq_ok.1 h
  obtain ⟨-, rfl⟩ := chk_eq_ok.1 hq2
  obtain ⟨g, hg, h⟩ := Res.bind_eq_ok.1 h
  obtain ⟨om, hom, h⟩ := Res.bind_eq_ok.1 h
  obtain ⟨omg, homg, h⟩ := Res.bind_eq_ok.1 h
  obtain ⟨ps, hps, h⟩ := Res.bind_eq_ok.1 h
  obtain ⟨ps3, hps3, h⟩ := Res.bind_eq_ok.1 h
  obtain ⟨gp, hgp, h⟩ := Res.bind_eq_ok.1 h
  obtain ⟨d, hd, h⟩ := Res.bind_eq_ok.1 h
  obtain ⟨ph, hph, h⟩ := Res.bind_eq_ok.1 h
  obtain ⟨z, hz, h⟩ := Res.bind_eq_ok.1 h
  cases Res.ok.inj (hz.symm.trans hps)
  clear hz
  obtain ⟨ps2, hps2, h⟩ := Res.bind_eq_ok.1 h
  obtain ⟨xp2, hxp2, h⟩ := Res.bind_eq_ok.1 h
  obtain ⟨ee, hee, h⟩ := Res.bind_eq_ok.1 h
  obtain ⟨e, he, h⟩ := Res.bind_eq_ok.1 h
  obtain ⟨z, hz, h⟩ := Res.bind_eq_ok.1 h
  cases Res.ok.inj (hz.symm.trans hph)
  clear hz
  obtain ⟨z, hz, h⟩ := Res.bind_eq_ok.1 h
  cases Res.ok.inj (hz.symm.trans hps)
  clear hz
  obtain ⟨z, hz, h⟩ := Res.bind_eq_ok.1 h
  cases Res.ok.inj (hz.symm.trans hps2)
  clear hz
  obtain ⟨xp, hxp, h⟩ := Res.bind_eq_ok.1 h
  obtain ⟨ff, hff, h⟩ := Res.bind_eq_ok.1 h
  obtain ⟨f, hf, h⟩ := Res.bind_eq_ok.1 h
  obtain ⟨fs, hfs, h⟩ := Res.bind_eq_ok.1 h
  obtain ⟨ef, hef, h⟩ := Res.bind_eq_ok.1 h
  obtain ⟨d2, hd2, h⟩ := Res.bind_eq_ok.1 h
  obtain ⟨dm, hdm, h⟩ := Res.bind_eq_ok.1 h
  obtain ⟨z, hz, h⟩ := Res.bind_eq_ok.1 h
  cases Res.ok.inj (hz.symm.trans hps)
  clear hz
  obtain ⟨z, hz, h⟩ := Res.bind_eq_ok.1 h
  cases Res.ok.inj (hz.symm.trans hps3)
  clear hz
  obtain ⟨z, hz, h⟩ := Res.bind_eq_ok.1 h
  cases Res.ok.inj (hz.symm.trans hgp)
  clear hz
  obtain ⟨f3', hf3', h⟩ := Res.bind_eq_ok.1 h
  obtain ⟨gf, hgf, h⟩ := Res.bind_eq_ok.1 h
  obtain ⟨n3, hn3, h⟩ := Res.bind_eq_ok.1 h
  obtain ⟨z, hz, h⟩ := Res.bind_eq_ok.1 h
  cases Res.ok.inj (hz.symm.trans hps)
  clear hz
  obtain ⟨n3p, hn3p, h⟩ := Res.bind_eq_ok.1 h
  obtain ⟨num3, hnum3, h⟩ := Res.bind_eq_ok.1 h
  obtain ⟨z, hz, h⟩ := Res.bind_eq_ok.1 h
  cases Res.ok.inj (hz.symm.trans hps)
  clear hz
  obtain ⟨z, hz, h⟩ := Res.bind_eq_ok.1 h
  cases Res.ok.inj (hz.symm.trans hps3)
  clear hz
  obtain ⟨z, hz, h⟩ := Res.bind_eq_ok.1 h
  cases Res.ok.inj (hz.symm.trans hf3')
  clear hz
  obtain ⟨pf, hpf, h⟩ := Res.bind_eq_ok.1 h
  obtain ⟨z, hz, h⟩ := Res.bind_eq_ok.1 h
  cases Res.ok.inj (hz.symm.trans hps)
  clear hz
  obtain ⟨pfp, hpfp, h⟩ := Res.bind_eq_ok.1 h
  obtain ⟨den3, hden3, h⟩ := Res.bind_eq_ok.1 h
  obtain ⟨oj, hoj, h⟩ := Res.bind_eq_ok.1 h
  obtain ⟨ojf, hojf, h⟩ := Res.bind_eq_ok.1 h
  obtain ⟨num4, hnum4, h⟩ := Res.bind_eq_ok.1 h
  obtain ⟨pj, hpj, h⟩ := Res.bind_eq_ok.1 h
  obtain ⟨pjf, hpjf, h⟩ := Res.bind_eq_ok.1 h
  obtain ⟨pj3, hpj3, h⟩ := Res.bind_eq_ok.1 h
  obtain ⟨den4, hden4, h⟩ := Res.bind_eq_ok.1 h
  obtain ⟨t1, ht1, h⟩ := Res.bind_eq_ok.1 h
  obtain ⟨t2, ht2, h⟩ := Res.bind_eq_ok.1 h
  obtain ⟨p7, hp7, h⟩ := Res.bind_eq_ok.1 h
  obtain ⟨p8, hp8, h⟩ := Res.bind_eq_ok.1 h
  have hval : ∀ P : EDS.Pt (a : K) b, P ≠ 0 → n • P ≠ 0 → j • frobPoint q.toNat a b P ≠ 0 →
        Ev (EDS.xc P) (EDS.yc P) p8 (EDS.F P n ^ 10 * EDS.F (frobPoint q.toNat a b P) j ^ 3 *
          yDefect (n • P) (frobPoint q.toNat a b (frobPoint q.toNat a b P)) (j • frobPoint q.toNat a b P)) := by
    intro P hP hnP hjQ
    have hxy := EDS.eqn hP
    have hx := EDS.F_x h2 hP n (by omega) hnP
    obtain ⟨g1, g2, g3⟩ := frobPoint_ne (q := q) hP
    obtain ⟨f1, f2, f3⟩ := frobPoint_ne (q := q) g1
    generalize hR : frobPoint q.toNat a b (frobPoint q.toNat a b P) = R at *
    have e1 : EDS.yc P ^ q.toNat ^ 2 = EDS.yc R := by
      rw [f3, g3, ← pow_mul, pow_two]
    have e2 : EDS.xc P ^ q.toNat ^ 2 = EDS.xc R := by
      rw [f2, g2, ← pow_mul, pow_two]
    have vp := ev_psi hP hps
    have vph := ev_phi hP hph
    rw [← hx] at vph
    have vg := Ev.red hp hK hxy (Ev.ypow (x := EDS.xc P) (n := q ^ 2) (by positivity)) hg
    rw [hq2', e1] at vg
    have vom := Ev.mod hp hK (ev_omega hP h2 hn hom hnP) homg
    have vgp := vg.mul (vp.power3 hps3) hgp
    have vd := Ev.red hp hK hxy (vom.sub vgp) hd
    have vx2 := (Ev.cxpow (y := EDS.yc P) (x := EDS.xc P) (n := q ^ 2) (c := 2) (by positivity)).mul (vp.power2 hps2) hxp2
    rw [hq2', e2] at vx2
    have ve := Ev.red hp hK hxy (Ev.mod hp hK (vph.neg.add vx2) hee) he
    have vx1 := (Ev.xpow (y := EDS.yc P) (x := EDS.xc P) (n := q ^ 2) (by positivity)).mul (vp.power2 hps2) hxp
    rw [hq2', e2] at vx1
    have vf := Ev.red hp hK hxy (Ev.mod hp hK (vph.sub vx1) hff) hf
    have vn3 := Ev.red hp hK hxy ((vd.mul ((ve.mul (vf.power2 hfs) hef).sub (vd.power2 hd2)) hdm).sub
      (vgp.mul (vf.power3 hf3') hgf)) hn3
    have vnum3 := Ev.red hp hK hxy (vn3.mul vp hn3p) hnum3
    have vden3 := Ev.red hp hK hxy (((vp.power3 hps3).mul (vf.power3 hf3') hpf).mul vp hpfp) hden3
    have voj := ev_omega g1 h2 hj hoj hjQ
    have vpj := ev_psi g1 hpj
    rw [g2, g3] at voj vpj
    have vnum4 := Ev.red hp hK hxy (voj.frob hp hojf) hnum4
    have vden4 := Ev.red hp hK hxy ((vpj.frob hp hpjf).power3 hpj3) hden4
    have vp8 := Ev.red hp hK hxy (Ev.mod hp hK ((vnum3.mul vden4 ht1).sub (vnum4.mul vden3 ht2)) hp7) hp8
    refine vp8.congr ?_
    unfold yDefect
    push_cast
    ring
  have h' : ∃ p9, (if p8.hasY then p8.divTerm (TermBuilder.new.ypow 1).build else .ok p8) = .ok p9 ∧ (do
        let p9 ← p9.modularAssign q
        let p9 ← p9.polynomialModular fuel psiL q
        let jj := if !p9.isZero then -(j : ℤ) else j
        let jj := if jj < 0 then jj + l else jj
        Res.ok (ModResult.mk l jj)) = .ok r := by
    dsimp only at h
    split_ifs at h with hY
    · obtain ⟨p9, h9, h⟩ := Res.bind_eq_ok.1 h
      exact ⟨p9, by rw [if_pos hY]; exact h9, h⟩
    · exact ⟨p8, by rw [if_neg hY], h⟩
  refine ⟨p8, ?_, hval, h'⟩
  have e1 := (hval P0 hP0 hnP0 hjQ0).1
  have e2 := (C21_reduction_modular _ _ _ _ _ hp hp8).2.1
  exact fun e he => ⟨e1 e he, e2 e he⟩

/-- The test on `y` passes exactly if the equation it checks holds at every point of order `l`. -/
theorem yTest_iff [IsAlgClosed K] (h2 : q ≠ 2) (hns : ¬ q ∣ 4 * a ^ 3 + 27 * b ^ 2) {l n j : ℕ} (hl : l.Prime)
    (hl2 : l ≠ 2) (hlq : (l : ℤ) < q) (hn : q % l = n) (hj1 : 1 ≤ j) (hjl : 2 * j < l)
    {ps psL : Poly} (hps : psi a b l = .ok ps) (hpsL : ps.rem q = .ok psL) {r : ModResult}
    (h : schoofY fuel a b q l n j psL = .ok r) :
    r.r = j ↔ ∀ P : EDS.Pt (a : K) b, P ≠ 0 → l • P = 0 →
      yDefect (n • P) (frobPoint q.toNat a b (frobPoint q.toNat a b P)) (j • frobPoint q.toNat a b P) = 0 := by
  have hpr : Nat.Prime q.toNat := Fact.out
  have hq := two_le_of_prime (p := q) hpr
  have hK := char_smulK (K := K) (q := q) (by omega)
  have hp : 1 ≤ q := by omega
  have h2K := two_ne_char (K := K) h2
  have hl3 : 3 ≤ l := by have := hl.two_le; omega
  have hn1 : 1 ≤ n := by
    rcases Nat.eq_zero_or_pos n with rfl | h0
    · exfalso
      have hdv : (l : ℤ) ∣ q := Int.dvd_of_emod_eq_zero (by simpa using hn)
      have : l ∣ q.toNat := by
        rw [← Int.natCast_dvd_natCast, Int.toNat_of_nonneg (by omega)]; exact hdv
      have := (Nat.prime_dvd_prime_iff_eq hl hpr).1 this
      omega
    · exact h0
  have hnl : n < l := by
    have := Int.emod_lt_of_pos q (show (0 : ℤ) < l by omega)
    omega
  have hno : ∀ (R : EDS.Pt (a : K) b), R ≠ 0 → l • R = 0 → ∀ m, 1 ≤ m → m < l → m • R ≠ 0 := by
    intro R hR hlR m hm hml h0
    have hord : addOrderOf R = l := addOrderOf_eq_prime hlR hR (hp := ⟨hl⟩)
    have := addOrderOf_dvd_of_nsmul_eq_zero h0
    rw [hord] at this
    exact absurd (Nat.le_of_dvd (by omega) this) (by omega)
  have main : ∀ P : EDS.Pt (a : K) b, P ≠ 0 → l • P = 0 →
      n • P ≠ 0 ∧ j • frobPoint q.toNat a b P ≠ 0 ∧ EDS.F P n ≠ 0 ∧ EDS.F (frobPoint q.toNat a b P) j ≠ 0 ∧
      EDS.yc P ≠ 0 ∧ Ev (EDS.xc P) (EDS.yc P) psL 0 := by
    intro P hP hlP
    obtain ⟨g1, g2, g3⟩ := frobPoint_ne (q := q) hP
    have hnP := hno P hP hlP n hn1 hnl
    have hF0 : EDS.F P l = 0 := (EDS.F_eq_zero_iff h2K hP l (by omega)).2 hlP
    have hlQ : l • frobPoint q.toNat a b P = 0 := by
      rw [← EDS.F_eq_zero_iff h2K g1 l (by omega), F_frob hP, hF0, zero_pow hpr.ne_zero]
    have v3 := Ev.rem (show 1 ≤ q by omega) hK (ev_psi hP hps) hpsL
    rw [hF0] at v3
    have hjQ := hno _ g1 hlQ j hj1 (by omega)
    refine ⟨hnP, hjQ, fun hz => hnP ((EDS.F_eq_zero_iff h2K hP n (by omega)).1 hz),
      fun hz => hjQ ((EDS.F_eq_zero_iff h2K g1 j (by omega)).1 hz), fun h0 => ?_, v3⟩
    exact hno P hP hlP 2 (by norm_num) (by omega) (by rw [two_nsmul]; exact (EDS.two_nsmul_eq_zero_iff h2K hP).2 h0)
  have hd : (4 * (a : K) ^ 3 + 27 * (b : K) ^ 2) ≠ 0 := by
    intro h0
    apply hns
    have : ((4 * a ^ 3 + 27 * b ^ 2 : ℤ) : K) = 0 := by push_cast; exact h0
    rw [CharP.intCast_eq_zero_iff K q.toNat, Int.toNat_of_nonneg (by omega)] at this
    exact this
  have hlK : ((l : ℕ) : K) ≠ 0 := by
    intro h0
    rw [CharP.cast_eq_zero_iff K q.toNat] at h0
    have := (Nat.prime_dvd_prime_iff_eq hpr hl).1 h0
    omega
  obtain ⟨t, ht1, ht2⟩ := card_torsion_x h2K hd hlK
  have hodd : l % 2 = 1 := by
    rcases hl.eq_two_or_odd with h | h
    · exact absurd h hl2
    · exact h
  have ht3 : (l ^ 2 - 1) / 2 ≤ t.card := by omega
  obtain ⟨x0, hx0⟩ : t.Nonempty := by
    rw [← Finset.card_pos]
    have : 9 ≤ l ^ 2 := by nlinarith
    omega
  obtain ⟨P0, hP0, hlP0, -⟩ := ht2 x0 hx0
  have hwk := (psi_spec _ _ _ _ hps).2.wk
  have hmL := rem_eq_ok (show 0 < q by omega) hpsL
  have hsm : psL.All (fun k => k.IsX ∧ k.x ≤ ((l ^ 2 - 1) / 2 : ℕ)) := by
    refine hmL.all (hwk.mono ?_)
    rintro k ⟨⟨k1, k2, k3, k4⟩, k5, k6⟩
    have hl9 : 1 ≤ l ^ 2 := by nlinarith
    have hy : k.y = 0 := by omega
    refine ⟨⟨k1, hy, k3, k4⟩, ?_⟩
    have : ((l ^ 2 - 1 : ℕ) : ℤ) = (l : ℤ) ^ 2 - 1 := by push_cast [hl9]; ring
    omega
  have hxL : psL.highestTermX.xpow ≤ ((l ^ 2 - 1) / 2 : ℕ) := by
    by_cases hne : psL.entries = []
    · rw [highestTermX_of_nil hne]
      exact Int.natCast_nonneg _
    · obtain ⟨e, he, he2, -⟩ := highestTermX_of_ne hne
      rw [he2]
      exact (hsm e he).2
  obtain ⟨p8, hp8, hv, p9, h9, h⟩ := schoofY_poly (K := K) h2K hq hn1 hj1 h hP0 (main P0 hP0 hlP0).1 (main P0 hP0 hlP0).2.1
  obtain ⟨p9', h9', h⟩ := Res.bind_eq_ok.1 h
  obtain ⟨p10, h10, h⟩ := Res.bind_eq_ok.1 h
  -- shape and values of the quotient by `y`
  obtain ⟨m, hm, hsh, hval⟩ : ∃ m : ℤ, (m = -1 ∨ m = 0) ∧ p9.All (Key.TwoY m) ∧
      ∀ x y c : K, y ≠ 0 → Ev x y p8 c → ∃ u, u ≠ 0 ∧ EvU x y p9 (c * u) := by
    split_ifs at h9 with hY
    · refine ⟨-1, .inl rfl, ?_, fun x y c hy hc => ⟨_, inv_ne_zero hy, EvU.divY hy (EvU.ofEv hc) h9⟩⟩
      have hb : (TermBuilder.new.ypow 1).build.toPol.entries = [((TermBuilder.new.ypow 1).build.monomial, 1)] := by
        decide +kernel
      obtain ⟨-, -, h3, -⟩ := div_single hb h9
      rw [all_iff]
      intro k v hkv
      obtain ⟨e, he, rfl, -⟩ := (h3 k v).1 hkv
      obtain ⟨⟨q1, q2, q3, q4⟩, q5⟩ := hp8 e he
      refine ⟨⟨?_, ?_, ?_⟩, ?_⟩
      · simpa [Key.div, TermBuilder.new, TermBuilder.build, TermBuilder.ypow, Monomial.key] using q1
      · simpa [Key.div, TermBuilder.new, TermBuilder.build, TermBuilder.ypow, Monomial.key] using q3
      · simpa [Key.div, TermBuilder.new, TermBuilder.build, TermBuilder.ypow, Monomial.key] using q4
      · simp only [Key.div, TermBuilder.new, TermBuilder.build, TermBuilder.ypow, Monomial.key] at q2 q5 ⊢
        omega
    · simp only [Res.ok.injEq] at h9
      subst h9
      refine ⟨0, .inr rfl, ?_, fun x y c hy hc => ⟨1, one_ne_zero, (EvU.ofEv hc).congr (mul_one c).symm⟩⟩
      exact fun e he => ⟨⟨(hp8 e he).1.1, (hp8 e he).1.2.2⟩, by have := (hp8 e he).1.2.1; have := (hp8 e he).2; omega⟩
  have hr : r.r = j ↔ p10.isZero = true := by
    simp only [Res.ok.injEq] at h
    subst h
    cases hz : p10.isZero with
    | true => simp
    | false =>
      simp only [Bool.not_false, if_true]
      split_ifs <;> simp <;> omega
  have hval' : ∀ x y c : K, y ≠ 0 → Ev x y p8 c → Ev x y psL 0 → ∃ u, u ≠ 0 ∧ EvU x y p10 (c * u) := by
    intro x y c hy hc hL
    obtain ⟨u, hu, hv⟩ := hval x y c hy hc
    exact ⟨u, hu, EvU.polyMod hp hK hy (EvU.ofEv hL) (EvU.mod hp hK hv h9') h10⟩
  rw [hr]
  constructor
  · intro hz P hP hlP
    obtain ⟨k1, k2, k3, k4, k5, k6⟩ := main P hP hlP
    obtain ⟨u, hu, hv'⟩ := hval' _ _ _ k5 (hv P hP k1 k2) k6
    have := (mul_eq_zero.1 (hv'.isZero hz)).resolve_right hu
    exact (mul_eq_zero.1 this).resolve_left (mul_ne_zero (pow_ne_zero _ k3) (pow_ne_zero _ k4))
  · intro hc
    have hzero : ∀ P : EDS.Pt (a : K) b, P ≠ 0 → l • P = 0 → EvU (EDS.xc P) (EDS.yc P) p10 0 := by
      intro P hP hlP
      obtain ⟨k1, k2, k3, k4, k5, k6⟩ := main P hP hlP
      obtain ⟨u, hu, hv'⟩ := hval' _ _ _ k5 (hv P hP k1 k2) k6
      rw [hc P hP hlP, mul_zero, zero_mul] at hv'
      exact hv'
    unfold polynomialModular at h10
    obtain ⟨_, -, h10⟩ := Res.bind_eq_ok.1 h10
    obtain ⟨_, -, h10⟩ := Res.bind_eq_ok.1 h10
    obtain ⟨r3, hr3, h10⟩ := Res.bind_eq_ok.1 h10
    have hm10 := modularAssign_eq_ok (show 0 < q by omega) h10
    have hs := hm10.all (polyModLoop_twoY hm (by omega) (hsm.mono fun _ h => h.1) _ _ _
      ((modularAssign_eq_ok (show 0 < q by omega) h9').all hsh) hr3)
    refine zero_of_valuesU (K := K) (p := q.toNat) (n := (l ^ 2 - 1) / 2) (m := m) h2K ?_ hm10.canon ?_ t ht3 ?_
    · exact hs.mono fun k hk => ⟨hk.1, hk.2.trans_le hxL⟩
    · rw [Int.toNat_of_nonneg (by omega)]; exact hm10.reduced (by omega)
    · intro x hx
      obtain ⟨P, hP, hlP, rfl⟩ := ht2 x hx
      refine ⟨EDS.yc P, (main P hP hlP).2.2.2.2.1, hzero P hP hlP, ?_⟩
      have := hzero (-P) (neg_ne_zero.2 hP) (by rw [smul_neg, hlP, neg_zero])
      rwa [EDS.xc_neg, EDS.yc_neg] at this

end
end EC
