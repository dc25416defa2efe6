import Verif.Props.SchoofExact

/-! The sign step of `schoof` (the test on `y`), at a point of order `l`. -/

namespace EC
open Poly Polynomial WeierstrassCurve

/-- Monomials in `x` and `y` with any exponent of `y`. -/
def Key.IsXU (k : Key) : Prop := 0 ≤ k.x ∧ k.q = 0 ∧ k.v = none

/-- Value at `(x, y)` for `y ≠ 0`. -/
noncomputable def Key.evalU {K : Type} [Field K] (x y : K) (k : Key) : K := x ^ k.x.toNat * y ^ k.y

/-- `f` is a polynomial in `x`, `y` and `y⁻¹` with the value `c` at `(x, y)`. -/
def EvU {K : Type} [Field K] (x y : K) (f : Poly) (c : K) : Prop :=
  f.All Key.IsXU ∧ f.lin (Key.evalU x y) = c

theorem isXU_mulFn {K : Type} [Field K] (x : K) {y : K} (hy : y ≠ 0) : MulFn Key.IsXU (Key.evalU x y) := by
  refine ⟨by simp [Key.IsXU, Key.one], by simp [Key.evalU, Key.one], ?_, ?_⟩
  · rintro k k' ⟨a1, a3, a4⟩ ⟨b1, b3, b4⟩ -
    refine ⟨by simp only [Key.mul]; omega, by simp only [Key.mul]; omega, ?_⟩
    simp [Key.mul, a4, b4]
  · rintro k k' ⟨a1, a3, a4⟩ ⟨b1, b3, b4⟩ -
    simp only [Key.evalU, Key.mul]
    rw [zpow_add₀ hy, Int.toNat_add a1 b1, pow_add]
    ring

theorem highest_isXU {r : Poly} (hr : r.All Key.IsXU) : r.highestTermX.monomial.key.IsXU := by
  by_cases hne : r.entries = []
  · rw [highestTermX_of_nil hne]; simp [Term.new, Key.IsXU, Monomial.key, SubVar.key, SubVar.new]
  · obtain ⟨e, he, he2, -⟩ := highestTermX_of_ne hne
    rw [he2]
    exact hr e he

namespace EvU
variable {K : Type} [Field K] {x y : K} {f g h : Poly} {c d : K} {p : ℤ}

theorem ofEv (hf : Ev x y f c) : EvU x y f c := by
  refine ⟨hf.1.mono fun k hk => ⟨hk.1, hk.2.2⟩, ?_⟩
  rw [← hf.2, lin, lin]
  congr 1
  apply List.map_congr_left
  intro e he
  obtain ⟨h1, h2, h3, h4⟩ := hf.1 e he
  simp only [Key.evalU, Key.evalAt, h3, h4, Int.toNat_zero, pow_zero, mul_one]
  nth_rewrite 1 [← Int.toNat_of_nonneg h2]
  rw [zpow_natCast]

theorem subAssign (hf : EvU x y f c) (hg : EvU x y g d) : EvU x y (f.subAssign g) (c - d) :=
  ⟨all_subAssign hf.1 hg.1, by rw [lin_subAssign, hf.2, hg.2]⟩

theorem mul (hy : y ≠ 0) (hf : EvU x y f c) (hg : EvU x y g d) (e : f.mul g = .ok h) : EvU x y h (c * d) := by
  obtain ⟨h1, h2⟩ := MulFn.mul (isXU_mulFn x hy) hf.1 hg.1 e
  exact ⟨h1, by rw [h2, hf.2, hg.2]⟩

theorem congr (hf : EvU x y f c) (e : c = d) : EvU x y f d := e ▸ hf

theorem toPol {t : Term} (hn : t.monomial.key.IsXU) :
    EvU x y t.toPol (t.coef • t.monomial.key.evalU x y) :=
  ⟨all_toPol fun _ => hn, lin_toPol _ _⟩

theorem isZero (hf : EvU x y f c) (h : f.isZero = true) : c = 0 := by
  rw [← hf.2, lin, isZero_iff.1 h]; rfl

/-- Division by the monomial `y`. -/
theorem divY (hy : y ≠ 0) (hf : EvU x y f c) (e : f.divTerm (TermBuilder.new.ypow 1).build = .ok g) :
    EvU x y g (c * y⁻¹) := by
  have hb : (TermBuilder.new.ypow 1).build.toPol.entries = [((TermBuilder.new.ypow 1).build.monomial, 1)] := by
    decide +kernel
  obtain ⟨-, -, h3, h4⟩ := div_single hb e
  constructor
  · rw [all_iff]
    intro k v hkv
    obtain ⟨e, he, rfl, -⟩ := (h3 k v).1 hkv
    obtain ⟨q1, q2, q3⟩ := hf.1 e he
    refine ⟨?_, ?_, q3⟩
    · simpa [Key.div, TermBuilder.new, TermBuilder.build, TermBuilder.ypow, Monomial.key] using q1
    · simpa [Key.div, TermBuilder.new, TermBuilder.build, TermBuilder.ypow, Monomial.key] using q2
  · rw [lin_eq_fs, h4, map_list_sum, List.map_map, ← hf.2, lin, ← List.sum_map_mul_right]
    congr 1
    apply List.map_congr_left
    intro e he
    simp only [Function.comp, Finsupp.linearCombination_single, Int.fdiv_one]
    rw [smul_mul_assoc]
    congr 1
    simp only [Key.evalU, Key.div, TermBuilder.new, TermBuilder.build, TermBuilder.ypow, Monomial.key, sub_zero]
    rw [zpow_sub₀ hy, zpow_one, mul_div_assoc', div_eq_mul_inv]

section
variable (hp : 1 ≤ p) (hK : ∀ m : K, p • m = 0)
include hp hK

theorem mod (hf : EvU x y f c) (e : f.modularAssign p = .ok g) : EvU x y g c := by
  have hm := modularAssign_eq_ok (by omega) e
  exact ⟨hm.all hf.1, by rw [hm.lin _ hK, hf.2]⟩

theorem polyModLoop (hy : y ≠ 0) {other : Poly} (ho : EvU x y other 0) {oh : Term} (hoh : 0 ≤ oh.xpow) :
    ∀ (n : ℕ) (r g : Poly), EvU x y r c → polyModLoop oh other p n r = .ok g → EvU x y g c := by
  intro n
  induction n with
  | zero => intro r g _ h; simp [Poly.polyModLoop] at h
  | succ n ih =>
    intro r g hr h
    unfold Poly.polyModLoop at h
    dsimp only at h
    split_ifs at h with hlt
    · simp only [Res.ok.injEq] at h; subst h; exact hr
    · obtain ⟨inv, -, h⟩ := Res.bind_eq_ok.1 h
      obtain ⟨z, hz, h⟩ := Res.bind_eq_ok.1 h
      obtain ⟨t, ht, h⟩ := Res.bind_eq_ok.1 h
      obtain ⟨d, hd, h⟩ := Res.bind_eq_ok.1 h
      obtain ⟨d', hd', h⟩ := Res.bind_eq_ok.1 h
      obtain ⟨r', hr', h⟩ := Res.bind_eq_ok.1 h
      have hrh := highest_isXU hr.1
      have hzn : 0 ≤ z := by
        rw [chk_eq_ok] at hz
        omega
      have htm : t.monomial.key.IsXU := by
        unfold Term.modularAssign at ht
        split_ifs at ht
        simp only [Res.ok.injEq] at ht
        subst ht
        exact ⟨hzn, hrh.2.1, by simp [TermBuilder.build, Monomial.key, SubVar.key, SubVar.new, TermBuilder.new,
          TermBuilder.coef, TermBuilder.xpow, TermBuilder.ypow, TermBuilder.qpow]⟩
      refine ih r' g ?_ h
      refine mod hp hK (c := c) ?_ hr'
      refine (hr.subAssign (mod hp hK ((toPol htm).mul hy ho hd) hd')).congr ?_
      ring

theorem polyMod (hy : y ≠ 0) {other : Poly} {n : ℕ} (ho : EvU x y other 0) (hf : EvU x y f c)
    (e : f.polynomialModular n other p = .ok g) : EvU x y g c := by
  unfold polynomialModular at e
  obtain ⟨_, -, e⟩ := Res.bind_eq_ok.1 e
  obtain ⟨_, -, e⟩ := Res.bind_eq_ok.1 e
  obtain ⟨r, hr, e⟩ := Res.bind_eq_ok.1 e
  refine mod hp hK (polyModLoop hp hK hy ho ?_ n f r hf hr) e
  exact (highest_isXU ho.1).1

end
end EvU

theorem Ev.cxpow {K : Type} [Field K] {x y : K} {n c : ℤ} (hn : 0 ≤ n) :
    Ev x y ((TermBuilder.new.coef c).xpow n).build.toPol (c * x ^ n.toNat) := by
  refine (toPol (by simpa [Key.IsXY, SubVar.key, SubVar.new, TermBuilder.new, TermBuilder.build, TermBuilder.xpow,
    TermBuilder.coef, Monomial.key] using hn)).congr ?_
  simp [Key.evalAt, TermBuilder.new, TermBuilder.build, TermBuilder.xpow, TermBuilder.coef, Monomial.key, SubVar.key,
    SubVar.new]

section
variable {K : Type} [Field K] [DecidableEq K] {a b q : ℤ} [Fact (Nat.Prime q.toNat)] [CharP K q.toNat] {fuel : ℕ}

/-- What the test on `y` checks at a point of order `l` when it passes.  (The factor `2 xR - xA` should be
`2 xR + xA`: src/schoof.rs:127 has the wrong sign.) -/
theorem ev_schoofY (h2 : (2 : K) ≠ 0) (hq : 2 ≤ q) {P : EDS.Pt (a : K) b} (hP : P ≠ 0) (hy : EDS.yc P ≠ 0)
    {l : ℤ} {n j : ℕ} (hn : 1 ≤ n) (hnP : n • P ≠ 0) (hj : 1 ≤ j) (hjQ : j • frobPoint q.toNat a b P ≠ 0)
    (hjl : 2 * (j : ℤ) < l) {psiL : Poly} (hpl : Ev (EDS.xc P) (EDS.yc P) psiL 0) {r : ModResult}
    (h : schoofY fuel a b q l n j psiL = .ok r) (hr : r.r = j) {A R : EDS.Pt (a : K) b} (hA : A = n • P)
    (hR : R = frobPoint q.toNat a b (frobPoint q.toNat a b P)) :
    (EDS.yc A - EDS.yc R) * ((2 * EDS.xc R - EDS.xc A) * (EDS.xc A - EDS.xc R) ^ 2 - (EDS.yc A - EDS.yc R) ^ 2) -
      EDS.yc R * (EDS.xc A - EDS.xc R) ^ 3 = EDS.yc (j • frobPoint q.toNat a b P) * (EDS.xc A - EDS.xc R) ^ 3 := by
  have hK := char_smulK (K := K) (q := q) (by omega)
  have hp : 1 ≤ q := by omega
  have hxy := EDS.eqn hP
  have hx := EDS.F_x h2 hP n (by omega) hnP
  obtain ⟨g1, g2, g3⟩ := frobPoint_ne (q := q) hP
  obtain ⟨f1, f2, f3⟩ := frobPoint_ne (q := q) g1
  have e1 : EDS.yc P ^ q.toNat ^ 2 = EDS.yc R := by
    rw [hR, f3, g3, ← pow_mul, pow_two]
  have e2 : EDS.xc P ^ q.toNat ^ 2 = EDS.xc R := by
    rw [hR, f2, g2, ← pow_mul, pow_two]
  have hq2' : ((q ^ 2 : ℤ)).toNat = q.toNat ^ 2 := by
    obtain ⟨m, rfl⟩ := Int.eq_ofNat_of_zero_le (show 0 ≤ q by omega)
    rw [Int.toNat_natCast, ← Int.natCast_pow, Int.toNat_natCast]
  unfold schoofY at h
  obtain ⟨q2, hq2, h⟩ := Res.bind_eq_ok.1 h
  obtain ⟨-, rfl⟩ := chk_eq_ok.1 hq2
  obtain ⟨g, hg, h⟩ := Res.bind_eq_ok.1 h
  obtain ⟨om, hom, h⟩ := Res.bind_eq_ok.1 h
  obtain ⟨omg, homg, h⟩ := Res.bind_eq_ok.1 h
  obtain ⟨ps, hps, h⟩ := Res.bind_eq_ok.1 h
  obtain ⟨ps3, hps3, h⟩ := Res.bind_eq_ok.1 h
  obtain ⟨gp, hgp, h⟩ := Res.bind_eq_ok.1 h
  obtain ⟨d, hd, h⟩ := Res.bind_eq_ok.1 h
  obtain ⟨ph, hph, h⟩ := Res.bind_eq_ok.1 h
  obtain ⟨z, hz, h⟩ := Res.bind_eq_ok.1 h
  cases Res.ok.inj (hz.symm.trans hps)
  clear hz
  obtain ⟨ps2, hps2, h⟩ := Res.bind_eq_ok.1 h
  obtain ⟨xp2, hxp2, h⟩ := Res.bind_eq_ok.1 h
  obtain ⟨ee, hee, h⟩ := Res.bind_eq_ok.1 h
  obtain ⟨e, he, h⟩ := Res.bind_eq_ok.1 h
  obtain ⟨z, hz, h⟩ := Res.bind_eq_ok.1 h
  cases Res.ok.inj (hz.symm.trans hph)
  clear hz
  obtain ⟨z, hz, h⟩ := Res.bind_eq_ok.1 h
  cases Res.ok.inj (hz.symm.trans hps)
  clear hz
  obtain ⟨z, hz, h⟩ := Res.bind_eq_ok.1 h
  cases Res.ok.inj (hz.symm.trans hps2)
  clear hz
  obtain ⟨xp, hxp, h⟩ := Res.bind_eq_ok.1 h
  obtain ⟨ff, hff, h⟩ := Res.bind_eq_ok.1 h
  obtain ⟨f, hf, h⟩ := Res.bind_eq_ok.1 h
  obtain ⟨fs, hfs, h⟩ := Res.bind_eq_ok.1 h
  obtain ⟨ef, hef, h⟩ := Res.bind_eq_ok.1 h
  obtain ⟨d2, hd2, h⟩ := Res.bind_eq_ok.1 h
  obtain ⟨dm, hdm, h⟩ := Res.bind_eq_ok.1 h
  obtain ⟨z, hz, h⟩ := Res.bind_eq_ok.1 h
  cases Res.ok.inj (hz.symm.trans hps)
  clear hz
  obtain ⟨z, hz, h⟩ := Res.bind_eq_ok.1 h
  cases Res.ok.inj (hz.symm.trans hps3)
  clear hz
  obtain ⟨z, hz, h⟩ := Res.bind_eq_ok.1 h
  cases Res.ok.inj (hz.symm.trans hgp)
  clear hz
  obtain ⟨f3', hf3', h⟩ := Res.bind_eq_ok.1 h
  obtain ⟨gf, hgf, h⟩ := Res.bind_eq_ok.1 h
  obtain ⟨n3, hn3, h⟩ := Res.bind_eq_ok.1 h
  obtain ⟨z, hz, h⟩ := Res.bind_eq_ok.1 h
  cases Res.ok.inj (hz.symm.trans hps)
  clear hz
  obtain ⟨n3p, hn3p, h⟩ := Res.bind_eq_ok.1 h
  obtain ⟨num3, hnum3, h⟩ := Res.bind_eq_ok.1 h
  obtain ⟨z, hz, h⟩ := Res.bind_eq_ok.1 h
  cases Res.ok.inj (hz.symm.trans hps)
  clear hz
  obtain ⟨z, hz, h⟩ := Res.bind_eq_ok.1 h
  cases Res.ok.inj (hz.symm.trans hps3)
  clear hz
  obtain ⟨z, hz, h⟩ := Res.bind_eq_ok.1 h
  cases Res.ok.inj (hz.symm.trans hf3')
  clear hz
  obtain ⟨pf, hpf, h⟩ := Res.bind_eq_ok.1 h
  obtain ⟨z, hz, h⟩ := Res.bind_eq_ok.1 h
  cases Res.ok.inj (hz.symm.trans hps)
  clear hz
  obtain ⟨pfp, hpfp, h⟩ := Res.bind_eq_ok.1 h
  obtain ⟨den3, hden3, h⟩ := Res.bind_eq_ok.1 h
  obtain ⟨oj, hoj, h⟩ := Res.bind_eq_ok.1 h
  obtain ⟨ojf, hojf, h⟩ := Res.bind_eq_ok.1 h
  obtain ⟨num4, hnum4, h⟩ := Res.bind_eq_ok.1 h
  obtain ⟨pj, hpj, h⟩ := Res.bind_eq_ok.1 h
  obtain ⟨pjf, hpjf, h⟩ := Res.bind_eq_ok.1 h
  obtain ⟨pj3, hpj3, h⟩ := Res.bind_eq_ok.1 h
  obtain ⟨den4, hden4, h⟩ := Res.bind_eq_ok.1 h
  obtain ⟨t1, ht1, h⟩ := Res.bind_eq_ok.1 h
  obtain ⟨t2, ht2, h⟩ := Res.bind_eq_ok.1 h
  obtain ⟨p7, hp7, h⟩ := Res.bind_eq_ok.1 h
  obtain ⟨p8, hp8, h⟩ := Res.bind_eq_ok.1 h
  have vp := ev_psi hP hps
  have vph := ev_phi hP hph
  rw [← hx] at vph
  have vg := Ev.red hp hK hxy (Ev.ypow (x := EDS.xc P) (n := q ^ 2) (by positivity)) hg
  rw [hq2', e1] at vg
  have vom := Ev.mod hp hK (ev_omega hP h2 hn hom hnP) homg
  have vgp := vg.mul (vp.power3 hps3) hgp
  have vd := Ev.red hp hK hxy (vom.sub vgp) hd
  have vx2 := (Ev.cxpow (y := EDS.yc P) (x := EDS.xc P) (n := q ^ 2) (c := 2) (by positivity)).mul (vp.power2 hps2) hxp2
  rw [hq2', e2] at vx2
  have ve := Ev.red hp hK hxy (Ev.mod hp hK (vph.neg.add vx2) hee) he
  have vx1 := (Ev.xpow (y := EDS.yc P) (x := EDS.xc P) (n := q ^ 2) (by positivity)).mul (vp.power2 hps2) hxp
  rw [hq2', e2] at vx1
  have vf := Ev.red hp hK hxy (Ev.mod hp hK (vph.sub vx1) hff) hf
  have vn3 := Ev.red hp hK hxy ((vd.mul ((ve.mul (vf.power2 hfs) hef).sub (vd.power2 hd2)) hdm).sub
    (vgp.mul (vf.power3 hf3') hgf)) hn3
  have vnum3 := Ev.red hp hK hxy (vn3.mul vp hn3p) hnum3
  have vden3 := Ev.red hp hK hxy (((vp.power3 hps3).mul (vf.power3 hf3') hpf).mul vp hpfp) hden3
  have voj := ev_omega g1 h2 hj hoj hjQ
  have vpj := ev_psi g1 hpj
  rw [g2, g3] at voj vpj
  have vnum4 := Ev.red hp hK hxy (voj.frob hp hojf) hnum4
  have vden4 := Ev.red hp hK hxy ((vpj.frob hp hpjf).power3 hpj3) hden4
  have vp8 := Ev.red hp hK hxy (Ev.mod hp hK ((vnum3.mul vden4 ht1).sub (vnum4.mul vden3 ht2)) hp7) hp8
  have hF : EDS.F P n ≠ 0 := fun hz => hnP ((EDS.F_eq_zero_iff h2 hP n (by omega)).1 hz)
  have hFj : EDS.F (frobPoint q.toNat a b P) j ≠ 0 := fun hz => hjQ ((EDS.F_eq_zero_iff h2 g1 j (by omega)).1 hz)
  have key : ∀ (c u : K) (p9 : Poly), u ≠ 0 → EvU (EDS.xc P) (EDS.yc P) p9 (c * u) → (do
      let p9 ← p9.modularAssign q
      let p9 ← polynomialModular fuel p9 psiL q
      Res.ok (ModResult.mk l (if (if (!p9.isZero) = true then -(j : ℤ) else j) < 0 then
        (if (!p9.isZero) = true then -(j : ℤ) else j) + l else (if (!p9.isZero) = true then -(j : ℤ) else j)))) = .ok r →
      c = 0 := by
    intro c u p9 hu hv h
    obtain ⟨p9', h9', h⟩ := Res.bind_eq_ok.1 h
    obtain ⟨p9'', h9'', h⟩ := Res.bind_eq_ok.1 h
    have v9 := EvU.polyMod hp hK hy (EvU.ofEv hpl) (EvU.mod hp hK hv h9') h9''
    simp only [Res.ok.injEq] at h
    subst h
    simp only at hr
    cases hz : p9''.isZero with
    | true => exact (mul_eq_zero.1 (v9.isZero hz)).resolve_right hu
    | false =>
      exfalso
      rw [hz] at hr
      simp only [Bool.not_false, if_true] at hr
      split_ifs at hr <;> omega
  have fin : ∀ c : K, Ev (EDS.xc P) (EDS.yc P) p8 c → c = 0 := by
    intro c hc
    dsimp only at h
    split_ifs at h with hY
    · obtain ⟨p9, h9, h⟩ := Res.bind_eq_ok.1 h
      exact key c _ p9 (inv_ne_zero hy) (EvU.divY hy (EvU.ofEv hc) h9) h
    · exact key c 1 p8 one_ne_zero ((EvU.ofEv hc).congr (mul_one c).symm) h
  have hfin := fin _ vp8
  rw [hA] at *
  apply mul_left_cancel₀ (mul_ne_zero (pow_ne_zero 10 hF) (pow_ne_zero 3 hFj))
  push_cast at hfin
  linear_combination hfin

end
end EC
