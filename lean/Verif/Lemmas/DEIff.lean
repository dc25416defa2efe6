import Verif.Lemmas.DETail2
import Verif.Spec.SchoofDomain

/-! When cases (d) and (e) of `schoof` return, for `q = 1` modulo `l`. -/

namespace EC
open Poly Polynomial WeierstrassCurve EDS

theorem psi_odd_polyX {a b : ℤ} {l : ℕ} (hl : l % 2 = 1) {c : Poly} (h : psi a b l = .ok c) (R : Type) [CommRing R] :
    c.All Key.IsX ∧ c.polyX R = (shortW (a : R) (b : R)).preΨ' l := by
  obtain ⟨-, h1, h2⟩ := C29_psi _ _ _ _ h
  have hall : c.All (fun k => k.IsXY ∧ k.y = 0) := fun e he => by
    obtain ⟨k1, k2, k3, k4⟩ := h2 e he
    rw [if_neg (by omega)] at k2
    exact ⟨⟨k1, k2.ge, k3, SubVar.key_eq_none.2 k4⟩, k2⟩
  obtain ⟨hX, hC⟩ := polyXY_of_y0 hall
  refine ⟨hX, ?_⟩
  have hz : c.polyX ℤ = (shortW a b).preΨ' l := by
    have := hC.symm.trans h1
    rw [WeierstrassCurve.Ψ_ofNat, if_neg (by rw [Nat.not_even_iff]; exact hl), mul_one] at this
    exact C_injective this
  have : c.polyX R = (c.polyX ℤ).map (Int.castRingHom R) := by
    ext n
    rw [coeff_map, polyX_coeff hX, polyX_coeff hX]
    simp
  rw [this, hz, ← WeierstrassCurve.map_preΨ']
  congr 1
  simp [WeierstrassCurve.map]

/-- The last test of cases (d) and (e), for `w = 1`; src/schoof.rs:207-231. -/
def deTail (fuel : Nat) (a b q l : Int) : Res ModResult :=
      if ¬ InI32 a then .panic .unwrapNone
      else do
        let p16 ← ((← Poly.termMul (TermBuilder.new.ypow a).build (← (← psi a b 1).power 3)).sub
          (← omega a b 1)).divTerm (TermBuilder.new.ypow 1).build
        let p16 ← p16.modularAssign q
        let p17 ← p16.reductionModular a b q
        let one ← p17.isGcdOne fuel (← psi a b l) q
        let ww := if one then -2 * 1 else 2 * 1
        let ww := if ww < 0 then ww + l else ww
        .ok { l := l, r := ww }

section
variable {K : Type} [Field K] [DecidableEq K] [IsAlgClosed K] {a b q : ℤ} [hp : Fact (Nat.Prime q.toNat)] [CharP K q.toNat]
  {fuel : ℕ}

omit hp in
theorem exists_tors_y (h2K : (2 : K) ≠ 0) {a b : K} (hd : 4 * a ^ 3 + 27 * b ^ 2 ≠ 0) {l : ℕ} (hl : l % 2 = 1)
    (hl1 : 3 ≤ l) (hlK : (l : K) ≠ 0) : ∃ P : Pt a b, P ≠ 0 ∧ l • P = 0 ∧ yc P ≠ 0 := by
  obtain ⟨u, hu, huP⟩ := card_torsion_x h2K hd (n := l) (by exact_mod_cast hlK)
  have : u.Nonempty := by
    rw [← Finset.card_pos]
    have : 8 ≤ l ^ 2 - 1 := by
      have : 9 ≤ l ^ 2 := by nlinarith
      omega
    omega
  obtain ⟨x, hx⟩ := this
  obtain ⟨P, h4, h5, -⟩ := huP x hx
  refine ⟨P, h4, h5, fun h0 => ?_⟩
  have : F P 2 = 0 := by rw [F_two, h0, mul_zero]
  have := (F_eq_zero_iff h2K h4 2 (by norm_num)).1 this
  have h6 : l = 2 * (l / 2) + 1 := by omega
  rw [h6, add_smul, mul_comm, mul_smul, this, smul_zero, one_smul, zero_add] at h5
  exact h4 h5

theorem goodMod {l : ℕ} (hl : l = 3 ∨ l = 5) (hlq : (l : ℤ) < q) {ps : Poly} (hps : psi a b l = .ok ps) : GoodMod q ps := by
  have hpr := hp.out
  have hlead : ps.deg = (if l = 3 then 4 else 12) ∧ ps.highestTermX.coef = l ∧ ps.All Key.IsX := by
    rcases hl with rfl | rfl
    · obtain ⟨h1, h2⟩ := psi3_deg hps
      exact ⟨by rw [h1]; rfl, h2, (psi3_polyX hps ℤ).1⟩
    · obtain ⟨h1, h2⟩ := psi5_deg hps
      exact ⟨by rw [h1]; rfl, h2, (psi5_polyX hps ℤ).1⟩
  obtain ⟨h1, h2, h3⟩ := hlead
  obtain ⟨c, hc, hb⟩ := bd_psi (a := a) (b := b) (n := l) (by omega) (by rcases hl with rfl | rfl <;> norm_num)
  rw [hps] at hc; cases hc
  refine ⟨h3, ?_, ?_, fun e he => ?_⟩
  · rw [h1]; split_ifs <;> omega
  · rw [h2]
    intro h0
    have := Int.le_of_dvd (by omega) h0
    omega
  · have : e.1.xpow ≤ 17 := (hb e he).2.1
    omega

variable (K) in
include K in
theorem deTail_ok {l : ℕ} (hl : l = 3 ∨ l = 5) (hlq : (l : ℤ) < q)
    (h2 : q ≠ 2) (hns : ¬ q ∣ 4 * a ^ 3 + 27 * b ^ 2) (r : ModResult) (h : deTail fuel a b q l = .ok r) :
    TailOk a b q l := by
  have hq := two_le_of_prime (p := q) hp.out
  obtain ⟨h2K, h3K, hd⟩ := char_nonzero_data (K := K) (a := a) (b := b) h2 hns (by omega)
  have hK := char_smulK (K := K) (q := q) (by omega)
  unfold deTail at h
  by_cases hI : InI32 a
  swap
  · rw [if_pos hI] at h; cases h
  rw [if_neg (not_not.2 hI)] at h
  obtain ⟨s1, hs1, h⟩ := Res.bind_eq_ok.1 h
  obtain ⟨s3, hs3, h⟩ := Res.bind_eq_ok.1 h
  obtain ⟨f1, hf1, h⟩ := Res.bind_eq_ok.1 h
  obtain ⟨om, hom, h⟩ := Res.bind_eq_ok.1 h
  obtain ⟨p16, h16, h⟩ := Res.bind_eq_ok.1 h
  obtain ⟨p16', h16', h⟩ := Res.bind_eq_ok.1 h
  obtain ⟨p17, h17, h⟩ := Res.bind_eq_ok.1 h
  obtain ⟨ps, hps, h⟩ := Res.bind_eq_ok.1 h
  obtain ⟨o, ho, -⟩ := Res.bind_eq_ok.1 h
  have hg := goodMod hl hlq hps
  obtain ⟨hA, hL⟩ := p16_spec (show 1 ≤ q by omega) hs1 hs3 hf1 hom h16 h16'
  have hodd : l % 2 = 1 := by rcases hl with rfl | rfl <;> rfl
  have hlK : (l : K) ≠ 0 := by
    intro h0
    have := (CharP.cast_eq_zero_iff K q.toNat l).1 h0
    have := Nat.le_of_dvd (by rcases hl with rfl | rfl <;> norm_num) this
    omega
  by_cases ha0 : a ≤ 0
  · exact absurd ho (tail_neg ha0 hg hA (hL zmod_smul) h17 o)
  by_cases hev : a % 2 = 0
  · exfalso
    obtain ⟨P, hP, hlP, hy⟩ := exists_tors_y (a := (a : K)) (b := b) h2K hd hodd (by omega) hlK
    have hF := (F_eq_zero_iff h2K hP l (by omega)).2 hlP
    have hP' : -P ≠ 0 := neg_ne_zero.2 hP
    have hF' := (F_eq_zero_iff h2K hP' l (by omega)).2 (by rw [smul_neg, hlP, neg_zero])
    have g1 := (ev_psi hP hps).congr hF
    have g2 := (ev_psi hP' hps).congr hF'
    rw [xc_neg, yc_neg] at g2
    exact tail_even (by omega) hev h2K hA (hL hK) h17 (eqn hP) hy g1 g2 o ho
  by_cases ha1 : a = 1
  · subst ha1
    exact absurd ho (tail_one hg hA (hL zmod_smul) h17 o)
  obtain ⟨t1, t2, t3, t4, t5⟩ := tail_odd (by omega) (by omega) hA (hL hK) h17
  refine ⟨by omega, by omega, t4, fun hc => ?_⟩
  rw [← t5, dpoly, ← (psi_odd_polyX hodd hps (ZMod q.toNat)).2] at hc
  have := (C17_is_gcd_one_refuted q p17 ps t1 t2 t3 hg.isX hg.bd hg.lead).2 hc fuel
  cases ho.symm.trans this

omit [IsAlgClosed K] [CharP K q.toNat] [DecidableEq K] in
theorem bd_divY' {X Y : ℤ} {f : Poly} (hf : f.All (Bd X Y)) (hX : X ≤ 2147483647) (hY : Y ≤ 2147483647) :
    ∃ c, f.divTerm (TermBuilder.new.ypow 1).build = .ok c := by
  unfold divTerm
  apply div_single_ok (ypow_entries 1) rfl one_ne_zero
  intro e he
  obtain ⟨⟨h1, h2, h3, h4⟩, h5, h6⟩ := hf e he
  simp only [Monomial.key] at *
  refine ⟨⟨?_, ?_⟩, ⟨?_, ?_⟩, ⟨?_, ?_⟩⟩ <;> omega

variable (K) in
include K in
theorem deTail_total {l : ℕ} (hl : l = 3 ∨ l = 5) (hlq : (l : ℤ) < q) (h : TailOk a b q l) :
    Tot (fun fuel => deTail fuel a b q l) fun _ => True := by
  obtain ⟨hev, ha3, hab, hco⟩ := h
  have hq := two_le_of_prime (p := q) hp.out
  have hK := char_smulK (K := K) (q := q) (by omega)
  have hodd : l % 2 = 1 := by rcases hl with rfl | rfl <;> rfl
  unfold deTail
  simp only [show InI32 a from ⟨by omega, by omega⟩, not_true_eq_false, if_false]
  refine Tot.bindC' (bd_psi' (n := 1) (by omega) (by omega)) fun s1 hs1 _ => ?_
  have bs1 : s1.All (Bd 0 0) := by
    rw [← Res.ok.inj ((psi_one a b).symm.trans hs1)]
    exact all_toPol fun _ => by
      simp [TermBuilder.new, TermBuilder.build, Monomial.key, SubVar.key, SubVar.new, Bd, Key.IsXY]
  refine Tot.bindC' (bd_power (n := 3) (by omega) (by omega) (by omega) bs1 (by omega) (by omega)) fun s3 hs3 bs3 => ?_
  refine Tot.bindC' (bd_ymul1 (n := a) (by omega) bs3 (by omega) (by omega)) fun f1 hf1 bf1 => ?_
  refine Tot.bindC' (bd_omega' (n := 1) (by omega) (by omega)) fun om hom bom => ?_
  obtain ⟨p16, h16⟩ := bd_divY' (bd_sub (bd_mono bf1 (show _ ≤ (6 : ℤ) by omega) (show _ ≤ a by omega))
    (bd_mono bom le_rfl (show (1 : ℤ) ≤ a by omega))) (by omega) (by omega)
  rw [h16]
  simp only [Res.ok_bind]
  obtain ⟨p16', h16', -⟩ := modularAssign_ok p16 (show 0 < q by omega)
  rw [h16']
  simp only [Res.ok_bind]
  obtain ⟨hA, hL⟩ := p16_spec (show 1 ≤ q by omega) hs1 hs3 hf1 hom h16 h16'
  have b16 : p16'.All (Bd 0 (a - 1)) := hA.mono (by
    rintro k (rfl | rfl)
    · exact ⟨⟨le_rfl, by simp only [yk]; omega, rfl, rfl⟩, le_rfl, le_rfl⟩
    · exact ⟨⟨le_rfl, le_rfl, rfl, rfl⟩, le_rfl, by simp only [yk]; omega⟩)
  obtain ⟨p17, h17, -⟩ := bd_reduce (a := a) (b := b) (p := q) (by omega) (by omega) b16 (by omega)
  rw [h17]
  simp only [Res.ok_bind]
  refine Tot.bindC' (bd_psi (n := l) (by omega) (by rcases hl with rfl | rfl <;> norm_num)) fun ps hps _ => ?_
  obtain ⟨t1, t2, t3, t4, t5⟩ := tail_odd (K := K) (by omega) (by omega) hA (hL hK) h17
  have hg := goodMod hl hlq hps
  rw [← t5, dpoly, ← (psi_odd_polyX hodd hps (ZMod q.toNat)).2] at hco
  have := (C17_is_gcd_one_refuted q p17 ps t1 t2 t3 hg.isX hg.bd hg.lead).1 hco
  exact Tot.bindR (Q := fun _ => True) ⟨_, this, trivial⟩ fun o _ _ _ => Tot.ok trivial

theorem dpoly_three (c : ℤ) (b : ℤ) : dpoly q c b 3 =
    C 3 * X ^ 4 + C (6 * (c : ZMod q.toNat)) * X ^ 2 + C (12 * (b : ZMod q.toNat)) * X - C ((c : ZMod q.toNat) ^ 2) := by
  unfold dpoly
  rw [WeierstrassCurve.preΨ'_three]
  simp only [WeierstrassCurve.Ψ₃, WeierstrassCurve.b₂, WeierstrassCurve.b₄,
    WeierstrassCurve.b₆, WeierstrassCurve.b₈]
  simp only [map_mul, map_add, map_sub, map_pow, map_ofNat, map_zero, map_neg]
  ring

theorem dpoly_five (c : ℤ) (b : ℤ) : dpoly q c b 5 = psi5 (c : ZMod q.toNat) b := by
  unfold dpoly
  have h := psi5_eq c b
  have h2 := congrArg (Polynomial.map (Int.castRingHom (ZMod q.toNat))) h
  rw [← WeierstrassCurve.map_preΨ', psi5_map] at h2
  have e : (shortW c b).map (Int.castRingHom (ZMod q.toNat)) = shortW (c : ZMod q.toNat) (b : ZMod q.toNat) := by
    simp [WeierstrassCurve.map]
  rw [e] at h2
  simpa using h2

/-- The first test of cases (d) and (e) for `w = 1`. -/
theorem de_zero {l : ℕ} (hl : l = 3 ∨ l = 5) (hlq : (l : ℤ) < q) (h1 : q % l = 1) (hi : q ≤ 2147483647)
    {s1 s2 s3 ph p12 p13 ps p14 p15 : Poly}
    (hs1 : psi a b 1 = .ok s1) (hs2 : s1.power 2 = .ok s2)
    (hs3 : Poly.termMul (TermBuilder.new.xpow q).build s2 = .ok s3) (hph : phi a b 1 = .ok ph)
    (hp12 : (s3.sub ph).modularAssign q = .ok p12) (hp13 : p12.reductionModular a b q = .ok p13)
    (hps : psi q b l = .ok ps) (hp14 : ps.rem q = .ok p14) (hp15 : p13.polynomialModular fuel p14 q = .ok p15) :
    p15.isZero = true ↔ dpoly q 0 b l ∣ X ^ q.toNat - X := by
  rcases hl with rfl | rfl
  · rw [de_three_zero hi h1 hs1 hs2 hs3 hph hp12 hp13 hps hp14 hp15, ← cube_iff (p := q.toNat) (by omega), dpoly_three]
    have : C (12 * (b : ZMod q.toNat)) = C 3 * C (4 * (b : ZMod q.toNat)) := by
      rw [← C_mul]; congr 1; ring
    rw [this, Int.cast_zero, mul_zero, zero_pow (by norm_num), C_0]
    have e : C 3 * X ^ 4 + 0 * X ^ 2 + C 3 * C (4 * (b : ZMod q.toNat)) * X - 0 =
      C 3 * (X * (X ^ 3 + C (4 * (b : ZMod q.toNat)))) := by ring
    rw [e]
  · rw [de_five_zero hi (by exact_mod_cast hlq) hs1 hs2 hs3 hph hp12 hp13 hps hp14 hp15, dpoly_five, Int.cast_zero]

theorem find_l_one {l : ℕ} (hl : l = 3 ∨ l = 5) : (irange 1 l).find? (fun i => Int.fmod (i ^ 2) l = 1) = some 1 := by
  rcases hl with rfl | rfl <;> decide

variable (K) in
include K in
theorem schoofDE_one_ok {l : ℕ} (hl : l = 3 ∨ l = 5) (hlq : (l : ℤ) < q) (h1 : q % l = 1) (hi : q ≤ 2147483647)
    (h2 : q ≠ 2) (hns : ¬ q ∣ 4 * a ^ 3 + 27 * b ^ 2) (r : ModResult) (h : schoofDE fuel a b q l 1 = .ok r)
    (hz : dpoly q 0 b l ∣ X ^ q.toNat - X) : TailOk a b q l := by
  unfold schoofDE at h
  rw [find_l_one hl] at h
  dsimp only at h
  obtain ⟨s1, hs1, h⟩ := Res.bind_eq_ok.1 h
  obtain ⟨s2, hs2, h⟩ := Res.bind_eq_ok.1 h
  obtain ⟨s3, hs3, h⟩ := Res.bind_eq_ok.1 h
  obtain ⟨ph, hph, h⟩ := Res.bind_eq_ok.1 h
  obtain ⟨p12, hp12, h⟩ := Res.bind_eq_ok.1 h
  obtain ⟨p13, hp13, h⟩ := Res.bind_eq_ok.1 h
  obtain ⟨ps, hps, h⟩ := Res.bind_eq_ok.1 h
  obtain ⟨p14, hp14, h⟩ := Res.bind_eq_ok.1 h
  obtain ⟨p15, hp15, h⟩ := Res.bind_eq_ok.1 h
  have hz' := (de_zero hl hlq h1 hi hs1 hs2 hs3 hph hp12 hp13 hps hp14 hp15).2 hz
  rw [if_neg (by simpa using hz')] at h
  exact deTail_ok K hl hlq h2 hns r h

variable (K) in
include K in
theorem schoofDE_one_total {l : ℕ} (hl : l = 3 ∨ l = 5) (hlq : (l : ℤ) < q) (h1 : q % l = 1) (hi : q ≤ 100000000)
    (hz : dpoly q 0 b l ∣ X ^ q.toNat - X → TailOk a b q l) : Tot (fun fuel => schoofDE fuel a b q l 1) fun _ => True := by
  have hq := two_le_of_prime (p := q) hp.out
  have hodd : l % 2 = 1 := by rcases hl with rfl | rfl <;> rfl
  have hl6 : (l : ℤ) ≤ 6 := by rcases hl with rfl | rfl <;> norm_num
  have hl3 : 3 ≤ l := by rcases hl with rfl | rfl <;> norm_num
  unfold schoofDE
  rw [find_l_one hl]
  dsimp only
  refine Tot.bindC' (bd_psi (by omega) (by omega)) fun s1 hs1 bs1 => ?_
  refine Tot.bindC' (bd_power (n := 2) (by omega) (by omega) (by omega) bs1 (by omega) (by omega)) fun s2 hs2 bs2 => ?_
  refine Tot.bindC' (bd_xmul1 (by omega) bs2 (by omega) (by omega)) fun s3 hs3 bs3 => ?_
  refine Tot.bindC' (bd_phi (by omega) (by omega)) fun ph hph bph => ?_
  refine Tot.bindC' (bd_modular (by omega) (bd_sub bs3 bph)) fun p12 hp12 bp12 => ?_
  refine Tot.bindC' (bd_reduce (by omega) (by omega) bp12 (by omega)) fun p13 hp13 bp13 => ?_
  refine Tot.bindC' (bd_psi (by omega) (by omega)) fun ps hps bps => ?_
  refine Tot.bindC' (bd_rem (by omega) bps) fun p14 hp14 bp14 => ?_
  obtain ⟨w1, w2, w3⟩ := psi_lead (l := l) hodd hl3 hlq hps hp14
  obtain ⟨g, hg⟩ := polynomialModular_total hp.out w1 w2 w3 (fun e he => (bp13 e he).bu) (by omega)
  refine Tot.bindR (Q := fun _ => True) ⟨g, hg, trivial⟩ fun p15 N hN _ => ?_
  have hz' := de_zero hl hlq h1 (by omega) hs1 hs2 hs3 hph hp12 hp13 hps hp14 (hN N le_rfl)
  cases h : p15.isZero with
  | false => exact Tot.ok trivial
  | true => exact deTail_total K hl hlq (hz (hz'.1 h))

variable (K) in
include K in
/-- Case (d) with `w = 2` always ends at the first test. -/
theorem schoofDE_four_total (h2 : q ≠ 2) (h5q : 5 < q) (h4 : q % 5 = 4) (hi : q ≤ 100000000)
    (hns : ¬ q ∣ 4 * a ^ 3 + 27 * b ^ 2)
    (hF : ∀ P : Pt (a : K) b, (5 : ℤ) • P = 0 → frobPoint q.toNat a b (frobPoint q.toNat a b P) + q • P = 0) :
    Tot (fun fuel => schoofDE fuel a b q 5 4) fun _ => True := by
  have hpr : Nat.Prime q.toNat := Fact.out
  have hq := two_le_of_prime (p := q) hpr
  obtain ⟨h2K, h3K, hd⟩ := char_nonzero_data (K := K) (a := a) (b := b) h2 hns (by omega)
  have h5K : (5 : K) ≠ 0 := by
    intro h0
    have := (CharP.intCast_eq_zero_iff K q.toNat 5).1 (by exact_mod_cast h0)
    rw [Int.toNat_of_nonneg (by omega)] at this
    have := Int.le_of_dvd (by norm_num) this
    omega
  unfold schoofDE
  rw [find_five_four]
  dsimp only
  refine Tot.bindC' (bd_psi (by omega) (by omega)) fun s1 hs1 bs1 => ?_
  refine Tot.bindC' (bd_power (n := 2) (by omega) (by omega) (by omega) bs1 (by omega) (by omega)) fun s2 hs2 bs2 => ?_
  refine Tot.bindC' (bd_xmul1 (by omega) bs2 (by omega) (by omega)) fun s3 hs3 bs3 => ?_
  refine Tot.bindC' (bd_phi (by omega) (by omega)) fun ph hph bph => ?_
  refine Tot.bindC' (bd_modular (by omega) (bd_sub bs3 bph)) fun p12 hp12 bp12 => ?_
  refine Tot.bindC' (bd_reduce (by omega) (by omega) bp12 (by omega)) fun p13 hp13 bp13 => ?_
  refine Tot.bindC' (bd_psi (by omega) (by omega)) fun ps hps bps => ?_
  refine Tot.bindC' (bd_rem (by omega) bps) fun p14 hp14 bp14 => ?_
  obtain ⟨w1, w2, w3⟩ := psi_lead (l := 5) rfl (by norm_num) h5q hps hp14
  obtain ⟨g, hg⟩ := polynomialModular_total hp.out w1 w2 w3 (fun e he => (bp13 e he).bu) (by omega)
  refine Tot.bindR (Q := fun _ => True) ⟨g, hg, trivial⟩ fun p15 N hN _ => ?_
  cases h : p15.isZero with
  | false => exact Tot.ok trivial
  | true =>
    exact (five_two_false h2 h5q h4 hns h5K hF hs1 hs2 hs3 hph hp12 hp13 hps hp14 (hN N le_rfl) h).elim

end
end EC
