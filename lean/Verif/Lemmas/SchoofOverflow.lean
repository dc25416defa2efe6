import Verif.Lemmas.Weight
import Verif.Lemmas.Bounds

/-! For large `q` an exponent inside `schoof` overflows. -/

namespace EC
open Poly Polynomial WeierstrassCurve

/-- The exponent of `y` is between 0 and `Y`. -/
def Yd (Y : ℤ) (k : Key) : Prop := 0 ≤ k.y ∧ k.y ≤ Y

theorem yd_mul {f g h : Poly} {Y Z : ℤ} (hf : f.All (Yd Y)) (hg : g.All (Yd Z)) (e : f.mul g = .ok h) :
    h.All (Yd (Y + Z)) :=
  all_mul hf hg (fun k k' h1 h2 _ => ⟨by have := h1.1; have := h2.1; simp only [Key.mul]; omega,
    by have := h1.2; have := h2.2; simp only [Key.mul]; omega⟩) e

theorem yd_powLoop : ∀ (e : ℤ) (b r c : Poly) (Y Z : ℤ), 1 ≤ e → b.All (Yd Y) → r.All (Yd Z) →
    Poly.powLoop e b r = .ok c → c.All (Yd (Z + e * Y)) := by
  intro e
  induction hn : e.toNat using Nat.strong_induction_on generalizing e with
  | _ n ih =>
    intro b r c Y Z he hb hr h
    rw [Poly.powLoop] at h
    split_ifs at h with h1 h2
    · obtain ⟨r', hr', h⟩ := Res.bind_eq_ok.1 h
      obtain ⟨b', hb', h⟩ := Res.bind_eq_ok.1 h
      rw [tdiv2 (by omega)] at h
      have := ih _ (by omega) (e / 2) rfl b' r' c _ _ (by omega) (yd_mul hb hb hb') (yd_mul hr hb hr') h
      have e2 : Z + Y + e / 2 * (Y + Y) = Z + e * Y := by
        have : e = 2 * (e / 2) + 1 := by omega
        generalize e / 2 = u at *; subst this; ring
      rwa [e2] at this
    · rw [Res.ok_bind] at h
      obtain ⟨b', hb', h⟩ := Res.bind_eq_ok.1 h
      rw [tdiv2 (by omega)] at h
      have := ih _ (by omega) (e / 2) rfl b' r c _ _ (by omega) (yd_mul hb hb hb') hr h
      have e2 : Z + e / 2 * (Y + Y) = Z + e * Y := by
        have : e = 2 * (e / 2) := by omega
        generalize e / 2 = u at *; subst this; ring
      rwa [e2] at this
    · have : e = 1 := by omega
      subst this
      rw [one_mul]
      exact yd_mul hr hb h

theorem yd_power {f g : Poly} {Y n : ℤ} (hn : 1 ≤ n) (hf : f.All (Yd Y)) (e : f.power n = .ok g) :
    g.All (Yd (n * Y)) := by
  unfold Poly.power at e
  obtain ⟨_, -, e⟩ := Res.bind_eq_ok.1 e
  rw [if_neg (by omega)] at e
  have := yd_powLoop n f one g Y 0 hn hf (all_one ⟨le_rfl, le_rfl⟩) e
  rwa [zero_add] at this

theorem yd_mono {f : Poly} {Y Z : ℤ} (h : f.All (Yd Y)) (hYZ : Y ≤ Z) : f.All (Yd Z) :=
  h.mono fun _ hk => ⟨hk.1, hk.2.trans hYZ⟩

theorem yd_bd {f : Poly} {D Y : ℤ} (h : f.All (Bd D Y)) : f.All (Yd Y) :=
  h.mono fun k hk => by
    have h1 := hk.1.2.1
    have h2 := hk.2.2
    exact ⟨h1, h2⟩

section
variable {p : ℕ} [hp : Fact (Nat.Prime p)] {a b : ℤ}

theorem evR_alg (f : ℤ[X][X]) : evR (GK p a b) (gx p a b) (gy p a b) f =
    algebraMap (GC p a b) (GK p a b) (Affine.CoordinateRing.mk (GW p a b) (f.map (mapRingHom (Int.castRingHom (ZMod p))))) := by
  have : evR (GK p a b) (gx p a b) (gy p a b) = ((algebraMap (GC p a b) (GK p a b)).comp
      (Affine.CoordinateRing.mk (GW p a b))).comp (mapRingHom (mapRingHom (Int.castRingHom (ZMod p)))) := by
    apply Polynomial.ringHom_ext
    · intro g
      have : ((evR (GK p a b) (gx p a b) (gy p a b)).comp C) = (((algebraMap (GC p a b) (GK p a b)).comp
          (Affine.CoordinateRing.mk (GW p a b))).comp (mapRingHom (mapRingHom (Int.castRingHom (ZMod p))))).comp C := by
        apply Polynomial.ringHom_ext
        · intro n
          simp [evR]
        · simp [evR, gx]
      exact congrArg (fun φ => φ g) this
    · simp [evR, gy]
  rw [this]
  rfl

theorem ev_psi_gen {n : ℤ} {f : Poly} (hn : ((n : ℤ) : ZMod p) ≠ 0) (hf : psi a b n = .ok f) :
    ∃ c : GK p a b, Ev (gx p a b) (gy p a b) f c ∧ WGe c 0 := by
  refine ⟨_, ev_of_polyXY (psi_spec _ _ _ _ hf).2.isXY, ?_⟩
  rw [(C29_psi _ _ _ _ hf).2.1, evR_alg, ← map_Ψ]
  refine ⟨_, rfl, ?_⟩
  refine gdeg_nonneg fun h0 => ?_
  have h1 := Affine.CoordinateRing.mk_Ψ_sq (GW p a b) n
  have e : (shortW a b).map (Int.castRingHom (ZMod p)) = GW p a b := by
    simp [WeierstrassCurve.map]
  rw [e] at h0
  rw [h0, zero_pow two_ne_zero] at h1
  have h2 := gdeg_basis (p := p) (a := a) (b := b) ((GW p a b).ΨSq n) 0
  rw [zero_smul, add_zero, Affine.CoordinateRing.smul, mul_one, ← h1, gdeg_zero] at h2
  have h3 : (GW p a b).ΨSq n ≠ 0 := fun h => by
    have := (GW p a b).coeff_ΨSq_ne_zero hn
    rw [h] at this
    exact this (coeff_zero _)
  rw [← degree_ne_bot] at h3
  obtain ⟨m, hm⟩ := WithBot.ne_bot_iff_exists.1 h3
  rw [← hm] at h2
  have h4 := h2.symm.le
  rw [max_le_iff, nsmul_eq_mul] at h4
  exact absurd h4.1 (by rw [le_bot_iff]; exact WithBot.coe_ne_bot (a := 2 * m))

theorem ev_bd {f : Poly} {D Y : ℕ} (h : f.All (Bd D Y)) :
    ∃ c : GK p a b, Ev (gx p a b) (gy p a b) f c ∧ WLe c (2 * D + 3 * Y) := by
  have hx : f.All Key.IsXY := h.mono fun k hk => hk.1
  refine ⟨_, ⟨hx, rfl⟩, Ev.wle ⟨hx, rfl⟩ fun e he => ?_⟩
  have h1 := (h e he).2.1
  have h2 := (h e he).2.2
  push_cast
  omega

/-- Two factors with large values overflow. -/
theorem mul_overflow {f g h : Poly} {c d : GK p a b} {W V : ℕ} {Y Z : ℤ} (hf : Ev (gx p a b) (gy p a b) f c)
    (hg : Ev (gx p a b) (gy p a b) g d) (hc : WGe c W) (hd : WGe d V) (hW : 0 < W) (hV : 0 < V)
    (yf : f.All (Yd Y)) (yg : g.All (Yd Z)) (hm : f.mul g = .ok h) : (W : ℤ) + V ≤ 3 * (Y + Z) + 4294967294 := by
  obtain ⟨e, he, h1⟩ := hf.exists_entry hc hW
  obtain ⟨e', he', h2⟩ := hg.exists_entry hd hV
  have h3 := ((mul_eq_ok hm).1 e he e' he').2.1.2
  have h4 := (yf e he).2
  have h5 := (yg e' he').2
  omega

end

section
variable {a b q ql : ℤ} [hp : Fact (Nat.Prime q.toNat)]

local notation "x₀" => gx q.toNat a b
local notation "y₀" => gy q.toNat a b

theorem yd_phi {f : Poly} (h1 : 1 ≤ ql) (h5 : ql ≤ 5) (hf : phi a b ql = .ok f) :
    f.All (Yd 0) ∧ ∃ c : GK q.toNat a b, Ev x₀ y₀ f c ∧ WLe c 83 := by
  obtain ⟨f', hf', h⟩ := bd_phi (a := a) (b := b) h1 h5
  rw [hf] at hf'; cases hf'
  exact ⟨fun e he => by have := ((C30_phi a b ql f hf).2.1 e he).2.1; exact ⟨this.ge, this.le⟩, ev_bd (D := 40) (Y := 1) h⟩

theorem yd_psi {f : Poly} (h1 : 1 ≤ ql) (h5 : ql ≤ 5) (hlq : ql < q) (hf : psi a b ql = .ok f) :
    f.All (Yd 1) ∧ ∃ c : GK q.toNat a b, Ev x₀ y₀ f c ∧ WGe c 0 := by
  refine ⟨fun e he => by
    have := ((C29_psi a b ql f hf).2.2 e he).2.1
    refine ⟨?_, ?_⟩ <;> simp only [Monomial.key] <;> split_ifs at this <;> omega, ev_psi_gen ?_ hf⟩
  intro h0
  rw [ZMod.intCast_zmod_eq_zero_iff_dvd, Int.toNat_of_nonneg (by omega)] at h0
  have := Int.le_of_dvd (by omega) h0
  omega

/-- The first products overflow for `q ≥ 26755`. -/
theorem numDen1_large (h1 : 1 ≤ ql) (h5 : ql ≤ 4) (hq : 26755 ≤ q) (r : Poly × Poly) :
    schoofNumDen1 a b q ql ≠ .ok r := by
  intro h
  unfold schoofNumDen1 at h
  obtain ⟨om, hom, h⟩ := Res.bind_eq_ok.1 h
  obtain ⟨nn1, hnn1, h⟩ := Res.bind_eq_ok.1 h
  obtain ⟨Q, hQ, h⟩ := Res.bind_eq_ok.1 h
  obtain ⟨p1, hp1, h⟩ := Res.bind_eq_ok.1 h
  obtain ⟨p13, hp13, h⟩ := Res.bind_eq_ok.1 h
  obtain ⟨nn2, hnn2, h⟩ := Res.bind_eq_ok.1 h
  obtain ⟨nn2', hnn2', h⟩ := Res.bind_eq_ok.1 h
  obtain ⟨s1, hs1, h⟩ := Res.bind_eq_ok.1 h
  obtain ⟨n1, hn1, h⟩ := Res.bind_eq_ok.1 h
  obtain ⟨f1, hf1, h⟩ := Res.bind_eq_ok.1 h
  obtain ⟨p2, hp2, h⟩ := Res.bind_eq_ok.1 h
  obtain ⟨p22, hp22, h⟩ := Res.bind_eq_ok.1 h
  obtain ⟨x1, hx1, h⟩ := Res.bind_eq_ok.1 h
  obtain ⟨f2, hf2, h⟩ := Res.bind_eq_ok.1 h
  obtain ⟨p3, hp3, h⟩ := Res.bind_eq_ok.1 h
  obtain ⟨p32, hp32, h⟩ := Res.bind_eq_ok.1 h
  obtain ⟨x2, hx2, h⟩ := Res.bind_eq_ok.1 h
  obtain ⟨n3, hn3, h⟩ := Res.bind_eq_ok.1 h
  obtain ⟨m, hm, h⟩ := Res.bind_eq_ok.1 h
  rw [hf1] at hf2; cases hf2
  rw [hp2] at hp3; cases hp3
  rw [hp22] at hp32; cases hp32
  rw [hx1] at hx2; cases hx2
  have hQ' : Q = q ^ 2 := by
    unfold chk at hQ
    split_ifs at hQ
    cases hQ; rfl
  have hQ2 : 715830025 ≤ Q := by rw [hQ']; nlinarith
  obtain ⟨Q, rfl⟩ : ∃ n : ℕ, Q = n := ⟨Q.toNat, by omega⟩
  obtain ⟨yf, F, evF, wF⟩ := yd_phi (q := q) (by omega) (by omega) hf1
  obtain ⟨yp, P, evP, wP⟩ := yd_psi (q := q) (by omega) (by omega) (by omega) hp2
  have evX := Ev.xpow (x := x₀) (y := y₀) (n := Q) (by omega)
  have yX : (TermBuilder.new.xpow Q).build.toPol.All (Yd 0) := all_toPol fun _ => by
    constructor <;> simp [TermBuilder.new, TermBuilder.build, TermBuilder.xpow, Monomial.key]
  have evx1 := evX.mul (evP.power2 hp22) hx1
  have yx1 := yd_mul yX (yd_power (by omega) yp hp22) hx1
  rw [Int.toNat_natCast] at evx1
  have wx : WGe (x₀ ^ Q * P ^ 2) (Q * 2) := by
    simpa using (WGe.x.pow Q).mul (wP.pow 2)
  have ev2 := (evF.add evx1).neg
  have ev3 := (evF.sub evx1).power2 hn3
  have w2 : WGe (-(F + x₀ ^ Q * P ^ 2)) (Q * 2) := by
    rw [add_comm]
    exact (wx.add wF (by omega)).neg
  have w3 : WGe ((F - x₀ ^ Q * P ^ 2) ^ 2) (2 * (Q * 2)) := by
    refine WGe.pow ?_ 2
    have := wx.neg.add wF (by omega)
    rwa [neg_add_eq_sub] at this
  have y2 : (f1.add x1).neg.All (Yd 2) := all_neg (all_add (yd_mono yf (by omega)) (yd_mono yx1 (by omega)))
  have y3 := yd_power (by omega) (all_sub (yd_mono yf (show (0 : ℤ) ≤ 2 by omega)) (yd_mono yx1 (by omega))) hn3
  have := mul_overflow ev2 ev3 w2 w3 (by omega) (by omega) y2 y3 hm
  push_cast at this
  omega

theorem gK (m : GK q.toNat a b) : q • m = 0 := by
  have hq := two_le_of_prime (p := q) hp.out
  have h := map_intCast ((algebraMap (GC q.toNat a b) (GK q.toNat a b)).comp
    ((Affine.CoordinateRing.mk (GW q.toNat a b)).comp (C.comp C))) q
  have h0 : ((q : ℤ) : ZMod q.toNat) = 0 := by
    rw [ZMod.intCast_zmod_eq_zero_iff_dvd, Int.toNat_of_nonneg (by omega)]
  rw [h0, map_zero] at h
  rw [zsmul_eq_mul, ← h, zero_mul]

theorem yd_red {f g : Poly} (hq : 1 ≤ q) (hf : f.All Key.IsXY) (h : f.reductionModular a b q = .ok g) : g.All (Yd 1) := by
  have h1 := (C21_reduction_modular f g a b q hq h).2.1
  have h2 : Ev x₀ y₀ g _ := Ev.red hq gK (gxy (p := q.toNat) (a := a) (b := b)) ⟨hf, rfl⟩ h
  intro e he
  have h3 := (h2.1 e he).2.1
  have h4 := h1 e he
  refine ⟨h3, ?_⟩
  simp only [Monomial.key]
  omega

/-- The products of the `y`-coordinate test overflow for `q ≥ 21846`. -/
theorem schoofY_large {fuel : ℕ} {l j : ℤ} {psL : Poly} (h1 : 1 ≤ ql) (h5 : ql ≤ 4) (hq : 21846 ≤ q) (r : ModResult) :
    schoofY fuel a b q l ql j psL ≠ .ok r := by
  intro h
  unfold schoofY at h
  obtain ⟨Q, hQ, h⟩ := Res.bind_eq_ok.1 h
  obtain ⟨g, hg, h⟩ := Res.bind_eq_ok.1 h
  obtain ⟨o1, ho1, h⟩ := Res.bind_eq_ok.1 h
  obtain ⟨o2, ho2, h⟩ := Res.bind_eq_ok.1 h
  obtain ⟨p1, hp1, h⟩ := Res.bind_eq_ok.1 h
  obtain ⟨p13, hp13, h⟩ := Res.bind_eq_ok.1 h
  obtain ⟨m1, hm1, h⟩ := Res.bind_eq_ok.1 h
  obtain ⟨d, hd, h⟩ := Res.bind_eq_ok.1 h
  obtain ⟨f1, hf1, h⟩ := Res.bind_eq_ok.1 h
  obtain ⟨p2, hp2, h⟩ := Res.bind_eq_ok.1 h
  obtain ⟨p22, hp22, h⟩ := Res.bind_eq_ok.1 h
  obtain ⟨x1, hx1, h⟩ := Res.bind_eq_ok.1 h
  obtain ⟨e1, he1, h⟩ := Res.bind_eq_ok.1 h
  obtain ⟨e, he, h⟩ := Res.bind_eq_ok.1 h
  obtain ⟨f2, hf2, h⟩ := Res.bind_eq_ok.1 h
  obtain ⟨p3, hp3, h⟩ := Res.bind_eq_ok.1 h
  obtain ⟨p32, hp32, h⟩ := Res.bind_eq_ok.1 h
  obtain ⟨x2, hx2, h⟩ := Res.bind_eq_ok.1 h
  obtain ⟨e2, he2, h⟩ := Res.bind_eq_ok.1 h
  obtain ⟨f, hf, h⟩ := Res.bind_eq_ok.1 h
  obtain ⟨ff2, hff2, h⟩ := Res.bind_eq_ok.1 h
  obtain ⟨m2, hm2, h⟩ := Res.bind_eq_ok.1 h
  obtain ⟨d2, hd2, h⟩ := Res.bind_eq_ok.1 h
  obtain ⟨m3, hm3, h⟩ := Res.bind_eq_ok.1 h
  obtain ⟨p4, hp4, h⟩ := Res.bind_eq_ok.1 h
  obtain ⟨p43, hp43, h⟩ := Res.bind_eq_ok.1 h
  obtain ⟨m4, hm4, h⟩ := Res.bind_eq_ok.1 h
  obtain ⟨ff3, hff3, h⟩ := Res.bind_eq_ok.1 h
  obtain ⟨m, hm, h⟩ := Res.bind_eq_ok.1 h
  clear h
  rw [hp1] at hp2; cases hp2
  rw [hp1] at hp3; cases hp3
  rw [hp1] at hp4; cases hp4
  rw [hp22] at hp32; cases hp32
  rw [hp13] at hp43; cases hp43
  have hQ' : Q = q ^ 2 := by
    unfold chk at hQ
    split_ifs at hQ
    cases hQ; rfl
  have hQ2 : 477247716 ≤ Q := by rw [hQ']; nlinarith
  obtain ⟨Q, rfl⟩ : ∃ n : ℕ, Q = n := ⟨Q.toNat, by omega⟩
  have hxy := gxy (p := q.toNat) (a := a) (b := b)
  obtain ⟨yf, F, evF, wF⟩ := yd_phi (q := q) (by omega) (by omega) hf2
  obtain ⟨yp, P, evP, wP⟩ := yd_psi (q := q) (by omega) (by omega) (by omega) hp1
  have evX := Ev.xpow (x := x₀) (y := y₀) (n := Q) (by omega)
  have evx2 := evX.mul (evP.power2 hp22) hx2
  rw [Int.toNat_natCast] at evx2
  have evY := Ev.ypow (x := x₀) (y := y₀) (n := Q) (by omega)
  have evf := Ev.red (show 1 ≤ q by omega) gK hxy (Ev.mod (show 1 ≤ q by omega) gK (evF.sub evx2) he2) hf
  have evf3 := evf.power3 hff3
  have evg := Ev.red (show 1 ≤ q by omega) gK hxy evY hg
  rw [Int.toNat_natCast] at evg
  have evm4 := evg.mul (evP.power3 hp13) hm4
  have wx : WGe (x₀ ^ Q * P ^ 2) (Q * 2) := by
    simpa using (WGe.x.pow Q).mul (wP.pow 2)
  have w4 : WGe (y₀ ^ Q * P ^ 3) (Q * 3) := by
    simpa using (WGe.y.pow Q).mul (wP.pow 3)
  have wf : WGe ((F - x₀ ^ Q * P ^ 2) ^ 3) (3 * (Q * 2)) := by
    refine WGe.pow ?_ 3
    have := wx.neg.add wF (by omega)
    rwa [neg_add_eq_sub] at this
  have yg := yd_red (by omega) evY.1 hg
  have yff := yd_power (by omega) (yd_red (by omega) (Ev.mod (show 1 ≤ q by omega) gK (evF.sub evx2) he2).1 hf) hff3
  have y4 := yd_mul yg (yd_power (by omega) yp hp13) hm4
  have := mul_overflow evm4 evf3 w4 wf (by omega) (by omega) y4 yff hm
  push_cast at this
  omega

end
end EC
