import Verif.Props.Multiples
import Verif.Props.Reduction
import Verif.Spec.Frobenius

/-! Evaluation at a point of the curve over a field of characteristic `p` of the polynomials that `schoof` computes. -/

namespace EC
open Poly Polynomial WeierstrassCurve

/-- `f` is a polynomial in `x` and `y` with the value `c` at `(x, y)`. -/
def Ev {K : Type} [Field K] (x y : K) (f : Poly) (c : K) : Prop :=
  f.All Key.IsXY ∧ f.lin (Key.evalAt x y 0 0) = c

theorem isXY_mulFn {K : Type} [Field K] (x y : K) : MulFn Key.IsXY (Key.evalAt x y 0 0) := by
  have h := mulFn_evalAt x y 0 (0 : ℤ × ℤ → K)
  have hn : ∀ k : Key, k.IsXY → k.Nonneg := fun k hk => ⟨hk.1, hk.2.1, hk.2.2.1.ge⟩
  refine ⟨by simp [Key.IsXY, Key.one], h.map_one, ?_, fun h1 h2 h3 => h.map_mul (hn _ h1) (hn _ h2) h3⟩
  rintro k k' ⟨a1, a2, a3, a4⟩ ⟨b1, b2, b3, b4⟩ -
  refine ⟨by simp only [Key.mul]; omega, by simp only [Key.mul]; omega, by simp only [Key.mul]; omega, ?_⟩
  simp [Key.mul, a4, b4]

theorem highest_isXY {r : Poly} (hr : r.All Key.IsXY) : r.highestTermX.monomial.key.IsXY := by
  by_cases hne : r.entries = []
  · rw [highestTermX_of_nil hne]; simp [Term.new, Key.IsXY, Monomial.key, SubVar.key, SubVar.new]
  · obtain ⟨e, he, he2, -⟩ := highestTermX_of_ne hne
    rw [he2]
    exact hr e he

namespace Ev
variable {K : Type} [Field K] {x y : K} {f g h : Poly} {c d : K} {p : ℤ}

theorem add (hf : Ev x y f c) (hg : Ev x y g d) : Ev x y (f.add g) (c + d) :=
  ⟨all_add hf.1 hg.1, by rw [lin_add, hf.2, hg.2]⟩
theorem sub (hf : Ev x y f c) (hg : Ev x y g d) : Ev x y (f.sub g) (c - d) :=
  ⟨all_sub hf.1 hg.1, by rw [lin_sub, hf.2, hg.2]⟩
theorem subAssign (hf : Ev x y f c) (hg : Ev x y g d) : Ev x y (f.subAssign g) (c - d) :=
  ⟨all_subAssign hf.1 hg.1, by rw [lin_subAssign, hf.2, hg.2]⟩
theorem neg (hf : Ev x y f c) : Ev x y f.neg (-c) :=
  ⟨all_neg hf.1, by rw [lin_neg, hf.2]⟩
theorem mul (hf : Ev x y f c) (hg : Ev x y g d) (e : f.mul g = .ok h) : Ev x y h (c * d) := by
  obtain ⟨h1, h2⟩ := MulFn.mul (isXY_mulFn x y) hf.1 hg.1 e
  exact ⟨h1, by rw [h2, hf.2, hg.2]⟩
theorem power {n : ℤ} (hf : Ev x y f c) (e : f.power n = .ok g) : Ev x y g (c ^ n.toNat) := by
  obtain ⟨-, h1, h2⟩ := MulFn.power (isXY_mulFn x y) hf.1 e
  exact ⟨h1, by rw [h2, hf.2]⟩
theorem power2 (hf : Ev x y f c) (e : f.power 2 = .ok g) : Ev x y g (c ^ 2) := hf.power e
theorem power3 (hf : Ev x y f c) (e : f.power 3 = .ok g) : Ev x y g (c ^ 3) := hf.power e
theorem congr (hf : Ev x y f c) (e : c = d) : Ev x y f d := e ▸ hf
theorem unique (h1 : Ev x y f c) (h2 : Ev x y f d) : c = d := h1.2.symm.trans h2.2

theorem toPol {t : Term} (hn : t.monomial.key.IsXY) :
    Ev x y t.toPol (t.coef • t.monomial.key.evalAt x y 0 0) :=
  ⟨all_toPol fun _ => hn, lin_toPol _ _⟩

theorem xpow {n : ℤ} (hn : 0 ≤ n) : Ev x y (TermBuilder.new.xpow n).build.toPol (x ^ n.toNat) := by
  refine (toPol (by simpa [Key.IsXY, SubVar.key, SubVar.new, TermBuilder.new, TermBuilder.build, TermBuilder.xpow, Monomial.key] using hn)).congr ?_
  simp [Key.evalAt, TermBuilder.new, TermBuilder.build, TermBuilder.xpow, Monomial.key, SubVar.key, SubVar.new]

theorem ypow {n : ℤ} (hn : 0 ≤ n) : Ev x y (TermBuilder.new.ypow n).build.toPol (y ^ n.toNat) := by
  refine (toPol (by simpa [Key.IsXY, SubVar.key, SubVar.new, TermBuilder.new, TermBuilder.build, TermBuilder.ypow, Monomial.key] using hn)).congr ?_
  simp [Key.evalAt, TermBuilder.new, TermBuilder.build, TermBuilder.ypow, Monomial.key, SubVar.key, SubVar.new]

section
variable (hp : 1 ≤ p) (hK : ∀ m : K, p • m = 0)
include hp hK

theorem mod (hf : Ev x y f c) (e : f.modularAssign p = .ok g) : Ev x y g c := by
  have hm := modularAssign_eq_ok (by omega) e
  exact ⟨hm.all hf.1, by rw [hm.lin _ hK, hf.2]⟩

theorem rem (hf : Ev x y f c) (e : f.rem p = .ok g) : Ev x y g c := by
  have hm := rem_eq_ok (by omega) e
  exact ⟨hm.all hf.1, by rw [hm.lin _ hK, hf.2]⟩

theorem redAux {a b : ℤ} (hxy : y ^ 2 = x ^ 3 + a * x + b) : ∀ (n : ℕ) (f g : Poly) (c : K),
    Ev x y f c → reductionModularAux a b p n f = .ok g → Ev x y g c ∧ (f.All Key.IsX → g.All Key.IsX) := by
  intro n
  induction n with
  | zero => intro f g c _ h; simp [reductionModularAux] at h
  | succ n ih =>
    intro f g c hf h
    rw [reductionModularAux_eq, Res.bind_eq_ok] at h
    obtain ⟨t, ht, h⟩ := h
    have hm := modularAssign_eq_ok (by omega) h
    have hpw : ∀ y' ee, 1 ≤ y' → ((curvePol a b).powerModulo y' p >>= reductionModularAux a b p n) = .ok ee →
        ee.All Key.IsX ∧ ee.lin (Key.evalAt x y 0 0) = (y ^ 2) ^ y'.toNat := by
      intro y' ee hy' he
      rw [Res.bind_eq_ok] at he
      obtain ⟨e1, h1, h2⟩ := he
      obtain ⟨-, q2, q3, -⟩ := MulFn.powerModulo (isXY_mulFn x y) (by omega) hK
        ((curvePol_isX a b).mono fun _ h => ⟨h.1, h.2.1.ge, h.2.2⟩) h1
      obtain ⟨h3, h4⟩ := ih e1 ee _ ⟨q2, q3⟩ h2
      refine ⟨h4 (powerModulo_curve h1).2, ?_⟩
      rw [h3.2, show max y' 1 = y' by omega, curvePol_lin, hxy]
      congr 1
      simp [Key.evalAt, Key.xn]
    refine ⟨⟨hm.all ?_, ?_⟩, fun hX => hm.all ?_⟩
    · refine redFold_all (W := fun _ => Key.IsX) (fun y ee hy he => (hpw y ee hy he).1) hf.1 (fun k hk _ => hk) ?_ ht
      rintro k k' ⟨h1, h2, h3, h4⟩ _ ⟨h1', h2', h3', h4'⟩ -
      refine ⟨by simp only [Key.mul, Key.setY]; omega, by simp only [Key.mul, Key.setY]; omega,
        by simp only [Key.mul, Key.setY]; omega, by simp [Key.mul, Key.setY, h4, h4']⟩
    · rw [hm.lin _ hK, ← hf.2]
      refine redFold_lin (W := Key.IsX) (g := y ^ 2) hpw ?_ ?_ ht
      · intro e he hy
        simp only [Key.evalAt, Key.setY, ← pow_mul]
        rw [show e.1.key.y.toNat = (e.1.key.y % 2).toNat + 2 * (e.1.key.y / 2).toNat by omega, pow_add]
        ring
      · intro e he hy k hk hc
        refine Key.evalAt_mul x y 0 0 ?_ hk.nonneg hc
        obtain ⟨h1, h2, h3⟩ := hf.1 e he
        exact ⟨h1, by simp only [Key.setY]; omega, h3.1.ge⟩
    · refine redFold_all (W := fun y k => k.IsX)
        (fun y ee hy he => (hpw y ee hy he).1) hX (fun k hk _ => hk) ?_ ht
      intro k k' hk hk2 _ _
      rw [hk.2.1] at hk2; omega

theorem red {a b : ℤ} (hxy : y ^ 2 = x ^ 3 + a * x + b) (hf : Ev x y f c)
    (e : f.reductionModular a b p = .ok g) : Ev x y g c :=
  (redAux hp hK hxy 2 f g c hf e).1

theorem polyModLoop {other : Poly} (ho : Ev x y other 0) {oh : Term} (hoh : 0 ≤ oh.xpow) : ∀ (n : ℕ) (r g : Poly),
    Ev x y r c → polyModLoop oh other p n r = .ok g → Ev x y g c := by
  intro n
  induction n with
  | zero => intro r g _ h; simp [Poly.polyModLoop] at h
  | succ n ih =>
    intro r g hr h
    unfold Poly.polyModLoop at h
    dsimp only at h
    split_ifs at h with hlt
    · simp only [Res.ok.injEq] at h; subst h; exact hr
    · obtain ⟨inv, -, h⟩ := Res.bind_eq_ok.1 h
      obtain ⟨z, hz, h⟩ := Res.bind_eq_ok.1 h
      obtain ⟨t, ht, h⟩ := Res.bind_eq_ok.1 h
      obtain ⟨d, hd, h⟩ := Res.bind_eq_ok.1 h
      obtain ⟨d', hd', h⟩ := Res.bind_eq_ok.1 h
      obtain ⟨r', hr', h⟩ := Res.bind_eq_ok.1 h
      have hrh := highest_isXY hr.1
      have hzn : 0 ≤ z := by
        rw [chk_eq_ok] at hz
        omega
      have htm : t.monomial.key.IsXY := by
        unfold Term.modularAssign at ht
        split_ifs at ht
        simp only [Res.ok.injEq] at ht
        subst ht
        exact ⟨hzn, hrh.2.1, hrh.2.2.1, by simp [TermBuilder.build, Monomial.key, SubVar.key, SubVar.new, TermBuilder.new,
          TermBuilder.coef, TermBuilder.xpow, TermBuilder.ypow, TermBuilder.qpow]⟩
      refine ih r' g ?_ h
      refine mod hp hK (c := c) ?_ hr'
      refine (hr.subAssign (mod hp hK ((toPol htm).mul ho hd) hd')).congr ?_
      ring

theorem polyMod {other : Poly} {n : ℕ} (ho : Ev x y other 0) (hf : Ev x y f c)
    (e : f.polynomialModular n other p = .ok g) : Ev x y g c := by
  unfold polynomialModular at e
  obtain ⟨_, -, e⟩ := Res.bind_eq_ok.1 e
  obtain ⟨_, -, e⟩ := Res.bind_eq_ok.1 e
  obtain ⟨r, hr, e⟩ := Res.bind_eq_ok.1 e
  refine mod hp hK (polyModLoop hp hK ho ?_ n f r hf hr) e
  exact (highest_isXY ho.1).1

end

theorem isZero (hf : Ev x y f c) (h : f.isZero = true) : c = 0 := by
  rw [← hf.2, lin, isZero_iff.1 h]; rfl

theorem frob {n : ℤ} (hn : 1 ≤ n) (hf : Ev (x ^ n.toNat) (y ^ n.toNat) f c) (h : f.toFrob n = .ok g) :
    Ev x y g c := by
  obtain ⟨h1, h2⟩ := hf
  have hu : ∀ e ∈ f.entries, ∀ u, (Term.from' e.1 e.2).toFrob n = .ok u →
      u.monomial.key = e.1.key.scale n n 1 ∧ u.coef = e.2 := fun e _ u hu => by
    obtain ⟨_, _, rfl⟩ := Term.toFrob_eq_ok.1 hu
    exact ⟨by simp [Monomial.key, Key.scale, Term.from', Term.xpow, Term.ypow, Term.qpow, Term.var], rfl⟩
  have hinj : ∀ e ∈ f.entries, ∀ e' ∈ f.entries, e.1.key.scale n n 1 = e'.1.key.scale n n 1 → e.1.key = e'.1.key :=
    fun e _ e' _ h => Key.scale_inj (by omega) (by omega) one_ne_zero h
  constructor
  · rw [all_iff]
    intro k v hkv
    obtain ⟨e, he, rfl⟩ : ∃ e ∈ f.entries, k = e.1.key.scale n n 1 := by
      obtain ⟨e, he, h3, -⟩ := ((pass_fs (g := Key.scale n n 1) (c := fun e => e.2) h hu hinj).2.2 k v).1 hkv
      exact ⟨e, he, h3⟩
    obtain ⟨q1, q2, q3⟩ := h1 e he
    exact ⟨mul_nonneg q1 (by omega), mul_nonneg q2 (by omega), by simpa [Key.scale] using q3.1, q3.2⟩
  · rw [pass_lin (g := Key.scale n n 1) (c := fun e => e.2) h hu hinj, ← h2, lin]
    congr 1
    apply List.map_congr_left
    intro e he
    obtain ⟨q1, q2, q3⟩ := h1 e he
    simp only [Key.evalAt, Key.scale, Int.toNat_mul q1 (show 0 ≤ n by omega), Int.toNat_mul q2 (show 0 ≤ n by omega), mul_one,
      ← pow_mul, mul_comm n.toNat]

end Ev

variable {K : Type} [Field K] {x y : K} {a b : ℤ} {f : Poly}

theorem ev_of_polyXY (h : f.All Key.IsXY) : Ev x y f (evR K x y (f.polyXY ℤ)) := by
  refine ⟨h, ?_⟩
  unfold polyXY
  rw [evalAt_map, evR_X, evR_CX, evalAt_eq_lin]
  congr 1
  simp only [map_zero, Pi.zero_apply]
  rfl

variable [DecidableEq K] {P : EDS.Pt (a : K) b} (hP : P ≠ 0)
include hP

theorem ev_psi {n : ℕ} (hf : psi a b n = .ok f) : Ev (EDS.xc P) (EDS.yc P) f (EDS.F P n) := by
  refine (ev_of_polyXY (psi_spec _ _ _ _ hf).2.isXY).congr ?_
  rw [(C29_psi _ _ _ _ hf).2.1, evR_psi (EDS.eqn hP), EDS.F]

theorem ev_phi {n : ℕ} (hf : phi a b n = .ok f) : Ev (EDS.xc P) (EDS.yc P) f
    (EDS.xc P * EDS.F P n ^ 2 - EDS.F P (n + 1) * EDS.F P (n - 1)) := by
  obtain ⟨h1, -, hX, -, -⟩ := phi_spec hf
  have hall : f.All (fun k => k.IsXY ∧ k.y = 0) := hX.mono fun k hk => ⟨⟨hk.1, hk.2.1.ge, hk.2.2⟩, hk.2.1⟩
  refine (ev_of_polyXY (hall.mono fun _ h => h.1)).congr ?_
  rw [(polyXY_of_y0 hall).2,
    evR_mk (EDS.eqn hP) (C30_phi_class _ _ _ _ hf), map_sub, map_mul, map_mul, map_pow,
    evR_mk (EDS.eqn hP) (Affine.CoordinateRing.mk_ψ _ _), evR_mk (EDS.eqn hP) (Affine.CoordinateRing.mk_ψ _ (n + 1)),
    evR_mk (EDS.eqn hP) (Affine.CoordinateRing.mk_ψ _ (n - 1)), evR_psi (EDS.eqn hP), evR_psi (EDS.eqn hP),
    evR_psi (EDS.eqn hP)]
  simp only [EDS.F, Nat.cast_sub (show 1 ≤ n by omega)]
  push_cast
  congr 2
  simp [evR]

theorem ev_omega (h2 : (2 : K) ≠ 0) {n : ℕ} (hn : 1 ≤ n) (hf : omega a b n = .ok f) (hQ : n • P ≠ 0) :
    Ev (EDS.xc P) (EDS.yc P) f (EDS.yc (n • P) * EDS.F P n ^ 3) := by
  have hxy : f.All Key.IsXY := by
    rcases (by omega : n = 1 ∨ 2 ≤ n) with rfl | h2
    · rw [Nat.cast_one, omega_one] at hf
      cases hf
      exact all_toPol fun _ => by
        simp [Key.IsXY, TermBuilder.new, TermBuilder.build, TermBuilder.ypow, Monomial.key, SubVar.key, SubVar.new]
    · exact (omega_spec hf (by omega)).2.1.mono fun _ h => h.1
  obtain ⟨d, hd⟩ : ∃ d, psi a b n = .ok d := by
    rw [(C32_psi_returns_iff a b n).1]
    have := ((C32_omega_returns_iff a b n).1).1 ⟨f, hf⟩
    omega
  have e := congrArg (evR K (EDS.xc P) (EDS.yc P)) (C31_double a b n d f (by omega) hd hf)
  rw [map_mul, map_mul, map_ofNat, (ev_of_polyXY (psi_spec _ _ _ _ hd).2.isXY).unique (ev_psi hP hd),
    evR_psi (EDS.eqn hP)] at e
  have f0 : EDS.F P n ≠ 0 := fun hz => hQ ((EDS.F_eq_zero_iff h2 hP n (by omega)).1 hz)
  have fy := EDS.F_y h2 hP n (by omega) hQ
  have e2 : EDS.ps (a : K) b (EDS.xc P) (EDS.yc P) (2 * n) = EDS.F P (2 * n) := by
    rw [EDS.F]; push_cast; rfl
  rw [e2, ← fy] at e
  refine (ev_of_polyXY hxy).congr ?_
  apply mul_left_cancel₀ (mul_ne_zero h2 f0)
  linear_combination e

end EC
