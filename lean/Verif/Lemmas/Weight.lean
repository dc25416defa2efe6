import Verif.Lemmas.SchoofEval

/-! The order of the pole at infinity of a function on the curve, as the degree of its norm; a lower bound for the exponents
that occur in a polynomial representing the function. -/

namespace EC
open Poly Polynomial WeierstrassCurve

section
variable (p : ℕ) [hp : Fact (Nat.Prime p)] (a b : ℤ)

abbrev GW : Affine (ZMod p) := (shortW (a : ZMod p) (b : ZMod p)).toAffine
abbrev GC : Type := (GW p a b).CoordinateRing
abbrev GK : Type := (GW p a b).FunctionField

noncomputable def gx : GK p a b := algebraMap (GC p a b) _ (Affine.CoordinateRing.mk (GW p a b) (C X))
noncomputable def gy : GK p a b := algebraMap (GC p a b) _ (Affine.CoordinateRing.mk (GW p a b) X)

noncomputable def gdeg (r : GC p a b) : WithBot ℕ := (Algebra.norm (ZMod p)[X] r).degree

variable {p a b}

theorem gdeg_basis (f g : (ZMod p)[X]) :
    gdeg p a b (f • 1 + g • Affine.CoordinateRing.mk (GW p a b) X) = max (2 • f.degree) (2 • g.degree + 3) :=
  Affine.CoordinateRing.degree_norm_smul_basis f g

theorem gdeg_mul (r s : GC p a b) : gdeg p a b (r * s) = gdeg p a b r + gdeg p a b s := by
  unfold gdeg
  rw [map_mul, degree_mul]

theorem gdeg_le_iff {r : GC p a b} {W : WithBot ℕ} {f g : (ZMod p)[X]}
    (h : r = f • 1 + g • Affine.CoordinateRing.mk (GW p a b) X) :
    gdeg p a b r ≤ W ↔ 2 • f.degree ≤ W ∧ 2 • g.degree + 3 ≤ W := by
  rw [h, gdeg_basis, max_le_iff]

theorem two_smul_le {c d e W : WithBot ℕ} (h : c ≤ max d e) (hd : 2 • d ≤ W) (he : 2 • e ≤ W) : 2 • c ≤ W := by
  rcases le_total d e with h' | h'
  · rw [max_eq_right h'] at h
    exact (nsmul_le_nsmul_right h 2).trans he
  · rw [max_eq_left h'] at h
    exact (nsmul_le_nsmul_right h 2).trans hd

theorem two_smul_add_le {c d e W : WithBot ℕ} (h : c ≤ max d e) (hd : 2 • d + 3 ≤ W) (he : 2 • e + 3 ≤ W) :
    2 • c + 3 ≤ W := by
  rcases le_total d e with h' | h'
  · rw [max_eq_right h'] at h
    exact (add_le_add_left (nsmul_le_nsmul_right h 2) _).trans he
  · rw [max_eq_left h'] at h
    exact (add_le_add_left (nsmul_le_nsmul_right h 2) _).trans hd

theorem gdeg_add_le {r s : GC p a b} {W : WithBot ℕ} (hr : gdeg p a b r ≤ W) (hs : gdeg p a b s ≤ W) :
    gdeg p a b (r + s) ≤ W := by
  obtain ⟨f, g, h⟩ := Affine.CoordinateRing.exists_smul_basis_eq r
  obtain ⟨f', g', h'⟩ := Affine.CoordinateRing.exists_smul_basis_eq s
  rw [gdeg_le_iff h.symm] at hr
  rw [gdeg_le_iff h'.symm] at hs
  rw [gdeg_le_iff (f := f + f') (g := g + g') (by rw [← h, ← h']; module)]
  exact ⟨two_smul_le (degree_add_le _ _) hr.1 hs.1, two_smul_add_le (degree_add_le _ _) hr.2 hs.2⟩

theorem gdeg_smul_le {r : GC p a b} {W : WithBot ℕ} (c : ℤ) (hr : gdeg p a b r ≤ W) : gdeg p a b (c • r) ≤ W := by
  obtain ⟨f, g, h⟩ := Affine.CoordinateRing.exists_smul_basis_eq r
  rw [gdeg_le_iff h.symm] at hr
  rw [gdeg_le_iff (f := c • f) (g := c • g) (by rw [← h]; module)]
  exact ⟨(nsmul_le_nsmul_right (degree_smul_le _ _) 2).trans hr.1,
    (add_le_add_left (nsmul_le_nsmul_right (degree_smul_le _ _) 2) _).trans hr.2⟩

theorem gdeg_neg (r : GC p a b) : gdeg p a b (-r) = gdeg p a b r := by
  refine le_antisymm ?_ ?_
  · have := gdeg_smul_le (-1) (le_refl (gdeg p a b r))
    simpa using this
  · have := gdeg_smul_le (-1) (le_refl (gdeg p a b (-r)))
    simpa using this

theorem gdeg_one : gdeg p a b 1 = 0 := by
  unfold gdeg; rw [map_one, degree_one]

theorem gdeg_pow (r : GC p a b) (n : ℕ) : gdeg p a b (r ^ n) = n • gdeg p a b r := by
  unfold gdeg; rw [map_pow, degree_pow]

theorem gdeg_x : gdeg p a b (Affine.CoordinateRing.mk (GW p a b) (C X)) = 2 := by
  have : Affine.CoordinateRing.mk (GW p a b) (C X) = (X : (ZMod p)[X]) • 1 + (0 : (ZMod p)[X]) • Affine.CoordinateRing.mk (GW p a b) X := by
    rw [zero_smul, add_zero, Affine.CoordinateRing.smul, mul_one]
  rw [this, gdeg_basis]
  simp

theorem gdeg_y : gdeg p a b (Affine.CoordinateRing.mk (GW p a b) X) = 3 := by
  have : Affine.CoordinateRing.mk (GW p a b) X = (0 : (ZMod p)[X]) • 1 + (1 : (ZMod p)[X]) • Affine.CoordinateRing.mk (GW p a b) X := by
    rw [zero_smul, zero_add, one_smul]
  rw [this, gdeg_basis]
  simp

theorem gdeg_nonneg {r : GC p a b} (h : r ≠ 0) : 0 ≤ gdeg p a b r := by
  by_contra hc
  have hb : gdeg p a b r ≤ ⊥ := by
    unfold gdeg at hc ⊢
    rw [zero_le_degree_iff, not_not] at hc
    rw [hc, degree_zero]
  obtain ⟨f, g, e⟩ := Affine.CoordinateRing.exists_smul_basis_eq r
  rw [gdeg_le_iff e.symm] at hb
  have hf : f = 0 := by
    rw [← degree_eq_bot]
    have := hb.1
    by_contra h0
    obtain ⟨n, hn⟩ := WithBot.ne_bot_iff_exists.1 h0
    rw [← hn, nsmul_eq_mul] at this
    exact absurd this (by rw [le_bot_iff]; exact WithBot.coe_ne_bot (a := 2 * n))
  have hg : g = 0 := by
    rw [← degree_eq_bot]
    have := hb.2
    by_contra h0
    obtain ⟨n, hn⟩ := WithBot.ne_bot_iff_exists.1 h0
    rw [← hn, nsmul_eq_mul] at this
    exact absurd this (by rw [le_bot_iff]; exact WithBot.coe_ne_bot (a := 2 * n + 3))
  exact h (by rw [← e, hf, hg, zero_smul, zero_smul, add_zero])

theorem gdeg_zero : gdeg p a b 0 = ⊥ := by
  have : (0 : GC p a b) = (0 : (ZMod p)[X]) • 1 + (0 : (ZMod p)[X]) • Affine.CoordinateRing.mk (GW p a b) X := by
    rw [zero_smul, zero_smul, add_zero]
  rw [this, gdeg_basis]
  simp [nsmul_eq_mul]

/-- The weight of `c` is at most `W`. -/
def WLe (c : GK p a b) (W : ℕ) : Prop := ∃ r : GC p a b, algebraMap _ _ r = c ∧ gdeg p a b r ≤ W
/-- The weight of `c` is at least `W`. -/
def WGe (c : GK p a b) (W : ℕ) : Prop := ∃ r : GC p a b, algebraMap _ _ r = c ∧ (W : WithBot ℕ) ≤ gdeg p a b r

theorem galg_inj : Function.Injective (algebraMap (GC p a b) (GK p a b)) := IsFractionRing.injective _ _

namespace WLe
variable {c d : GK p a b} {W V : ℕ}
theorem zero : WLe (0 : GK p a b) W := ⟨0, map_zero _, by rw [gdeg_zero]; exact bot_le⟩
theorem add (h : WLe c W) (h' : WLe d W) : WLe (c + d) W := by
  obtain ⟨r, rfl, hr⟩ := h
  obtain ⟨s, rfl, hs⟩ := h'
  exact ⟨r + s, map_add _ _ _, gdeg_add_le hr hs⟩
theorem smul (n : ℤ) (h : WLe c W) : WLe (n • c) W := by
  obtain ⟨r, rfl, hr⟩ := h
  exact ⟨n • r, map_zsmul _ _ _, gdeg_smul_le n hr⟩
theorem mono (h : WLe c W) (hV : W ≤ V) : WLe c V := by
  obtain ⟨r, rfl, hr⟩ := h
  exact ⟨r, rfl, hr.trans (by exact_mod_cast hV)⟩
theorem xy (i j : ℕ) : WLe (gx p a b ^ i * gy p a b ^ j) (2 * i + 3 * j) := by
  refine ⟨Affine.CoordinateRing.mk (GW p a b) (C X) ^ i * Affine.CoordinateRing.mk (GW p a b) X ^ j,
    by rw [map_mul, map_pow, map_pow, gx, gy], ?_⟩
  rw [gdeg_mul, gdeg_pow, gdeg_pow, gdeg_x, gdeg_y]
  simp only [nsmul_eq_mul]
  push_cast
  rw [mul_comm (2 : WithBot ℕ), mul_comm (3 : WithBot ℕ)]
end WLe

namespace WGe
variable {c d : GK p a b} {W V : ℕ}
theorem mul (h : WGe c W) (h' : WGe d V) : WGe (c * d) (W + V) := by
  obtain ⟨r, rfl, hr⟩ := h
  obtain ⟨s, rfl, hs⟩ := h'
  exact ⟨r * s, map_mul _ _ _, by rw [gdeg_mul]; push_cast; exact add_le_add hr hs⟩
theorem pow (h : WGe c W) (n : ℕ) : WGe (c ^ n) (n * W) := by
  obtain ⟨r, rfl, hr⟩ := h
  refine ⟨r ^ n, map_pow _ _ _, ?_⟩
  rw [gdeg_pow]
  have := nsmul_le_nsmul_right hr n
  simpa [nsmul_eq_mul] using this
theorem x : WGe (gx p a b) 2 := ⟨_, rfl, by rw [gdeg_x]; rfl⟩
theorem y : WGe (gy p a b) 3 := ⟨_, rfl, by rw [gdeg_y]; rfl⟩
theorem neg (h : WGe c W) : WGe (-c) W := by
  obtain ⟨r, rfl, hr⟩ := h
  exact ⟨-r, map_neg _ _, by rw [gdeg_neg]; exact hr⟩
theorem not_le (h : WGe c W) (h' : WLe c V) : W ≤ V := by
  obtain ⟨r, rfl, hr⟩ := h
  obtain ⟨s, hs, hs'⟩ := h'
  have := galg_inj hs
  subst this
  exact_mod_cast hr.trans hs'
theorem add (h : WGe c W) (h' : WLe d V) (hV : V < W) : WGe (c + d) W := by
  obtain ⟨r, rfl, hr⟩ := h
  obtain ⟨s, rfl, hs⟩ := h'
  refine ⟨r + s, map_add _ _ _, ?_⟩
  by_contra hc
  rw [_root_.not_le] at hc
  have h1 : gdeg p a b (r + s) ≤ max (gdeg p a b (r + s)) V := le_max_left _ _
  have h2 : gdeg p a b (-s) ≤ max (gdeg p a b (r + s)) V := by
    rw [gdeg_neg]; exact hs.trans (le_max_right _ _)
  have h3 := gdeg_add_le h1 h2
  rw [add_neg_cancel_right] at h3
  have h4 : max (gdeg p a b (r + s)) (V : WithBot ℕ) < W := max_lt hc (by exact_mod_cast hV)
  exact absurd (hr.trans h3) (_root_.not_le.2 h4)
end WGe

theorem gxy : gy p a b ^ 2 = gx p a b ^ 3 + a * gx p a b + b := by
  have h : Affine.CoordinateRing.mk (GW p a b) (X ^ 2 - C (X ^ 3 + C (a : ZMod p) * X + C (b : ZMod p))) = 0 := by
    refine AdjoinRoot.mk_eq_zero.2 ⟨1, ?_⟩
    simp [Affine.polynomial]
  rw [map_sub, sub_eq_zero] at h
  have h2 := congrArg (algebraMap (GC p a b) (GK p a b)) h
  simpa [gx, gy] using h2

theorem Ev.wle {f : Poly} {c : GK p a b} {W : ℕ} (h : Ev (gx p a b) (gy p a b) f c)
    (hn : ∀ e ∈ f.entries, 2 * e.1.key.x + 3 * e.1.key.y ≤ W) : WLe c W := by
  rw [← h.2]
  unfold Poly.lin
  have hall := h.1
  unfold Poly.All at hall
  generalize f.entries = l at hn hall
  induction l with
  | nil => simpa using WLe.zero
  | cons e t ih =>
    rw [List.map_cons, List.sum_cons]
    refine WLe.add ?_ (ih (fun e he => hn e (by simp [he])) (fun e he => hall e (by simp [he])))
    refine WLe.smul _ ?_
    obtain ⟨h1, h2, h3, h4⟩ := hall e (by simp)
    have h5 := hn e (by simp)
    have : e.1.key.evalAt (gx p a b) (gy p a b) 0 0 = gx p a b ^ e.1.key.x.toNat * gy p a b ^ e.1.key.y.toNat := by
      simp [Key.evalAt, h3, h4]
    rw [this]
    exact (WLe.xy _ _).mono (by omega)

/-- A lower bound for the weight of the value forces a term of large weight. -/
theorem Ev.exists_entry {f : Poly} {c : GK p a b} {W : ℕ} (h : Ev (gx p a b) (gy p a b) f c) (hc : WGe c W)
    (hW : 0 < W) : ∃ e ∈ f.entries, (W : ℤ) ≤ 2 * e.1.key.x + 3 * e.1.key.y := by
  by_contra hn
  push Not at hn
  have := hc.not_le (h.wle (W := W - 1) fun e he => by have := hn e he; omega)
  omega

end
end EC
