import Verif.Props.Reduction
import Verif.Lemmas.DETail

/-! C89: `reduction` and `reduction_modular` give a normal form: two polynomials in `x`, `y` have the same reduction
exactly when they are equal in the coordinate ring of the curve. -/

namespace EC
open Poly Polynomial

/-- The equation `y^2 - (x^3 + a x + b)` of the curve, as a polynomial in `y` over `R[x]`. -/
noncomputable def curveXY (R : Type) [CommRing R] (a b : ℤ) : R[X][X] :=
  X ^ 2 - C (X ^ 3 + C (a : R) * X + C (b : R))

/-- `reduction_modular` (any recursion depth) at points of the curve over a ring of characteristic dividing `p`. -/
theorem redAux_eval {R : Type} [CommRing R] {a b p : ℤ} {x y q : R} {v : ℤ × ℤ → R} (hp : 1 ≤ p)
    (hK : ∀ m : R, p • m = 0) (hxy : y ^ 2 = x ^ 3 + a * x + b) : ∀ (n : ℕ) (f g : Poly),
    f.All Key.Nonneg → reductionModularAux a b p n f = .ok g →
      g.lin (Key.evalAt x y q v) = f.lin (Key.evalAt x y q v) ∧ g.All Key.Nonneg ∧
      (f.All Key.IsX → g.All Key.IsX) := by
  intro n
  induction n with
  | zero => intro f g _ h; simp [reductionModularAux] at h
  | succ n ih =>
    intro f g hf h
    rw [reductionModularAux_eq, Res.bind_eq_ok] at h
    obtain ⟨t, ht, h⟩ := h
    have hm := modularAssign_eq_ok (by omega) h
    have hpw : ∀ y' ee, 1 ≤ y' → ((curvePol a b).powerModulo y' p >>= reductionModularAux a b p n) = .ok ee →
        ee.All Key.IsX ∧ ee.lin (Key.evalAt x y q v) = (y ^ 2) ^ y'.toNat := by
      intro y' ee hy' he
      rw [Res.bind_eq_ok] at he
      obtain ⟨e1, h1, h2⟩ := he
      obtain ⟨-, q2, q3, -⟩ := MulFn.powerModulo (mulFn_evalAt x y q v) (by omega) hK
        ((curvePol_isX a b).mono fun _ h => h.nonneg) h1
      obtain ⟨h3, -, h4⟩ := ih e1 ee q2 h2
      refine ⟨h4 (powerModulo_curve h1).2, ?_⟩
      rw [h3, q3, show max y' 1 = y' by omega, curvePol_lin, hxy]
      congr 1
      simp [Key.evalAt, Key.xn]
    refine ⟨?_, hm.all ?_, fun hX => hm.all ?_⟩
    · rw [hm.lin _ hK]
      refine redFold_lin (W := Key.IsX) (g := y ^ 2) hpw ?_ ?_ ht
      · intro e he hy
        simp only [Key.evalAt, Key.setY, ← pow_mul]
        rw [show e.1.key.y.toNat = (e.1.key.y % 2).toNat + 2 * (e.1.key.y / 2).toNat by omega, pow_add]
        ring
      · intro e he hy k hk hc
        refine Key.evalAt_mul x y q v ?_ hk.nonneg hc
        obtain ⟨h1, h2, h3⟩ := hf e he
        exact ⟨h1, by simp only [Key.setY]; omega, h3⟩
    · refine redFold_all (W := fun _ => Key.IsX) (fun y ee hy he => (hpw y ee hy he).1) hf (fun k hk _ => hk) ?_ ht
      rintro k k' ⟨h1, h2, h3⟩ _ ⟨h1', h2', h3', h4'⟩ -
      simp only [Key.mul, Key.setY, Key.Nonneg]
      omega
    · refine redFold_all (W := fun y k => k.IsX)
        (fun y ee hy he => (hpw y ee hy he).1) hX (fun k hk _ => hk) ?_ ht
      intro k k' hk hk2 _ _
      rw [hk.2.1] at hk2; omega

/-- C21, at points: over any commutative ring in which `p` is 0, `f` and `f.reduction_modular(a,b,p)` agree at every
point with `y^2 = x^3 + a x + b` (non-negative exponents). -/
theorem C21_reduction_modular_eval {R : Type} [CommRing R] (f c : Poly) (a b p : ℤ) (hp : 1 ≤ p) (x y q : R)
    (v : ℤ × ℤ → R) (hR : (p : R) = 0) (hf : f.All Key.Nonneg) (hxy : y ^ 2 = x ^ 3 + a * x + b)
    (h : f.reductionModular a b p = .ok c) :
    c.evalAt x y q v = f.evalAt x y q v ∧ c.All Key.Nonneg := by
  have hK : ∀ m : R, p • m = 0 := fun m => by rw [zsmul_eq_mul, hR, zero_mul]
  obtain ⟨h1, h2, -⟩ := redAux_eval (q := q) (v := v) hp hK hxy 2 f c hf h
  exact ⟨by rw [evalAt_eq_lin, evalAt_eq_lin, h1], h2⟩

theorem curveXY_monic {R : Type} [CommRing R] (a b : ℤ) : (curveXY R a b).Monic := by
  unfold curveXY
  exact monic_X_pow_sub_C _ (by norm_num)

theorem curveXY_degree {R : Type} [CommRing R] [Nontrivial R] (a b : ℤ) : (curveXY R a b).degree = 2 := by
  unfold curveXY
  exact degree_X_pow_sub_C (by norm_num) _

/-- Images of polynomials under a ring homomorphism that kills the equation of the curve. -/
theorem polyXY_hom {R S : Type} [CommRing R] [CommRing S] (π : R[X][X] →+* S) (P : Poly) :
    π (P.polyXY R) = P.evalAt (π (C X)) (π X) 0 (fun _ => 0) := by
  unfold polyXY
  rw [evalAt_map]
  simp only [map_zero]
  congr 1
  funext v
  simp

theorem curveXY_point {R S : Type} [CommRing R] [CommRing S] (π : R[X][X] →+* S) {a b : ℤ}
    (h : π (curveXY R a b) = 0) : (π X) ^ 2 = (π (C X)) ^ 3 + a * π (C X) + b := by
  unfold curveXY at h
  rw [map_sub, sub_eq_zero, map_pow] at h
  rw [h]
  simp

theorem dvd_of_hom {R : Type} [CommRing R] {Q u v : R[X][X]}
    (h : ∀ (S : Type) [CommRing S] (π : R[X][X] →+* S), π Q = 0 → π u = π v) : Q ∣ u - v := by
  rw [← AdjoinRoot.mk_eq_mk]
  exact h _ (AdjoinRoot.mk Q) AdjoinRoot.mk_self

/-- A polynomial of `y`-degree below 2. -/
theorem polyXY_degree_lt {R : Type} [CommRing R] {c : Poly} (hc : c.All Key.IsXY) (hy : ∀ e ∈ c.entries, e.1.ypow < 2) :
    (c.polyXY R).degree < 2 := by
  refine (Polynomial.degree_lt_iff_coeff_zero _ 2).2 ?_
  intro m hm
  ext i
  rw [polyXY_coeff hc, coeff_zero]
  have : c.coef (Key.mk i m 0 none) = 0 := by
    by_contra hne
    obtain ⟨e, he, hk⟩ := mem_of_coef_ne hne
    have h1 := hy e he
    have h2 : e.1.ypow = (m : ℤ) := by
      have := congrArg Key.y hk
      exact this
    have : 2 ≤ m := by exact_mod_cast hm
    omega
  rw [this, Int.cast_zero]

/-- Equality of two remainders. -/
theorem normal_form_iff {R : Type} [CommRing R] {a b : ℤ} {F G c d : R[X][X]} (hc : c.degree < 2) (hd : d.degree < 2)
    (h1 : curveXY R a b ∣ F - c) (h2 : curveXY R a b ∣ G - d) : c = d ↔ curveXY R a b ∣ F - G := by
  constructor
  · rintro rfl
    have := dvd_sub h1 h2
    rwa [sub_sub_sub_cancel_right] at this
  · intro h
    rcases subsingleton_or_nontrivial R with hR | hR
    · exact Subsingleton.elim _ _
    have h3 : curveXY R a b ∣ c - d := by
      have := dvd_sub (dvd_add h h2) h1
      rwa [show F - G + (G - d) - (F - c) = c - d by ring] at this
    by_contra hne
    refine (curveXY_monic a b).not_dvd_of_degree_lt (sub_ne_zero.2 hne) ?_ h3
    rw [curveXY_degree]
    exact lt_of_le_of_lt (degree_sub_le _ _) (max_lt hc hd)

theorem reductionModular_polyXY {f c : Poly} {a b p : ℤ} (hp : 1 ≤ p) (hf : f.All Key.IsXY)
    (h : f.reductionModular a b p = .ok c) : c.All Key.IsXY ∧ (c.polyXY (ZMod p.toNat)).degree < 2 ∧
      curveXY (ZMod p.toNat) a b ∣ f.polyXY (ZMod p.toNat) - c.polyXY (ZMod p.toNat) := by
  have hcX : c.All Key.IsXY := by
    refine redMod_all hp h hf (fun k hk _ => hk) ?_
    rintro k k' ⟨h1, h2, h3, h4⟩ _ ⟨h1', h2', h3', h4'⟩ -
    refine ⟨by simp only [Key.mul, Key.setY]; omega, by simp only [Key.mul, Key.setY]; omega,
      by simp only [Key.mul, Key.setY]; omega, by simp [Key.mul, Key.setY, h4, h4']⟩
  refine ⟨hcX, polyXY_degree_lt hcX (C21_reduction_modular f c a b p hp h).2.1, ?_⟩
  have hz : (p : ZMod p.toNat) = 0 := (zmod_eq_zero_iff (by omega) p).2 dvd_rfl
  refine dvd_of_hom fun S _ π hπ => ?_
  rw [polyXY_hom, polyXY_hom]
  refine (C21_reduction_modular_eval f c a b p hp _ _ _ _ ?_ (hf.mono fun _ h => h.nonneg) (curveXY_point π hπ) h).1.symm
  have : π (C (C ((p : ℤ) : ZMod p.toNat))) = ((p : ℤ) : S) := by
    rw [Polynomial.C_eq_intCast]; simp
  rw [← this, hz, map_zero, map_zero, map_zero]

theorem reduction_polyXY {f c : Poly} {a b : ℤ} (hf : f.All Key.IsXY) (h : f.reduction a b = .ok c) :
    c.All Key.IsXY ∧ (c.polyXY ℤ).degree < 2 ∧ curveXY ℤ a b ∣ f.polyXY ℤ - c.polyXY ℤ := by
  have hcX : c.All Key.IsXY := by
    rw [reduction_eq] at h
    refine redFold_all (W := fun _ => Key.IsX) (fun y' ee _ he =>
      (Poly.MulFn.power (isX_mulFn (R := ℤ)) (curvePol_isX a b) he).2.1) hf (fun k hk _ => hk) ?_ h
    rintro k k' ⟨h1, h2, h3, h4⟩ _ ⟨h1', h2', h3', h4'⟩ -
    refine ⟨by simp only [Key.mul, Key.setY]; omega, by simp only [Key.mul, Key.setY]; omega,
      by simp only [Key.mul, Key.setY]; omega, by simp [Key.mul, Key.setY, h4, h4']⟩
  refine ⟨hcX, polyXY_degree_lt hcX (C20_reduction f c a b h).2, ?_⟩
  refine dvd_of_hom fun S _ π hπ => ?_
  rw [polyXY_hom, polyXY_hom]
  exact (C20_reduction_eval f c a b _ _ _ _ (hf.mono fun _ h => h.nonneg) (curveXY_point π hπ) h).1.symm

/-- Canonical reduced polynomials are determined by their image over `Z/p`. -/
theorem eq_of_polyXY {p : ℤ} (hp : 1 ≤ p) {c d : Poly} (hc : c.All Key.IsXY) (hd : d.All Key.IsXY) (hcc : c.Canon)
    (hdc : d.Canon) (hcr : c.Reduced p) (hdr : d.Reduced p) (h : c.polyXY (ZMod p.toNat) = d.polyXY (ZMod p.toNat)) :
    c.eq d = true := by
  have hb : ∀ {P : Poly}, P.Reduced p → ∀ k, 0 ≤ P.coef k ∧ P.coef k < p := by
    intro P hP k
    by_cases h0 : P.coef k = 0
    · rw [h0]; omega
    · obtain ⟨e, he, rfl⟩ := mem_of_coef_ne h0
      rw [coef_of_mem he]; exact hP e he
  refine eq_of_fs hcc hdc ?_
  rw [fs_ext]
  intro k
  rw [← coef_eq, ← coef_eq]
  by_cases hk : k.IsXY
  · have hkk : k = Key.mk (k.x.toNat : ℤ) (k.y.toNat : ℤ) 0 none := by
      obtain ⟨x, y, q, v⟩ := k
      obtain ⟨h1, h2, h3, h4⟩ := hk
      simp only [Key.mk.injEq] at *
      exact ⟨by omega, by omega, h3, h4⟩
    have h1 := congrArg (fun P => (P.coeff k.y.toNat).coeff k.x.toNat) h
    simp only [polyXY_coeff hc, polyXY_coeff hd, ← hkk] at h1
    rw [zmod_eq_iff (by omega)] at h1
    have h2 := h1.eq
    rwa [Int.emod_eq_of_lt (hb hcr k).1 (hb hcr k).2, Int.emod_eq_of_lt (hb hdr k).1 (hb hdr k).2] at h2
  · have hz : ∀ {P : Poly}, P.All Key.IsXY → P.coef k = 0 := by
      intro P hP
      by_contra hne
      obtain ⟨e, he, rfl⟩ := mem_of_coef_ne hne
      exact hk (hP e he)
    rw [hz hc, hz hd]

/-- C89: for polynomials in `x`, `y`, `f.reduction_modular(a,b,p) == g.reduction_modular(a,b,p)` exactly when `f` and
`g` are equal in `(Z/p)[x,y]/(y^2 - x^3 - a x - b)`. -/
theorem C89_reduction_modular_normal_form (f g c d : Poly) (a b p : ℤ) (hp : 1 ≤ p)
    (hf : f.All Key.IsXY) (hg : g.All Key.IsXY)
    (hc : f.reductionModular a b p = .ok c) (hd : g.reductionModular a b p = .ok d) :
    c.eq d = true ↔ (X ^ 2 - C (X ^ 3 + C (a : ZMod p.toNat) * X + C (b : ZMod p.toNat))) ∣
      f.polyXY (ZMod p.toNat) - g.polyXY (ZMod p.toNat) := by
  obtain ⟨c1, c2, c3⟩ := reductionModular_polyXY hp hf hc
  obtain ⟨d1, d2, d3⟩ := reductionModular_polyXY hp hg hd
  obtain ⟨-, -, c4, c5⟩ := C21_reduction_modular f c a b p hp hc
  obtain ⟨-, -, d4, d5⟩ := C21_reduction_modular g d a b p hp hd
  refine Iff.trans ?_ (normal_form_iff c2 d2 c3 d3)
  constructor
  · intro h
    unfold polyXY
    rw [evalAt_eq_lin, evalAt_eq_lin, lin_congr _ (fs_of_eq h)]
  · exact eq_of_polyXY hp c1 d1 c5 d5 c4 d4

/-- C89: over the integers, the reductions of `f` and `g` denote the same polynomial exactly when `f` and `g` are equal
in `Z[x,y]/(y^2 - x^3 - a x - b)`. -/
theorem C89_reduction_normal_form (f g c d : Poly) (a b : ℤ) (hf : f.All Key.IsXY) (hg : g.All Key.IsXY)
    (hc : f.reduction a b = .ok c) (hd : g.reduction a b = .ok d) :
    c.val = d.val ↔ (X ^ 2 - C (X ^ 3 + C (a : ℤ) * X + C (b : ℤ))) ∣ f.polyXY ℤ - g.polyXY ℤ := by
  obtain ⟨c1, c2, c3⟩ := reduction_polyXY hf hc
  obtain ⟨d1, d2, d3⟩ := reduction_polyXY hg hd
  refine Iff.trans ?_ (normal_form_iff c2 d2 c3 d3)
  constructor
  · intro h
    unfold polyXY
    rw [evalAt_eq_lin, evalAt_eq_lin, lin_congr _ (val_injective.1 h)]
  · intro h
    rw [val_injective, fs_ext]
    intro k
    rw [← coef_eq, ← coef_eq]
    by_cases hk : k.IsXY
    · have hkk : k = Key.mk (k.x.toNat : ℤ) (k.y.toNat : ℤ) 0 none := by
        obtain ⟨x, y, q, v⟩ := k
        obtain ⟨h1, h2, h3, h4⟩ := hk
        simp only [Key.mk.injEq] at *
        exact ⟨by omega, by omega, h3, h4⟩
      have h1 := congrArg (fun P => (P.coeff k.y.toNat).coeff k.x.toNat) h
      simp only [polyXY_coeff c1, polyXY_coeff d1, ← hkk] at h1
      exact_mod_cast h1
    · have hz : ∀ {P : Poly}, P.All Key.IsXY → P.coef k = 0 := by
        intro P hP
        by_contra hne
        obtain ⟨e, he, rfl⟩ := mem_of_coef_ne hne
        exact hk (hP e he)
      rw [hz c1, hz d1]

/-- C89: reducing twice changes nothing. -/
theorem C89_idempotent (f c d : Poly) (a b p : ℤ) (hp : 1 ≤ p) (hf : f.All Key.IsXY)
    (hc : f.reductionModular a b p = .ok c) (hd : c.reductionModular a b p = .ok d) : d.eq c = true := by
  obtain ⟨c1, c2, c3⟩ := reductionModular_polyXY hp hf hc
  have h := (C89_reduction_modular_normal_form c f d c a b p hp c1 hf hd hc).2
  refine h ?_
  have := (dvd_neg (α := (ZMod p.toNat)[X][X])).2 c3
  rwa [neg_sub] at this

/-- C89: factors may be reduced before the product is. -/
theorem C89_mul (f g f' g' m m' c d : Poly) (a b p : ℤ) (hp : 1 ≤ p) (hf : f.All Key.IsXY) (hg : g.All Key.IsXY)
    (hf' : f.reductionModular a b p = .ok f') (hg' : g.reductionModular a b p = .ok g')
    (hm : f.mul g = .ok m) (hm' : f'.mul g' = .ok m')
    (hc : m.reductionModular a b p = .ok c) (hd : m'.reductionModular a b p = .ok d) : c.eq d = true := by
  obtain ⟨f1, f2, f3⟩ := reductionModular_polyXY hp hf hf'
  obtain ⟨g1, g2, g3⟩ := reductionModular_polyXY hp hg hg'
  have mulXY : ∀ {u v w : Poly}, u.All Key.IsXY → v.All Key.IsXY → u.mul v = .ok w → w.All Key.IsXY ∧
      w.polyXY (ZMod p.toNat) = u.polyXY (ZMod p.toNat) * v.polyXY (ZMod p.toNat) := by
    intro u v w hu hv h
    refine ⟨all_mul hu hv ?_ h, evalAt_mul _ _ _ _ (hu.mono fun _ h => h.nonneg) (hv.mono fun _ h => h.nonneg) h⟩
    rintro k k' ⟨a1, a2, a3, a4⟩ ⟨b1, b2, b3, b4⟩ -
    refine ⟨by simp only [Key.mul]; omega, by simp only [Key.mul]; omega, by simp only [Key.mul]; omega, ?_⟩
    simp [Key.mul, a4, b4]
  obtain ⟨m1, m2⟩ := mulXY hf hg hm
  obtain ⟨n1, n2⟩ := mulXY f1 g1 hm'
  refine (C89_reduction_modular_normal_form m m' c d a b p hp m1 n1 hc hd).2 ?_
  rw [m2, n2]
  have := dvd_add (f3.mul_right (g.polyXY (ZMod p.toNat))) (g3.mul_left (f'.polyXY (ZMod p.toNat)))
  unfold curveXY at this
  convert this using 1
  ring

-- `y^2` and `x^3 + x + 1` on the curve `y^2 = x^3 + x + 1` over Z/5
example : ∃ c d, (TermBuilder.new.ypow 2).build.toPol.reductionModular 1 1 5 = .ok c ∧
    (curvePol 1 1).reductionModular 1 1 5 = .ok d ∧ c.eq d = true := by
  have key : ((TermBuilder.new.ypow 2).build.toPol.reductionModular 1 1 5 >>= fun c =>
      (curvePol 1 1).reductionModular 1 1 5 >>= fun d => .ok (c.eq d)) = .ok true := by decide +kernel
  obtain ⟨c, hc, h⟩ := Res.bind_eq_ok.1 key
  obtain ⟨d, hd, h⟩ := Res.bind_eq_ok.1 h
  exact ⟨c, d, hc, hd, Res.ok.inj h⟩
-- `y^2` and `x^3 + x + 2` differ on it
example : ((TermBuilder.new.ypow 2).build.toPol.reductionModular 1 1 5 >>= fun c =>
      (curvePol 1 2).reductionModular 1 1 5 >>= fun d => .ok (c.eq d)) = .ok false := by decide +kernel

end EC
