import Verif.Spec.Curve
import Verif.Props.Reduction
import Verif.Model.DivisionPolynomial
import Mathlib.AlgebraicGeometry.EllipticCurve.DivisionPolynomial.Degree
import Mathlib.AlgebraicGeometry.EllipticCurve.Affine.Point

/-! Lemmas about `psi`, `phi`, `omega`. -/

namespace EC
open Poly Polynomial WeierstrassCurve

/-! ### Polynomials in `x` and `y` as elements of `ℤ[X][Y]` -/

theorem evalAt_isXY {R : Type*} [CommRing R] {k : Key} (h : k.IsXY) :
    k.evalAt (C X : R[X][X]) X 0 0 = C (X ^ k.x.toNat) * X ^ k.y.toNat := by
  obtain ⟨x, y, q, v⟩ := k
  obtain ⟨h1, h2, h3, h4⟩ := h
  simp only at h1 h2 h3 h4
  subst h3 h4
  simp [Key.evalAt]

theorem polyXY_coeff {R : Type*} [CommRing R] {P : Poly} (h : P.All Key.IsXY) (i j : ℕ) :
    ((P.polyXY R).coeff j).coeff i = (P.coef (Key.mk i j 0 none) : R) := by
  have h1 := map_lin ((Polynomial.lcoeff R i).toAddMonoidHom.comp
    (Polynomial.lcoeff R[X] j).toAddMonoidHom) (Key.evalAt (C X : R[X][X]) X 0 0) P
  simp only [AddMonoidHom.coe_comp, LinearMap.toAddMonoidHom_coe, Function.comp, lcoeff_apply] at h1
  unfold polyXY
  rw [evalAt_eq_lin, h1]
  have h2 : (P.coef (Key.mk i j 0 none) : R) = P.lin (fun k => if k = Key.mk i j 0 none then (1 : R) else 0) := by
    unfold coef lin
    rw [← eq_intCast (Int.castRingHom R), map_list_sum, List.map_map]
    congr 1
    apply List.map_congr_left
    intro e _
    simp only [Function.comp]
    split_ifs <;> simp
  rw [h2]
  apply lin_congr_fun
  intro e he
  have hk := h e he
  rw [evalAt_isXY hk, coeff_C_mul, coeff_X_pow]
  obtain ⟨h1, h2, h3, h4⟩ := hk
  have : e.1.key = Key.mk i j 0 none ↔ (i = e.1.key.x.toNat ∧ j = e.1.key.y.toNat) := by
    generalize e.1.key = k at *
    obtain ⟨x, y, q, v⟩ := k
    simp only [Key.mk.injEq] at *
    constructor
    · rintro ⟨rfl, rfl, -, -⟩; simp
    · rintro ⟨rfl, rfl⟩; exact ⟨by omega, by omega, h3, h4⟩
  by_cases hj : j = e.1.key.y.toNat
  · by_cases hi : i = e.1.key.x.toNat
    · rw [if_pos hj, mul_one, coeff_X_pow, if_pos hi, if_pos (this.2 ⟨hi, hj⟩)]
    · rw [if_pos hj, mul_one, coeff_X_pow, if_neg hi, if_neg (fun h => hi (this.1 h).1)]
  · rw [if_neg hj, mul_zero, coeff_zero, if_neg (fun h => hj (this.1 h).2)]

theorem mem_of_coef_ne {P : Poly} {k : Key} (h : P.coef k ≠ 0) : ∃ e ∈ P.entries, e.1.key = k := by
  rw [coef_eq] at h
  cases hl : P.look k with
  | none => simp [hl] at h
  | some c => obtain ⟨e, he, hk, -⟩ := look_eq_some hl; exact ⟨e, he, hk⟩

theorem coef_of_mem {P : Poly} {e : Monomial × ℤ} (he : e ∈ P.entries) : P.coef e.1.key = e.2 := by
  rw [coef_eq, look_of_mem he]; rfl

theorem polyXY_mul {a b c : Poly} (ha : a.All Key.IsXY) (hb : b.All Key.IsXY) (h : a.mul b = .ok c) :
    c.polyXY ℤ = a.polyXY ℤ * b.polyXY ℤ :=
  evalAt_mul _ _ _ _ (ha.mono fun _ h => h.nonneg) (hb.mono fun _ h => h.nonneg) h

theorem polyXY_power {a c : Poly} {n : ℤ} (ha : a.All Key.IsXY) (h : a.power n = .ok c) :
    c.polyXY ℤ = a.polyXY ℤ ^ n.toNat := by
  have := (Poly.MulFn.power (mulFn_evalAt (C X : ℤ[X][X]) X 0 0) (ha.mono fun _ h => h.nonneg) h).2.2
  simpa only [polyXY, evalAt_eq_lin] using this

theorem polyXY_sub {a b : Poly} : (a.sub b).polyXY ℤ = a.polyXY ℤ - b.polyXY ℤ := by
  simp only [polyXY, evalAt_eq_lin, lin_sub]

theorem polyXY_toPol (t : Term) : t.toPol.polyXY ℤ = t.coef • t.monomial.key.evalAt (C X : ℤ[X][X]) X 0 0 := by
  simp only [polyXY, evalAt_eq_lin, lin_toPol]

/-- `polyXY` of a polynomial in `x` alone. -/
theorem polyXY_of_y0 {P : Poly} (h : P.All (fun k => k.IsXY ∧ k.y = 0)) :
    P.All Key.IsX ∧ P.polyXY ℤ = C (P.polyX ℤ) := by
  have hX : P.All Key.IsX := h.mono fun k hk => ⟨hk.1.1, hk.2, hk.1.2.2.1, hk.1.2.2.2⟩
  refine ⟨hX, ?_⟩
  unfold polyXY polyX
  rw [evalAt_map, evalAt_eq_lin, evalAt_eq_lin]
  apply lin_congr_fun
  intro e he
  obtain ⟨h1, h2, h3, h4⟩ := hX e he
  simp [Key.evalAt, h2, h3, h4]

/-! ### Division by `c y` -/

theorem cy_entries {c : ℤ} (hc : c ≠ 0) : ((TermBuilder.new.coef c).ypow 1).build.toPol.entries =
    [(Monomial.mk 0 1 0 SubVar.new, c)] := by
  rw [toPol_entries]
  simp [TermBuilder.new, TermBuilder.ypow, TermBuilder.coef, TermBuilder.build, hc]

theorem div_cy_spec {c : ℤ} (hc : c ≠ 0) {a Q : Poly}
    (ha : a.All (fun k => k.IsXY ∧ 1 ≤ k.y))
    (h : a.divTerm ((TermBuilder.new.coef c).ypow 1).build = .ok Q) :
    (∀ {B : Key → Prop}, (∀ e ∈ a.entries, B (e.1.key.setY (e.1.key.y - 1))) → Q.All B) ∧
    ((∀ e ∈ a.entries, c ∣ e.2) → a.polyXY ℤ = C (C c) * X * Q.polyXY ℤ) := by
  unfold divTerm at h
  obtain ⟨-, -, h3, h4⟩ := div_single (cy_entries hc) h
  have hk : ∀ m' : Monomial, m'.key.div (Monomial.mk 0 1 0 SubVar.new).key = m'.key.setY (m'.key.y - 1) := by
    intro m'; simp [Key.div, Monomial.key, Key.setY]
  simp only [hk] at h3 h4
  constructor
  · intro B hB
    rw [all_iff]
    intro k v hkv
    obtain ⟨e, he, rfl, -⟩ := (h3 k v).1 hkv
    exact hB e he
  · intro hd
    unfold polyXY
    rw [evalAt_eq_lin, evalAt_eq_lin, lin_eq_fs _ Q, h4, map_list_sum, List.map_map,
      ← List.sum_map_mul_left]
    unfold lin
    congr 1
    apply List.map_congr_left
    intro e he
    obtain ⟨h1, h2⟩ := ha e he
    obtain ⟨d, hd⟩ := hd e he
    rw [Function.comp, Finsupp.linearCombination_single, evalAt_isXY h1, hd,
      Int.mul_fdiv_cancel_left _ hc, evalAt_isXY]
    · simp only [Key.setY, zsmul_eq_mul, Int.cast_mul]
      rw [show e.1.key.y.toNat = (e.1.key.y - 1).toNat + 1 by omega, pow_succ]
      have : (C (C c) : ℤ[X][X]) = (c : ℤ[X][X]) := by simp
      rw [this]
      ring
    · obtain ⟨h1, h2', h3, h4⟩ := h1
      exact ⟨h1, by simp only [Key.setY]; omega, h3, h4⟩

theorem div_cy_ok {c : ℤ} (hc : c ≠ 0) {a : Poly}
    (ha : a.All (fun k => k.IsXY ∧ k.x ≤ 2147483647 ∧ 1 ≤ k.y ∧ k.y ≤ 2147483647)) :
    ∃ Q, a.divTerm ((TermBuilder.new.coef c).ypow 1).build = .ok Q := by
  unfold divTerm
  apply div_single_ok (cy_entries hc) rfl hc
  intro e he
  obtain ⟨⟨h1, h2, h3, h4⟩, h5, h6⟩ := ha e he
  simp only [Monomial.key] at *
  refine ⟨⟨?_, ?_⟩, ⟨?_, ?_⟩, ⟨?_, ?_⟩⟩ <;> omega

/-- Divisibility of the stored coefficients, from the value. -/
theorem dvd_coefs {c : ℤ} {a : Poly} {P : ℤ[X][X]} (ha : a.All Key.IsXY)
    (h : a.polyXY ℤ = C (C c) * P) : ∀ e ∈ a.entries, c ∣ e.2 := by
  intro e he
  obtain ⟨h1, h2, h3, h4⟩ := ha e he
  rw [← coef_of_mem he]
  have := polyXY_coeff (R := ℤ) ha e.1.key.x.toNat e.1.key.y.toNat
  have hk : Key.mk (e.1.key.x.toNat) (e.1.key.y.toNat) 0 none = e.1.key := by
    generalize e.1.key = k at *
    obtain ⟨x, y, q, v⟩ := k
    simp only [Key.mk.injEq] at *
    exact ⟨by omega, by omega, h3.symm, h4.symm⟩
  rw [hk, h, coeff_C_mul, coeff_C_mul] at this
  exact ⟨_, by simpa using this.symm⟩

/-! ### The coordinate ring -/

theorem mk_polyXY (a b : ℤ) (P : Poly) :
    Affine.CoordinateRing.mk (shortW a b).toAffine (P.polyXY ℤ) =
      P.evalAt (Affine.CoordinateRing.mk (shortW a b).toAffine (C X))
        (Affine.CoordinateRing.mk (shortW a b).toAffine X) 0 0 := by
  unfold polyXY
  rw [evalAt_map]
  simp only [map_zero]
  rfl

theorem mk_curve (a b : ℤ) : (Affine.CoordinateRing.mk (shortW a b).toAffine X) ^ 2 =
    (Affine.CoordinateRing.mk (shortW a b).toAffine (C X)) ^ 3 +
      a * Affine.CoordinateRing.mk (shortW a b).toAffine (C X) + b := by
  have h : Affine.CoordinateRing.mk (shortW a b).toAffine (shortW a b).toAffine.polynomial = 0 :=
    AdjoinRoot.mk_self
  have hp : (shortW a b).toAffine.polynomial = X ^ 2 - (C X ^ 3 + (a : ℤ[X][X]) * C X + (b : ℤ[X][X])) := by
    simp [Affine.polynomial]
  have h2 : Affine.CoordinateRing.mk (shortW a b).toAffine
      (X ^ 2 - (C X ^ 3 + (a : ℤ[X][X]) * C X + (b : ℤ[X][X]))) = 0 := by rw [← hp]; exact h
  rw [map_sub, sub_eq_zero] at h2
  simpa using h2

theorem mk_reduction {a b : ℤ} {f c : Poly} (hf : f.All Key.IsXY) (h : f.reduction a b = .ok c) :
    Affine.CoordinateRing.mk (shortW a b).toAffine (c.polyXY ℤ) =
      Affine.CoordinateRing.mk (shortW a b).toAffine (f.polyXY ℤ) := by
  rw [mk_polyXY, mk_polyXY]
  exact (C20_reduction_eval f c a b _ _ _ _ (hf.mono fun _ h => h.nonneg) (mk_curve a b) h).1

theorem mk_C_inj {a b : ℤ} {P Q : ℤ[X]}
    (h : Affine.CoordinateRing.mk (shortW a b).toAffine (C P) =
      Affine.CoordinateRing.mk (shortW a b).toAffine (C Q)) : P = Q := by
  have := (Affine.CoordinateRing.smul_basis_eq_zero (W' := (shortW a b).toAffine) (p := P - Q) (q := 0)
    (by rw [Affine.CoordinateRing.smul, C_sub, map_sub, h]; simp)).1
  exact sub_eq_zero.1 this

theorem psi2 (a b : ℤ) : (shortW a b).ψ₂ = C (C 2) * X := by
  simp [WeierstrassCurve.ψ₂, Affine.polynomialY]

/-- If nothing has to be reduced, `reduction` changes neither value nor monomials. -/
theorem reduction_lt {a b : ℤ} {f : Poly} (hf : f.All (fun k => k.y < 2)) :
    ∃ c, f.reduction a b = .ok c ∧ (∀ φ : Key → ℤ[X][X], c.lin φ = f.lin φ) ∧
      ∀ {B : Key → Prop}, f.All B → c.All B := by
  obtain ⟨c, hc⟩ := redFold_ok (f := f) (pw := fun y => (curvePol a b).power y)
    (by intro e he hy; have := hf e he; omega)
  refine ⟨c, hc, fun φ => ?_, fun {B} hB => ?_⟩
  · refine redFold_lin (pw := fun y => if y = 0 then .timeout else .timeout) (W := fun _ => True) (g := 0) (by intro y ee _ h; simp at h) ?_ ?_
      (by rw [← hc]; exact redFold_congr _ _ (by intro e he hy; have := hf e he; omega))
    · intro e he hy; have := hf e he; omega
    · intro e he hy; have := hf e he; omega
  · refine redFold_all (pw := fun y => if y = 0 then .timeout else .timeout) (W := fun _ _ => True)
      (A := fun k => B k ∧ k.y < 2) (by intro y ee _ h; simp at h) (fun e he => ⟨hB e he, hf e he⟩)
      (fun k hk _ => hk.1) (fun k k' hk hy => by have := hk.2; omega)
      (by rw [← hc]; exact redFold_congr _ _ (by intro e he hy; have := hf e he; omega))

end EC
