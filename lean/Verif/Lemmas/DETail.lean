import Verif.Lemmas.SchoofOverflow
import Verif.Lemmas.SchoofDE
import Verif.Lemmas.SchoofTotal
import Verif.Lemmas.FiveDE

/-! The last step of cases (d), (e) of `schoof`: `y^a - y` divided by `y`, reduced, and compared with `psi_l`. -/

namespace EC
open Poly Polynomial WeierstrassCurve

/-- The monomial `y^n`. -/
def yk (n : ℤ) : Key := ⟨0, n, 0, none⟩

theorem key_ypow (n : ℤ) : (TermBuilder.new.ypow n).build.monomial.key = yk n := by
  simp [TermBuilder.new, TermBuilder.build, TermBuilder.ypow, Monomial.key, SubVar.key, SubVar.new, yk]

/-- Monomials of `reduction_modular`. -/
theorem redMod_all {f c : Poly} {a b p : ℤ} {A B : Key → Prop} (hp : 1 ≤ p) (h : f.reductionModular a b p = .ok c)
    (hf : f.All A) (h1 : ∀ k, A k → k.y < 2 → B k)
    (h2 : ∀ k k', A k → 2 ≤ k.y → k'.IsX → (k.setY (k.y % 2)).Compat k' → B ((k.setY (k.y % 2)).mul k')) : c.All B := by
  unfold reductionModular at h
  rw [reductionModularAux_eq] at h
  obtain ⟨t, ht, h⟩ := Res.bind_eq_ok.1 h
  refine (modularAssign_eq_ok (show 0 < p by omega) h).all ?_
  refine redFold_all (W := fun y k => k.IsX) ?_ hf h1 h2 ht
  intro y ee hy he
  obtain ⟨e1, h3, h4⟩ := Res.bind_eq_ok.1 he
  obtain ⟨n, rfl⟩ : ∃ n : ℕ, p = n := ⟨p.toNat, by omega⟩
  let π := Ideal.Quotient.mk (Ideal.span {((n : ℤ) : LRing), curveRel a b})
  have hπ : π (curveRel a b) = 0 := Ideal.Quotient.eq_zero_iff_mem.2 (Ideal.subset_span (by simp))
  have hpz : π ((n : ℤ) : LRing) = 0 := Ideal.Quotient.eq_zero_iff_mem.2 (Ideal.subset_span (by simp))
  have hR : ∀ m : LRing ⧸ Ideal.span {((n : ℤ) : LRing), curveRel a b}, (n : ℤ) • m = 0 := by
    intro m
    rw [map_intCast] at hpz
    rw [zsmul_eq_mul, hpz, zero_mul]
  exact (reductionModularAux_spec π hp hπ hR 1 e1 ee h4).2.2.2.2 (powerModulo_curve h3).2

/-- Without powers of `y` to replace, `reduction_modular` only reduces the coefficients. -/
theorem redMod_lin {f c : Poly} {a b p : ℤ} {R : Type} [CommRing R] (hp : 1 ≤ p) (hR : ∀ m : R, p • m = 0)
    (h : f.reductionModular a b p = .ok c) (hf : f.All fun k => k.y < 2) (φ : Key → R) : c.lin φ = f.lin φ := by
  unfold reductionModular at h
  rw [reductionModularAux_eq] at h
  obtain ⟨t, ht, h⟩ := Res.bind_eq_ok.1 h
  have hm := modularAssign_eq_ok (show 0 < p by omega) h
  rw [hm.lin _ hR]
  refine redFold_lin (g := 1) (W := fun _ => True) (pw := fun y => .panic .explicit) (by simp) ?_ ?_ (c := t) ?_
  · intro e he hy; have := hf e he; omega
  · intro e he hy; have := hf e he; omega
  · rw [← ht]
    apply redFold_congr
    intro e he hy
    have := hf e he; omega

section
variable {a b q : ℤ} {s1 s3 f1 om p16 p16' : Poly}

/-- The polynomial `y^(a-1) - 1`. -/
theorem p16_spec (hq : 1 ≤ q) (hs1 : psi a b 1 = .ok s1) (hs3 : s1.power 3 = .ok s3)
    (hf1 : Poly.termMul (TermBuilder.new.ypow a).build s3 = .ok f1) (hom : omega a b 1 = .ok om)
    (h16 : (f1.sub om).divTerm (TermBuilder.new.ypow 1).build = .ok p16) (h16' : p16.modularAssign q = .ok p16') :
    p16'.All (fun k => k = yk (a - 1) ∨ k = yk 0) ∧
    ∀ {R : Type} [CommRing R], (∀ m : R, q • m = 0) → ∀ φ : Key → R, p16'.lin φ = φ (yk (a - 1)) - φ (yk 0) := by
  rw [← Res.ok.inj ((psi_one a b).symm.trans hs1)] at hs3
  rw [← Res.ok.inj ((omega_one a b).symm.trans hom)] at h16
  have hS : ∀ (R : Type) [CommRing R], MulFn (fun k => k = yk 0) (fun _ => (1 : R)) := by
    intro R _
    refine ⟨rfl, rfl, ?_, fun _ _ _ => (one_mul 1).symm⟩
    rintro k k' rfl rfl -
    rfl
  have h1X : (TermBuilder.new.build.toPol).All (fun k => k = yk 0) := all_toPol fun _ => by
    simp [TermBuilder.new, TermBuilder.build, Monomial.key, SubVar.key, SubVar.new, yk]
  have e3 := (MulFn.power (hS ℤ) h1X hs3).2.1
  have hXq : (TermBuilder.new.ypow a).build.toPol.All (fun k => k = yk a) := all_toPol fun _ => key_ypow a
  have eM : ∀ n, (yk n).mul (yk 0) = yk n := by intro n; simp [yk, Key.mul]
  have hf1a : f1.All (fun k => k = yk a) := all_mul hXq e3 (by
    rintro k k' rfl rfl -
    exact eM a) hf1
  have hsa : (f1.sub (TermBuilder.new.ypow 1).build.toPol).All (fun k => k = yk a ∨ k = yk 1) :=
    all_sub (hf1a.mono fun k h => .inl h) (all_toPol fun _ => .inr (key_ypow 1))
  have hb : (TermBuilder.new.ypow 1).build.toPol.entries = [((TermBuilder.new.ypow 1).build.monomial, 1)] := by
    decide +kernel
  obtain ⟨-, -, d3, d4⟩ := div_single hb h16
  have hdiv : ∀ n, (yk n).div (TermBuilder.new.ypow 1).build.monomial.key = yk (n - 1) := by
    intro n; rw [key_ypow]; simp [yk, Key.div]
  have hm := modularAssign_eq_ok (show 0 < q by omega) h16'
  constructor
  · refine hm.all ?_
    rw [all_iff]
    intro k v hkv
    obtain ⟨e, he, rfl, -⟩ := (d3 k v).1 hkv
    rcases hsa e he with h | h
    · left; rw [h]; exact hdiv a
    · right; rw [h]; exact hdiv 1
  · intro R _ hR φ
    have h3l : s3.lin (fun _ => (1 : R)) = 1 := by
      rw [(MulFn.power (hS R) h1X hs3).2.2, lin_toPol]
      simp [TermBuilder.new, TermBuilder.build]
    have hf1l : ∀ χ : Key → R, f1.lin χ = χ (yk a) := by
      intro χ
      rw [lin_mul (φ := χ) (ψ := fun _ => 1) hf1 (by
        intro ie hi je hj _
        rw [hXq ie hi, e3 je hj, eM, mul_one]), h3l, mul_one, lin_toPol, key_ypow]
      simp [TermBuilder.new, TermBuilder.build, TermBuilder.ypow]
    rw [hm.lin _ hR, lin_eq_fs, d4, map_list_sum, List.map_map]
    have : (List.map (fun e : Monomial × ℤ => e.2 • φ (e.1.key.div (TermBuilder.new.ypow 1).build.monomial.key))
        (f1.sub (TermBuilder.new.ypow 1).build.toPol).entries).sum = φ (yk (a - 1)) - φ (yk 0) := by
      have := lin_sub (fun k : Key => φ (k.div (TermBuilder.new.ypow 1).build.monomial.key)) f1
        (TermBuilder.new.ypow 1).build.toPol
      unfold lin at this
      rw [this]
      have e1 := hf1l (fun k : Key => φ (k.div (TermBuilder.new.ypow 1).build.monomial.key))
      unfold lin at e1
      rw [e1, hdiv]
      have e2 := lin_toPol (fun k : Key => φ (k.div (TermBuilder.new.ypow 1).build.monomial.key)) (TermBuilder.new.ypow 1).build
      unfold lin at e2
      rw [e2]
      have := hdiv 1
      rw [← key_ypow 1] at this
      rw [this]
      simp [TermBuilder.new, TermBuilder.build, TermBuilder.ypow]
    rw [← this]
    congr 1
    apply List.map_congr_left
    intro e he
    simp only [Function.comp, Finsupp.linearCombination_single, Int.fdiv_one]

end
end EC
