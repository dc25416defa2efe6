import Verif.Lemmas.Reduction
import Verif.Props.PolyMaps
import Mathlib.RingTheory.Ideal.Quotient.Operations

/-! Properties C20-C21: `reduction` and `reduction_modular`. -/

namespace EC
open Poly

/-- The defining relation of the curve, `y^2 - (x^3 + a x + b)`, as a ring element. -/
noncomputable def curveRel (a b : ℤ) : LRing :=
  mono 0 2 0 - (mono 3 0 0 + a • mono 1 0 0 + b • 1)

theorem mono_eq_val (i j k : ℤ) : mono i j k = (Key.mk i j k none).val := rfl

theorem mono_pow_y (n : ℕ) : mono 0 2 0 ^ n = mono 0 (2 * n) 0 := by
  unfold mono
  rw [AddMonoidAlgebra.single_pow]
  congr 1
  · ext <;> simp [mul_comm]
  · simp

theorem val_setY {k : Key} (h : 2 ≤ k.y) :
    k.val = (k.setY (k.y % 2)).val * mono 0 2 0 ^ (k.y / 2).toNat := by
  rw [mono_pow_y]
  unfold mono Key.val
  rw [AddMonoidAlgebra.single_mul_single]
  congr 1
  · obtain ⟨x, y, q, v⟩ := k
    simp only [Key.expo, Key.setY] at *
    ext <;> simp
    omega

/-! ### C20 -/

/-- Both reductions compute the class modulo the curve relation, in any quotient. -/
theorem redFold_class {R : Type} [CommRing R] (π : LRing →+* R) {a b : ℤ} (hπ : π (curveRel a b) = 0)
    {pw : ℤ → Res Poly} {f c : Poly}
    (hpw : ∀ y ee, 1 ≤ y → pw y = .ok ee →
      ee.lin (fun k => π k.val) = (curvePol a b).lin (fun k => π k.val) ^ y.toNat)
    (h : f.entries.foldlM (redStep pw) new = .ok c) :
    c.lin (fun k => π k.val) = f.lin (fun k => π k.val) := by
  refine redFold_lin (W := fun _ => True) (g := (curvePol a b).lin (fun k => π k.val))
    (fun y ee hy he => ⟨fun _ _ => trivial, hpw y ee hy he⟩) ?_ ?_ h
  · intro e _ hy
    rw [val_setY hy, map_mul, map_pow]
    congr 2
    have h1 := hπ
    unfold curveRel at h1
    rw [map_sub, sub_eq_zero] at h1
    rw [h1, curvePol_lin]
    simp only [map_add, map_zsmul]
    rfl
  · intro e _ _ k _ hk
    rw [Key.val_mul hk, map_mul]

/-- C20: whenever `f.reduction(a,b)` returns, the result has `y`-degree `< 2` and is congruent to
`f` modulo `y^2 - (x^3 + a x + b)`. -/
theorem C20_reduction (f c : Poly) (a b : ℤ) (h : f.reduction a b = .ok c) :
    curveRel a b ∣ f.val - c.val ∧ ∀ e ∈ c.entries, e.1.ypow < 2 := by
  rw [reduction_eq] at h
  constructor
  · let π := Ideal.Quotient.mk (Ideal.span {curveRel a b})
    have hπ : π (curveRel a b) = 0 := Ideal.Quotient.eq_zero_iff_mem.2 (Ideal.mem_span_singleton_self _)
    have := redFold_class π hπ (fun y ee _ he => (Poly.MulFn.power (mulFn_val.comp π) (fun _ _ => trivial) he).2.2) h
    rw [← Ideal.mem_span_singleton, ← Ideal.Quotient.eq, val_eq_lin, val_eq_lin]
    have e1 := map_lin π.toAddMonoidHom Key.val f
    have e2 := map_lin π.toAddMonoidHom Key.val c
    exact (e1.trans this.symm).trans e2.symm
  · refine redFold_all (A := fun _ => True) (B := fun k => k.y < 2) (W := fun y k => k.IsX) ?_
      (fun _ _ => trivial) (fun k _ h => h) ?_ h
    · intro y ee _ he
      exact (Poly.MulFn.power (isX_mulFn (R := ℤ)) (curvePol_isX a b) he).2.1
    · intro k k' _ _ hk' _
      simp only [Key.mul, Key.setY, hk'.2.1]; omega

/-- C20, at points: over any commutative ring, `f` and its reduction agree at every point with
`y^2 = x^3 + a x + b` (non-negative exponents). -/
theorem C20_reduction_eval {R : Type} [CommRing R] (f c : Poly) (a b : ℤ) (x y q : R) (v : ℤ × ℤ → R)
    (hf : f.All Key.Nonneg) (hxy : y ^ 2 = x ^ 3 + a * x + b) (h : f.reduction a b = .ok c) :
    c.evalAt x y q v = f.evalAt x y q v ∧ c.All Key.Nonneg := by
  rw [reduction_eq] at h
  have hpw : ∀ y' ee, 1 ≤ y' → (curvePol a b).power y' = .ok ee → ee.All Key.IsX := fun y' ee _ he =>
    (Poly.MulFn.power (isX_mulFn (R := ℤ)) (curvePol_isX a b) he).2.1
  constructor
  · rw [evalAt_eq_lin, evalAt_eq_lin]
    refine redFold_lin (W := Key.IsX) (g := y ^ 2) ?_ ?_ ?_ h
    · intro y' ee hy' he
      have hX := curvePol_isX a b
      refine ⟨hpw y' ee hy' he, ?_⟩
      rw [(Poly.MulFn.power (mulFn_evalAt x y q v) (hX.mono fun _ h => h.nonneg) he).2.2, curvePol_lin, hxy]
      congr 1
      simp [Key.evalAt, Key.xn]
    · intro e he hy
      simp only [Key.evalAt, Key.setY, ← pow_mul]
      rw [show e.1.key.y.toNat = (e.1.key.y % 2).toNat + 2 * (e.1.key.y / 2).toNat by omega, pow_add]
      ring
    · intro e he hy k hk hc
      refine Key.evalAt_mul x y q v ?_ hk.nonneg hc
      obtain ⟨h1, h2, h3⟩ := hf e he
      exact ⟨h1, by simp only [Key.setY]; omega, h3⟩
  · refine redFold_all (W := fun _ => Key.IsX) hpw hf (fun k hk _ => hk) ?_ h
    rintro k k' ⟨h1, h2, h3⟩ _ ⟨h1', h2', h3', h4'⟩ -
    simp only [Key.mul, Key.setY, Key.Nonneg]
    omega

/-- C20: it returns for every polynomial whose reduced exponents `x + 3 (y/2)` fit in `i32`. -/
theorem C20_reduction_returns (f : Poly) (a b : ℤ)
    (hf : ∀ e ∈ f.entries, 0 ≤ e.1.xpow ∧ InI32 e.1.qpow ∧
      (2 ≤ e.1.ypow → e.1.xpow + 3 * (e.1.ypow / 2) ≤ 2147483647)) :
    ∃ c, f.reduction a b = .ok c := by
  rw [reduction_eq]
  apply redFold_ok
  intro e he hy
  obtain ⟨h1, h2, h3⟩ := hf e he
  have hb : e.1.xpow + 3 * (e.1.key.y / 2) ≤ 2147483647 := h3 hy
  simp only [Monomial.key] at *
  refine ⟨⟨by omega, by omega⟩, h2, ?_⟩
  obtain ⟨ee, hee, hall⟩ := graded_XLe.power (n := e.1.ypow / 2) (by omega) (by norm_num)
    (curvePol_XLe a b) (by omega)
  refine ⟨ee, hee, hall.mono ?_⟩
  rintro k ⟨⟨k1, k2, k3, k4⟩, k5⟩
  obtain ⟨h4, h5⟩ := h2
  refine ⟨Or.inr k4, ⟨?_, ?_⟩, ⟨?_, ?_⟩, ⟨?_, ?_⟩⟩ <;> simp only [Key.setY] <;> omega

/-- sample: `y^5 x + y^2 + 3` -/
def sampleRed : Poly :=
  (((TermBuilder.new.ypow 5).xpow 1).build.toPol.addTerm (TermBuilder.new.ypow 2).build).addTerm
    (TermBuilder.new.coef 3).build

example : ∀ e ∈ sampleRed.entries, 0 ≤ e.1.xpow ∧ InI32 e.1.qpow ∧
    (2 ≤ e.1.ypow → e.1.xpow + 3 * (e.1.ypow / 2) ≤ 2147483647) := by decide +kernel
example : (sampleRed.reduction 2 7 >>= fun c => .ok (c.entries.map fun e => (e.1.xpow, e.1.ypow, e.2))) =
    .ok [(0, 0, 10), (1, 0, 2), (1, 1, 49), (2, 1, 28), (3, 0, 1), (3, 1, 4), (4, 1, 14), (5, 1, 4),
      (7, 1, 1)] := by
  decide +kernel
example : sampleRed.All Key.Nonneg ∧ ∃ c, sampleRed.reduction 2 7 = .ok c :=
  ⟨fun e he => (by decide +kernel : ∀ e ∈ sampleRed.entries, 0 ≤ e.1.xpow ∧ 0 ≤ e.1.ypow ∧ 0 ≤ e.1.qpow) e he,
    C20_reduction_returns _ _ _ (by decide +kernel)⟩

/-! ### C21 -/

/-- On a polynomial with `y`-degree `< 2` the recursive call makes no further call. -/
theorem reductionModular_inner {f : Poly} (hf : f.All (fun k => k.y < 2)) (a b p : ℤ) (d : ℕ) :
    reductionModularAux a b p (d + 1) f = reductionModularAux a b p 1 f := by
  rw [reductionModularAux_eq, reductionModularAux_eq]
  congr 1
  apply redFold_congr
  intro e he hy
  have := hf e he
  omega

theorem curvePol_entries_ne (a b : ℤ) : (curvePol a b).entries ≠ [] := by
  intro h
  have h1 := curvePol_lin (fun k : Key => if k = Key.xn 3 then (1 : ℤ) else 0) a b
  simp [Poly.lin, h, Key.xn] at h1

theorem powerModulo_curve {a b p y : ℤ} {ee : Poly} (h : (curvePol a b).powerModulo y p = .ok ee) :
    1 ≤ p ∧ ee.All Key.IsX := by
  have hp : 1 ≤ p := by
    by_contra hp
    obtain ⟨⟨w, hw⟩, -⟩ := C13_panics (curvePol a b) p (by omega) (curvePol_entries_ne a b)
    unfold Poly.powerModulo at h
    rw [hw, Res.bind_eq_ok] at h
    obtain ⟨_, -, h⟩ := h
    simp at h
  refine ⟨hp, ?_⟩
  obtain ⟨n, rfl⟩ : ∃ n : ℕ, p = n := ⟨p.toNat, by omega⟩
  have hR : ∀ m : Polynomial (ZMod n), (n : ℤ) • m = 0 := by
    intro m; have := char_smul (p := (n : ℤ)) (by omega) m; simpa using this
  exact (Poly.MulFn.powerModulo (isX_mulFn (R := ZMod n)) (by omega) hR (curvePol_isX a b) h).2.1

/-- C21: the recursion of `reduction_modular` always stops, at depth at most two: allowing more
nested calls changes nothing, and the depth bound is never hit. -/
theorem C21_recursion_stops (f : Poly) (a b p : ℤ) :
    (∀ d, 2 ≤ d → reductionModularAux a b p d f = f.reductionModular a b p) ∧
    f.reductionModular a b p ≠ .timeout := by
  have hin : ∀ d y, 1 ≤ d → ((curvePol a b).powerModulo y p >>= reductionModularAux a b p d) =
      ((curvePol a b).powerModulo y p >>= reductionModularAux a b p 1) := by
    intro d y hd
    apply Res.bind_congr_ok
    intro ee hee
    obtain ⟨d, rfl⟩ := Nat.exists_eq_add_of_le' hd
    exact reductionModular_inner ((powerModulo_curve hee).2.mono fun k hk => by rw [hk.2.1]; norm_num) a b p d
  constructor
  · intro d hd
    obtain ⟨d, rfl⟩ := Nat.exists_eq_add_of_le' hd
    unfold reductionModular
    rw [reductionModularAux_eq, reductionModularAux_eq]
    congr 1
    apply redFold_congr
    intro e _ _
    exact hin _ _ (by omega)
  · have hstep : ∀ (pw : ℤ → Res Poly) (t : Poly) (e : Monomial × ℤ),
        (2 ≤ e.1.key.y → pw (e.1.key.y / 2) ≠ .timeout) → redStep pw t e ≠ .timeout := by
      intro pw t e hpw
      by_cases hy : 2 ≤ e.1.key.y
      · have h2 : (Term.from' e.1 e.2).ypow ≥ 2 := hy
        have h0 : Int.fdiv (Term.from' e.1 e.2).ypow 2 = e.1.key.y / 2 := by rw [fdiv_two]; rfl
        simp only [redStep, h2, if_true, ne_eq, Res.bind_eq_timeout, h0]
        rintro (h | ⟨_, -, h | ⟨_, -, h | ⟨_, -, h⟩⟩⟩)
        · exact div_ne_timeout _ _ h
        · exact hpw hy h
        · exact mul_ne_timeout _ _ h
        · cases h
      · rw [redStep_lt (by omega)]; simp
    have hfold : ∀ (pw : ℤ → Res Poly) (l : List (Monomial × ℤ)) (t : Poly),
        (∀ e ∈ l, 2 ≤ e.1.key.y → pw (e.1.key.y / 2) ≠ .timeout) → l.foldlM (redStep pw) t ≠ .timeout := by
      intro pw l
      induction l with
      | nil => intro t _; simp
      | cons e l ih =>
        intro t h
        rw [List.foldlM_cons, ne_eq, Res.bind_eq_timeout]
        rintro (h' | ⟨t', -, h'⟩)
        · exact hstep pw t e (h e (by simp)) h'
        · exact ih t' (fun e he => h e (by simp [he])) h'
    unfold reductionModular
    rw [reductionModularAux_eq, ne_eq, Res.bind_eq_timeout]
    rintro (h | ⟨t, -, h⟩)
    · refine hfold _ _ _ ?_ h
      intro e _ _
      rw [ne_eq, Res.bind_eq_timeout]
      rintro (h' | ⟨ee, hee, h'⟩)
      · unfold Poly.powerModulo at h'
        rw [Res.bind_eq_timeout] at h'
        rcases h' with h' | ⟨_, -, h'⟩
        · exact rassert_ne_timeout _ h'
        rw [Res.bind_eq_timeout] at h'
        rcases h' with h' | ⟨r, hr, h'⟩
        · by_cases hp : 1 ≤ p
          · obtain ⟨r, hr, -⟩ := rem_ok (curvePol a b) (p := p) (by omega)
            rw [hr] at h'; cases h'
          · obtain ⟨⟨w, hw⟩, -⟩ := C13_panics (curvePol a b) p (by omega) (curvePol_entries_ne a b)
            rw [hw] at h'; cases h'
        · exact powModLoop_ne_timeout _ _ _ _ h'
      · rw [reductionModularAux_eq, Res.bind_eq_timeout] at h'
        rcases h' with h' | ⟨t, -, h'⟩
        · refine hfold _ _ _ ?_ h'
          intro e he hy
          have := (powerModulo_curve hee).2 e he
          rw [this.2.1] at hy
          omega
        · exact modularAssign_ne_timeout _ _ h'
    · exact modularAssign_ne_timeout _ _ h

/-- Value and shape of the recursive function at any depth. -/
theorem reductionModularAux_spec {R : Type} [CommRing R] (π : LRing →+* R) {a b p : ℤ} (hp : 1 ≤ p)
    (hπ : π (curveRel a b) = 0) (hR : ∀ m : R, p • m = 0) : ∀ (d : ℕ) (f c : Poly),
    reductionModularAux a b p d f = .ok c →
      c.lin (fun k => π k.val) = f.lin (fun k => π k.val) ∧ c.Canon ∧ c.Reduced p ∧
      c.All (fun k => k.y < 2) ∧ (f.All Key.IsX → c.All Key.IsX) := by
  intro d
  induction d with
  | zero => intro f c h; simp [reductionModularAux] at h
  | succ d ih =>
    intro f c h
    rw [reductionModularAux_eq, Res.bind_eq_ok] at h
    obtain ⟨t, ht, h⟩ := h
    have hm := modularAssign_eq_ok (by omega) h
    have hpw : ∀ y ee, 1 ≤ y → ((curvePol a b).powerModulo y p >>= reductionModularAux a b p d) = .ok ee →
        ee.lin (fun k => π k.val) = (curvePol a b).lin (fun k => π k.val) ^ y.toNat ∧ ee.All Key.IsX := by
      intro y ee hy he
      rw [Res.bind_eq_ok] at he
      obtain ⟨e1, h1, h2⟩ := he
      obtain ⟨h3, -, -, -, h4⟩ := ih e1 ee h2
      refine ⟨?_, h4 (powerModulo_curve h1).2⟩
      rw [h3, (Poly.MulFn.powerModulo (mulFn_val.comp π) (by omega) hR (fun _ _ => trivial) h1).2.2.1,
        show max y 1 = y by omega]
    refine ⟨?_, hm.canon, hm.reduced (by omega), hm.all ?_, fun hf => hm.all ?_⟩
    · rw [hm.lin _ hR]
      exact redFold_class π hπ (fun y ee hy he => (hpw y ee hy he).1) ht
    · refine redFold_all (A := fun _ => True) (B := fun k => k.y < 2) (W := fun y k => k.IsX)
        (fun y ee hy he => (hpw y ee hy he).2) (fun _ _ => trivial) (fun k _ h => h) ?_ ht
      intro k k' _ _ hk' _
      simp only [Key.mul, Key.setY, hk'.2.1]; omega
    · refine redFold_all (W := fun y k => k.IsX)
        (fun y ee hy he => (hpw y ee hy he).2) hf (fun k hk _ => hk) ?_ ht
      intro k k' hk hk2 _ _
      rw [hk.2.1] at hk2; omega

/-- C21: for `p ≥ 1`, whenever `f.reduction_modular(a,b,p)` returns, the result has `y`-degree
`< 2`, coefficients in `[0,p)` and no stored zero, and is congruent to `f` modulo the ideal
`(p, y^2 - (x^3 + a x + b))`. -/
theorem C21_reduction_modular (f c : Poly) (a b p : ℤ) (hp : 1 ≤ p)
    (h : f.reductionModular a b p = .ok c) :
    f.val - c.val ∈ Ideal.span {(p : LRing), curveRel a b} ∧
    (∀ e ∈ c.entries, e.1.ypow < 2) ∧ c.Reduced p ∧ c.Canon := by
  let π := Ideal.Quotient.mk (Ideal.span {(p : LRing), curveRel a b})
  have hπ : π (curveRel a b) = 0 := Ideal.Quotient.eq_zero_iff_mem.2
    (Ideal.subset_span (by simp))
  have hpz : π (p : LRing) = 0 := Ideal.Quotient.eq_zero_iff_mem.2 (Ideal.subset_span (by simp))
  have hR : ∀ m : LRing ⧸ Ideal.span {(p : LRing), curveRel a b}, p • m = 0 := by
    intro m
    rw [map_intCast] at hpz
    rw [zsmul_eq_mul, hpz, zero_mul]
  obtain ⟨h1, h2, h3, h4, -⟩ := reductionModularAux_spec π hp hπ hR 2 f c h
  refine ⟨?_, fun e he => h4 e he, h3, h2⟩
  rw [← Ideal.Quotient.eq, val_eq_lin, val_eq_lin]
  have e1 := map_lin π.toAddMonoidHom Key.val f
  have e2 := map_lin π.toAddMonoidHom Key.val c
  exact (e1.trans h1.symm).trans e2.symm

/-- C21: it returns, for `p ≥ 1`, on every polynomial whose reduced exponents fit in `i32`. -/
theorem C21_returns (f : Poly) (a b p : ℤ) (hp : 1 ≤ p)
    (hf : ∀ e ∈ f.entries, 0 ≤ e.1.xpow ∧ InI32 e.1.qpow ∧
      (2 ≤ e.1.ypow → e.1.xpow + 3 * (e.1.ypow / 2) ≤ 2147483647)) :
    ∃ c, f.reductionModular a b p = .ok c := by
  unfold reductionModular
  rw [reductionModularAux_eq]
  have : ∃ c, f.entries.foldlM
      (redStep fun y => (curvePol a b).powerModulo y p >>= reductionModularAux a b p 1) new = .ok c := by
    apply redFold_ok
    intro e he hy
    obtain ⟨h1, h2, h3⟩ := hf e he
    have hb : e.1.xpow + 3 * (e.1.key.y / 2) ≤ 2147483647 := h3 hy
    simp only [Monomial.key] at *
    refine ⟨⟨by omega, by omega⟩, h2, ?_⟩
    obtain ⟨ee, hee, hall⟩ := graded_XLe.powerModulo (p := p) (by omega) (n := e.1.ypow / 2) (by omega)
      (by norm_num) (curvePol_XLe a b) (by omega)
    have hm : max (e.1.ypow / 2) 1 = e.1.ypow / 2 := by omega
    rw [hm] at hall
    obtain ⟨t, ht⟩ := redFold_ok (f := ee)
      (pw := fun y => (curvePol a b).powerModulo y p >>= reductionModularAux a b p 0)
      (by intro e' he' hy'; rw [(hall e' he').1.2.1] at hy'; omega)
    obtain ⟨r, hr, hmod⟩ := modularAssign_ok t (p := p) (by omega)
    refine ⟨r, ?_, ?_⟩
    · rw [hee, Res.ok_bind, reductionModularAux_eq, ht, Res.ok_bind, hr]
    have hall2 : t.All (XLe (e.1.ypow / 2 * 1)) := by
      refine redFold_all (W := fun _ _ => False) (B := XLe (e.1.ypow / 2 * 1)) ?_ hall (fun k hk _ => hk) (fun _ _ _ _ h _ => h.elim) ht
      intro y ee' _ he''
      rw [Res.bind_eq_ok] at he''
      obtain ⟨_, -, h⟩ := he''
      simp [reductionModularAux] at h
    refine (hmod.all hall2).mono ?_
    rintro k ⟨⟨k1, k2, k3, k4⟩, k5⟩
    obtain ⟨h4, h5⟩ := h2
    refine ⟨Or.inr k4, ⟨?_, ?_⟩, ⟨?_, ?_⟩, ⟨?_, ?_⟩⟩ <;> simp only [Key.setY] <;> omega
  obtain ⟨t, ht⟩ := this
  obtain ⟨r, hr, -⟩ := modularAssign_ok t (p := p) (by omega)
  exact ⟨r, by rw [ht, Res.ok_bind, hr]⟩

example : (sampleRed.reductionModular 2 7 5 >>= fun c => .ok (c.entries.map fun e => (e.1.xpow, e.1.ypow, e.2))) =
    .ok [(1, 0, 2), (1, 1, 4), (2, 1, 3), (3, 0, 1), (3, 1, 4), (4, 1, 4), (5, 1, 4), (7, 1, 1)] := by
  decide +kernel

end EC
