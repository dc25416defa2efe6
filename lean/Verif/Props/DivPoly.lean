import Verif.Lemmas.Psi
import Verif.Lemmas.PsiMod2

/-! Properties C29-C32: division polynomials.

`shortW a b` is Mathlib's Weierstrass curve `y^2 = x^3 + a x + b`; `W.Ψ n`, `W.Φ n`, `W.ψ n` are
Mathlib's division polynomials (`Ψ n` is the form of `ψ n` reduced modulo the curve equation). -/

namespace EC
open Poly Polynomial WeierstrassCurve

/-! ### C29 -/

/-- C29: whenever `psi(a,b,n)` returns, `n ≥ 0` and its value is the `n`-th division polynomial in
reduced form; its monomials are `x^i` (`n` odd) resp. `x^i y` (`n` even). -/
theorem C29_psi (a b n : ℤ) (c : Poly) (h : psi a b n = .ok c) :
    0 ≤ n ∧ c.polyXY ℤ = (shortW a b).Ψ n ∧
    ∀ e ∈ c.entries, 0 ≤ e.1.xpow ∧ e.1.ypow = (if n % 2 = 0 then 1 else 0) ∧ e.1.qpow = 0 ∧
      e.1.var.empty = true := by
  obtain ⟨h0, hok⟩ := psi_spec a b n c h
  refine ⟨h0, hok.val, fun e he => ?_⟩
  obtain ⟨⟨h1, h2, h3, h4⟩, h5, h6⟩ := hok.wk e he
  refine ⟨h1, ?_, h3, SubVar.key_eq_none.1 h4⟩
  simp only [Monomial.key] at h5
  split_ifs <;> omega

/-- C29: in the coordinate ring of the curve the value is the division polynomial `ψ n`. -/
theorem C29_psi_class (a b n : ℤ) (c : Poly) (h : psi a b n = .ok c) :
    Affine.CoordinateRing.mk (shortW a b).toAffine (c.polyXY ℤ) =
      Affine.CoordinateRing.mk (shortW a b).toAffine ((shortW a b).ψ n) := by
  rw [(C29_psi a b n c h).2.1, ← Affine.CoordinateRing.mk_ψ]

/-! ### C30 -/

theorem phi_eq (a b n : ℤ) (hn : 1 ≤ n) (hn' : n + 1 ≤ 2147483647) : phi a b n = (do
    let s ← (← psi a b n).power 2
    let t ← Poly.termMul (TermBuilder.new.xpow 1).build s
    let u ← (← psi a b (n + 1)).mul (← psi a b (n - 1))
    (t.sub u).reduction a b) := by
  unfold phi
  have h1 : decide (n ≥ 1) = true := by simpa using hn
  have h2 : chk (n + 1) = .ok (n + 1) := chk_of ⟨by omega, by omega⟩
  simp only [h1, h2, rassert_true, Res.ok_bind]

theorem wk_x : (TermBuilder.new.xpow 1).build.toPol.All (WK 0 2) := by
  refine all_toPol fun _ => ?_
  simp [WK, Key.IsXY, TermBuilder.new, TermBuilder.build, TermBuilder.xpow,
      Monomial.key, SubVar.key, SubVar.new]

/-- Shape of the argument of the reduction in `phi`. -/
def PhiK (n : ℤ) (k : Key) : Prop := k.IsXY ∧ (k.y = 0 ∨ k.y = 2) ∧ 2 * k.x + 3 * k.y ≤ 2 * n ^ 2

theorem phi_shape {a b n : ℤ} {p p2 t e g u : Poly} (hp : PsiOK a b n p) (he : PsiOK a b (n + 1) e)
    (hg : PsiOK a b (n - 1) g) (hp2 : p.power 2 = .ok p2)
    (ht : Poly.termMul (TermBuilder.new.xpow 1).build p2 = .ok t) (hu : e.mul g = .ok u) :
    (t.sub u).All (PhiK n) ∧ (t.sub u).All XMax ∧
    (t.sub u).polyXY ℤ = C X * (shortW a b).Ψ n ^ 2 - (shortW a b).Ψ (n + 1) * (shortW a b).Ψ (n - 1) := by
  have hw2 := wk_power hp.wk hp2
  refine ⟨?_, all_sub (xmax_mul ht) (xmax_mul hu), ?_⟩
  · refine all_sub' (wk_mul wk_x hw2 ht) (wk_mul he.wk hg.wk hu) ?_ ?_
    · rintro k ⟨k1, k2, k3⟩
      refine ⟨k1, by omega, ?_⟩
      ring_nf at k3 ⊢
      omega
    · rintro k ⟨k1, k2, k3⟩
      refine ⟨k1, by omega, ?_⟩
      ring_nf at k3 ⊢
      omega
  · rw [polyXY_sub, polyXY_mul (wk_x.mono fun _ h => h.1) (hw2.mono fun _ h => h.1) ht,
      polyXY_mul he.isXY hg.isXY hu, polyXY_power hp.isXY hp2, hp.val, he.val, hg.val, polyXY_toPol]
    simp [TermBuilder.new, TermBuilder.build, TermBuilder.xpow, Monomial.key, SubVar.key, SubVar.new,
      Key.evalAt]

/-- What is proved about the result of `phi(a,b,n)`. -/
theorem phi_spec {a b n : ℤ} {c : Poly} (h : phi a b n = .ok c) :
    1 ≤ n ∧ n + 1 ≤ 2147483647 ∧ c.All Key.IsX ∧ c.All XMax ∧ c.polyX ℤ = (shortW a b).Φ n := by
  have hn : 1 ≤ n := by
    by_contra hn
    have : decide (n ≥ 1) = false := by simpa using hn
    unfold phi at h
    rw [this] at h
    simp at h
  have hn' : n + 1 ≤ 2147483647 := by
    unfold phi at h
    simp only [Res.bind_eq_ok] at h
    obtain ⟨_, _, _, _, _, _, _, _, m, hm, _⟩ := h
    exact (chk_eq_ok.1 hm).1.2
  refine ⟨hn, hn', ?_⟩
  rw [phi_eq a b n hn hn'] at h
  simp only [Res.bind_eq_ok] at h
  obtain ⟨p, hp, p2, hp2, t, ht, e, he, g, hg, u, hu, hc⟩ := h
  obtain ⟨s1, s2, s3⟩ := phi_shape (psi_spec a b _ _ hp).2 (psi_spec a b _ _ he).2 (psi_spec a b _ _ hg).2
    hp2 ht hu
  have hall : c.All (fun k => k.IsXY ∧ k.y = 0) := by
    have hc' := hc
    rw [reduction_eq] at hc'
    refine redFold_all (W := XLe) (fun y ee _ h => power_XLe h) s1 ?_ ?_ hc'
    · rintro k ⟨k1, k2, k3⟩ k4
      exact ⟨k1, by omega⟩
    · rintro ⟨x, y, q, v⟩ ⟨x', y', q', v'⟩ ⟨⟨l1, l2, l3, l4⟩, k2, k3⟩ k4 ⟨⟨m1, m2, m3, m4⟩, m5⟩ -
      simp only at *
      subst l3 l4 m2 m3 m4
      refine ⟨⟨?_, ?_, ?_, ?_⟩, ?_⟩ <;> simp only [Key.mul, Key.setY, Option.or_none, add_zero] <;> omega
  have hmax : c.All XMax := by
    have hc' := hc
    rw [reduction_eq] at hc'
    refine redFold_all (W := fun _ _ => True) (fun _ _ _ _ _ _ => trivial) s2 (fun k hk _ => hk) ?_ hc'
    intro k k' _ _ _ hcp
    exact hcp.2.1.2
  obtain ⟨hX, hy0⟩ := polyXY_of_y0 hall
  refine ⟨hX, hmax, ?_⟩
  apply mk_C_inj (a := a) (b := b)
  have hmk := mk_reduction (s1.mono fun _ h => h.1) hc
  rw [hy0] at hmk
  rw [hmk, s3, ← Affine.CoordinateRing.mk_φ, WeierstrassCurve.φ]
  simp only [map_sub, map_mul, map_pow, Affine.CoordinateRing.mk_ψ]

/-- C30: whenever `phi(a,b,n)` returns, `n ≥ 1` and the result is a polynomial in `x` alone, equal to
Mathlib's `Φ n`. -/
theorem C30_phi (a b n : ℤ) (c : Poly) (h : phi a b n = .ok c) :
    1 ≤ n ∧ (∀ e ∈ c.entries, 0 ≤ e.1.xpow ∧ e.1.ypow = 0 ∧ e.1.qpow = 0 ∧ e.1.var.empty = true) ∧
    c.polyX ℤ = (shortW a b).Φ n := by
  obtain ⟨h1, -, h2, -, h3⟩ := phi_spec h
  refine ⟨h1, fun e he => ?_, h3⟩
  obtain ⟨k1, k2, k3, k4⟩ := h2 e he
  exact ⟨k1, k2, k3, SubVar.key_eq_none.1 k4⟩

/-- C30: on the curve the result is `x ψ_n^2 - ψ_{n+1} ψ_{n-1}`. -/
theorem C30_phi_class (a b n : ℤ) (c : Poly) (h : phi a b n = .ok c) :
    Affine.CoordinateRing.mk (shortW a b).toAffine (C (c.polyX ℤ)) =
      Affine.CoordinateRing.mk (shortW a b).toAffine
        (C X * (shortW a b).ψ n ^ 2 - (shortW a b).ψ (n + 1) * (shortW a b).ψ (n - 1)) := by
  rw [(C30_phi a b n c h).2.2, ← Affine.CoordinateRing.mk_φ]
  rfl

/-! ### C31 -/

theorem omega_one (a b : ℤ) : omega a b 1 = .ok (TermBuilder.new.ypow 1).build.toPol := rfl

theorem omega_eq (a b n : ℤ) (hn : 2 ≤ n) (hn' : n + 2 ≤ 2147483647) : omega a b n = (do
    let s ← (← psi a b (n + 2)).mul (← (← psi a b (n - 1)).power 2)
    let t ← (← psi a b (n - 2)).mul (← (← psi a b (n + 1)).power 2)
    let i ← (s.sub t).divTerm ((TermBuilder.new.coef 4).ypow 1).build
    i.reduction a b) := by
  unfold omega
  have h1 : decide (n ≥ 1) = true := by simp; omega
  have h2 : chk (n + 2) = .ok (n + 2) := chk_of ⟨by omega, by omega⟩
  have h3 : n ≠ 1 := by omega
  simp only [h1, h2, h3, if_false, rassert_true, Res.ok_bind]

/-- `ψ_{n+2} ψ_{n-1}^2 - ψ_{n-2} ψ_{n+1}^2` (reduced division polynomials). -/
noncomputable def omegaNum (a b n : ℤ) : ℤ[X][X] :=
  (shortW a b).Ψ (n + 2) * (shortW a b).Ψ (n - 1) ^ 2 - (shortW a b).Ψ (n - 2) * (shortW a b).Ψ (n + 1) ^ 2

/-- The numerator of `omega` is divisible by `4 y`. -/
theorem omegaNum_dvd (a b n : ℤ) (hn : 2 ≤ n) : ∃ Q : ℤ[X][X], omegaNum a b n = C (C 4) * Q := by
  have h4 : (C (C 4) : ℤ[X][X]) = C (C 2) * C (C 2) := by
    rw [← C_mul, ← C_mul]; norm_num
  unfold omegaNum
  simp only [WeierstrassCurve.Ψ, psi2]
  rcases Int.emod_two_eq_zero_or_one n with h | h
  · have e1 : Even (n + 2) := by rw [Int.even_iff]; omega
    have e2 : ¬ Even (n - 1) := by rw [Int.even_iff]; omega
    have e3 : Even (n - 2) := by rw [Int.even_iff]; omega
    have e4 : ¬ Even (n + 1) := by rw [Int.even_iff]; omega
    simp only [e1, e2, e3, e4, if_true, if_false]
    obtain ⟨Q, hQ⟩ := bracket_even a b n hn h
    refine ⟨X * C Q, ?_⟩
    have := congrArg (C : ℤ[X] → ℤ[X][X]) hQ
    simp only [C_sub, C_mul, C_pow] at this
    rw [h4]
    linear_combination (C (C 2) * X) * this
  · have e1 : ¬ Even (n + 2) := by rw [Int.even_iff]; omega
    have e2 : Even (n - 1) := by rw [Int.even_iff]; omega
    have e3 : ¬ Even (n - 2) := by rw [Int.even_iff]; omega
    have e4 : Even (n + 1) := by rw [Int.even_iff]; omega
    simp only [e1, e2, e3, e4, if_true, if_false]
    refine ⟨X ^ 2 * (C ((shortW a b).preΨ (n + 2)) * C ((shortW a b).preΨ (n - 1)) ^ 2 -
      C ((shortW a b).preΨ (n - 2)) * C ((shortW a b).preΨ (n + 1)) ^ 2), ?_⟩
    rw [h4]
    ring

theorem omega_shape {a b n : ℤ} {e f g h f2 h2 s t : Poly} (he : PsiOK a b (n + 2) e)
    (hf : PsiOK a b (n - 1) f) (hg : PsiOK a b (n - 2) g) (hh : PsiOK a b (n + 1) h)
    (hf2 : f.power 2 = .ok f2) (hh2 : h.power 2 = .ok h2)
    (hs : e.mul f2 = .ok s) (ht : g.mul h2 = .ok t) :
    (s.sub t).All (WK (1 + n % 2) (3 * n ^ 2 + 3)) ∧ (s.sub t).All XMax ∧
    (s.sub t).polyXY ℤ = omegaNum a b n := by
  refine ⟨?_, all_sub (xmax_mul hs) (xmax_mul ht), ?_⟩
  · refine all_sub' (wk_mul he.wk (wk_power hf.wk hf2) hs) (wk_mul hg.wk (wk_power hh.wk hh2) ht) ?_ ?_
    · rintro k ⟨k1, k2, k3⟩
      refine ⟨k1, by omega, ?_⟩
      ring_nf at k3 ⊢
      omega
    · rintro k ⟨k1, k2, k3⟩
      refine ⟨k1, by omega, ?_⟩
      ring_nf at k3 ⊢
      omega
  · rw [polyXY_sub, polyXY_mul he.isXY ((wk_power hf.wk hf2).mono fun _ h => h.1) hs,
      polyXY_mul hg.isXY ((wk_power hh.wk hh2).mono fun _ h => h.1) ht,
      polyXY_power hf.isXY hf2, polyXY_power hh.isXY hh2, he.val, hf.val, hg.val, hh.val]
    rfl

theorem omega_finish {a b n : ℤ} {i j : Poly} (hn : 2 ≤ n) (h1 : i.All (WK (1 + n % 2) (3 * n ^ 2 + 3)))
    (h2 : i.All XMax) (h3 : i.polyXY ℤ = omegaNum a b n)
    (hj : i.divTerm ((TermBuilder.new.coef 4).ypow 1).build = .ok j) :
    ∃ c, j.reduction a b = .ok c ∧ c.All (WK (n % 2) (3 * n ^ 2)) ∧ c.All XMax ∧
      omegaNum a b n = C (C 4) * X * c.polyXY ℤ := by
  obtain ⟨Q, hQ⟩ := omegaNum_dvd a b n hn
  have hdiv : ∀ e ∈ i.entries, (4 : ℤ) ∣ e.2 :=
    dvd_coefs (P := Q) (h1.mono fun _ h => h.1) (by rw [h3, hQ])
  obtain ⟨d1, d2⟩ := div_cy_spec (c := 4) (by norm_num)
    (h1.mono fun k hk => ⟨hk.1, by rw [hk.2.1]; omega⟩) hj
  have d2 := d2 hdiv
  have hw : j.All (fun k => WK (n % 2) (3 * n ^ 2) k ∧ XMax k) := by
    apply d1
    intro e he
    obtain ⟨⟨k1, k2, k3, k4⟩, k5, k6⟩ := h1 e he
    refine ⟨⟨⟨k1, ?_, k3, k4⟩, ?_, ?_⟩, h2 e he⟩ <;> simp only [Key.setY] <;> omega
  obtain ⟨c, hc, hlin, hall⟩ := reduction_lt (a := a) (b := b) (f := j)
    (hw.mono fun k hk => by rw [hk.1.2.1]; omega)
  have hw' := hall hw
  refine ⟨c, hc, hw'.mono fun _ h => h.1, hw'.mono fun _ h => h.2, ?_⟩
  have : c.polyXY ℤ = j.polyXY ℤ := by
    unfold polyXY; rw [evalAt_eq_lin, evalAt_eq_lin, hlin]
  rw [this, ← d2, h3]

theorem omega_spec {a b n : ℤ} {c : Poly} (h : omega a b n = .ok c) (hn : 2 ≤ n) :
    n + 2 ≤ 2147483647 ∧ c.All (WK (n % 2) (3 * n ^ 2)) ∧ c.All XMax ∧
      omegaNum a b n = C (C 4) * X * c.polyXY ℤ := by
  have hn' : n + 2 ≤ 2147483647 := by
    unfold omega at h
    have h3 : n ≠ 1 := by omega
    simp only [h3, if_false, Res.bind_eq_ok] at h
    obtain ⟨_, _, m, hm, _⟩ := h
    exact (chk_eq_ok.1 hm).1.2
  refine ⟨hn', ?_⟩
  rw [omega_eq a b n hn hn'] at h
  simp only [Res.bind_eq_ok] at h
  obtain ⟨e, he, f, hf, f2, hf2, s, hs, g, hg, h, hh, h2, hh2, t, ht, j, hj, hc⟩ := h
  obtain ⟨s1, s2, s3⟩ := omega_shape (psi_spec a b _ _ he).2 (psi_spec a b _ _ hf).2 (psi_spec a b _ _ hg).2
    (psi_spec a b _ _ hh).2 hf2 hh2 hs ht
  obtain ⟨c', hc', r1, r2, r3⟩ := omega_finish hn s1 s2 s3 hj
  rw [hc] at hc'
  cases hc'
  exact ⟨r1, r2, r3⟩

/-- C31: whenever `omega(a,b,n)` returns with `n ≥ 2`, `4 y ω_n = ψ_{n+2} ψ_{n-1}^2 - ψ_{n-2} ψ_{n+1}^2`
exactly, for the reduced division polynomials: the division by `4y` loses nothing.  The result is
a polynomial in `x` (`n` even) or `y` times one (`n` odd). -/
theorem C31_omega (a b n : ℤ) (c : Poly) (hn : 2 ≤ n) (h : omega a b n = .ok c) :
    4 * X * c.polyXY ℤ = (shortW a b).Ψ (n + 2) * (shortW a b).Ψ (n - 1) ^ 2 -
      (shortW a b).Ψ (n - 2) * (shortW a b).Ψ (n + 1) ^ 2 ∧
    ∀ e ∈ c.entries, 0 ≤ e.1.xpow ∧ e.1.ypow = n % 2 ∧ e.1.qpow = 0 ∧ e.1.var.empty = true := by
  obtain ⟨-, h1, -, h2⟩ := omega_spec h hn
  refine ⟨?_, fun e he => ?_⟩
  · have h4 : (C (C 4) : ℤ[X][X]) = 4 := by simp only [map_ofNat]
    rw [h4] at h2
    exact h2.symm
  · obtain ⟨⟨k1, k2, k3, k4⟩, k5, -⟩ := h1 e he
    exact ⟨k1, k5, k3, SubVar.key_eq_none.1 k4⟩

/-- C31: the same relation between the division polynomials `ψ` in the coordinate ring. -/
theorem C31_omega_class (a b n : ℤ) (c : Poly) (hn : 2 ≤ n) (h : omega a b n = .ok c) :
    Affine.CoordinateRing.mk (shortW a b).toAffine (4 * X * c.polyXY ℤ) =
      Affine.CoordinateRing.mk (shortW a b).toAffine ((shortW a b).ψ (n + 2) * (shortW a b).ψ (n - 1) ^ 2 -
        (shortW a b).ψ (n - 2) * (shortW a b).ψ (n + 1) ^ 2) := by
  rw [(C31_omega a b n c hn h).1]
  simp only [map_sub, map_mul, map_pow, Affine.CoordinateRing.mk_ψ]

/-- C31: `omega(a,b,1)` is `y`. -/
theorem C31_omega_one (a b : ℤ) : ∃ c, omega a b 1 = .ok c ∧ c.polyXY ℤ = X := by
  refine ⟨_, omega_one a b, ?_⟩
  rw [polyXY_toPol]
  simp [TermBuilder.new, TermBuilder.build, TermBuilder.ypow, Monomial.key, SubVar.key, SubVar.new,
      Key.evalAt]

/-! ### C32 -/

theorem bind_ne_timeout {α β : Type} {x : Res α} {f : α → Res β} (hx : x ≠ .timeout)
    (hf : ∀ a, f a ≠ .timeout) : (x >>= f) ≠ .timeout := by
  rw [ne_eq, Res.bind_eq_timeout]
  rintro (h | ⟨a, -, h⟩)
  · exact hx h
  · exact hf a h

theorem reduction_ne_timeout (f : Poly) (a b : ℤ) : f.reduction a b ≠ .timeout := by
  unfold reduction
  refine foldlM_ne_timeout (fun t e => ?_) _ _
  dsimp only
  split_ifs
  · refine bind_ne_timeout (div_ne_timeout _ _) fun _ => bind_ne_timeout (Poly.power_ne_timeout _ _) fun _ =>
      bind_ne_timeout (mul_ne_timeout _ _) fun _ => by simp
  · simp

theorem psi_ne_timeout (a b n : ℤ) : psi a b n ≠ .timeout := by
  induction hn : n.toNat using Nat.strong_induction_on generalizing n with
  | _ N ih =>
    by_cases hneg : n < 0
    · rw [psi_neg _ _ _ hneg]; simp
    by_cases h4 : n ≤ 4
    · obtain ⟨c, hc⟩ := psi_total a b n (by omega) (by omega)
      rw [hc]; simp
    rcases Int.even_or_odd' n with ⟨m, hm | hm⟩
    · subst hm
      rw [psi_even a b m (by omega)]
      exact bind_ne_timeout (ih _ (by omega) _ rfl) fun _ => bind_ne_timeout (ih _ (by omega) _ rfl) fun _ =>
        bind_ne_timeout (Poly.power_ne_timeout _ _) fun _ => bind_ne_timeout (ih _ (by omega) _ rfl) fun _ =>
        bind_ne_timeout (ih _ (by omega) _ rfl) fun _ => bind_ne_timeout (Poly.power_ne_timeout _ _) fun _ =>
        bind_ne_timeout (ih _ (by omega) _ rfl) fun _ => bind_ne_timeout (mul_ne_timeout _ _) fun _ =>
        bind_ne_timeout (mul_ne_timeout _ _) fun _ => bind_ne_timeout (mul_ne_timeout _ _) fun _ =>
        bind_ne_timeout (div_ne_timeout _ _) fun _ => reduction_ne_timeout _ _ _
    · subst hm
      rw [psi_odd a b m (by omega)]
      exact bind_ne_timeout (ih _ (by omega) _ rfl) fun _ => bind_ne_timeout (ih _ (by omega) _ rfl) fun _ =>
        bind_ne_timeout (Poly.power_ne_timeout _ _) fun _ => bind_ne_timeout (ih _ (by omega) _ rfl) fun _ =>
        bind_ne_timeout (ih _ (by omega) _ rfl) fun _ => bind_ne_timeout (Poly.power_ne_timeout _ _) fun _ =>
        bind_ne_timeout (mul_ne_timeout _ _) fun _ => bind_ne_timeout (mul_ne_timeout _ _) fun _ =>
        reduction_ne_timeout _ _ _

theorem panic_of_not_ok {α : Type} {x : Res α} (h1 : ∀ a, x ≠ .ok a) (h2 : x ≠ .timeout) :
    ∃ w, x = .panic w := by
  cases x with
  | ok a => exact absurd rfl (h1 a)
  | panic w => exact ⟨w, rfl⟩
  | timeout => exact absurd rfl h2

theorem psi_not_ok {a b n : ℤ} (hn : 65537 ≤ n) (c : Poly) : psi a b n ≠ .ok c := by
  intro h
  obtain ⟨-, hok⟩ := psi_spec a b n c h
  have hsq : 65537 ^ 2 ≤ n.natAbs ^ 2 := Nat.pow_le_pow_left (by omega) 2
  have key : ∀ j : ℕ, ((c.polyXY ℤ).coeff j).coeff ((n.natAbs ^ 2 - if Even n then 4 else 1) / 2) ≠ 0 → False := by
    intro j hj
    rw [polyXY_coeff hok.isXY, Int.cast_id] at hj
    obtain ⟨e, he, hk⟩ := mem_of_coef_ne hj
    have := hok.xmax e he
    rw [hk] at this
    simp only [XMax] at this
    split_ifs at this <;> omega
  have hc := (shortW a b).coeff_preΨ n
  by_cases hev : Even n
  · apply key 1
    rw [hok.val, WeierstrassCurve.Ψ, if_pos hev, psi2]
    rw [if_pos hev, if_pos hev] at hc
    rw [show (C ((shortW a b).preΨ n) * (C (C 2) * X) : ℤ[X][X]) = C (C 2 * (shortW a b).preΨ n) * X by
      rw [C_mul]; ring, coeff_C_mul, coeff_X_one, mul_one, coeff_C_mul, if_pos hev, hc]
    have : n / 2 ≠ 0 := by omega
    simpa using this
  · apply key 0
    rw [hok.val, WeierstrassCurve.Ψ, if_neg hev, mul_one, coeff_C_zero, hc, if_neg hev]
    simp; omega

/-- C32: `psi(a,b,n)` returns exactly for `0 ≤ n ≤ 65536` (the exponents then stay inside `i32`),
and panics for all other `n`. -/
theorem C32_psi_returns_iff (a b n : ℤ) :
    ((∃ c, psi a b n = .ok c) ↔ 0 ≤ n ∧ n ≤ 65536) ∧
    (¬ (0 ≤ n ∧ n ≤ 65536) → ∃ w, psi a b n = .panic w) := by
  have h1 : (∃ c, psi a b n = .ok c) ↔ 0 ≤ n ∧ n ≤ 65536 := by
    constructor
    · rintro ⟨c, hc⟩
      refine ⟨(psi_spec a b n c hc).1, ?_⟩
      by_contra h
      exact psi_not_ok (by omega) c hc
    · rintro ⟨h1, h2⟩; exact psi_total a b n h1 h2
  refine ⟨h1, fun h => panic_of_not_ok (fun c hc => h (h1.1 ⟨c, hc⟩)) (psi_ne_timeout a b n)⟩

theorem phi_ne_timeout (a b n : ℤ) : phi a b n ≠ .timeout := by
  unfold phi
  exact bind_ne_timeout (rassert_ne_timeout _) fun _ => bind_ne_timeout (psi_ne_timeout _ _ _) fun _ =>
    bind_ne_timeout (Poly.power_ne_timeout _ _) fun _ => bind_ne_timeout (mul_ne_timeout _ _) fun _ =>
    bind_ne_timeout chk_ne_timeout fun _ => bind_ne_timeout (psi_ne_timeout _ _ _) fun _ =>
    bind_ne_timeout (psi_ne_timeout _ _ _) fun _ => bind_ne_timeout (mul_ne_timeout _ _) fun _ =>
    reduction_ne_timeout _ _ _

theorem phi_total (a b n : ℤ) (h1 : 1 ≤ n) (h2 : n ≤ 46340) : ∃ c, phi a b n = .ok c := by
  rw [phi_eq a b n h1 (by omega)]
  have hsq : n ^ 2 ≤ 2147395600 := by nlinarith
  obtain ⟨p, hp⟩ := psi_total a b n (by omega) (by omega)
  obtain ⟨e, he⟩ := psi_total a b (n + 1) (by omega) (by omega)
  obtain ⟨g, hg⟩ := psi_total a b (n - 1) (by omega) (by omega)
  have hp' := (psi_spec a b _ _ hp).2
  have he' := (psi_spec a b _ _ he).2
  have hg' := (psi_spec a b _ _ hg).2
  obtain ⟨p2, hp2⟩ := wk_power_ok hp'.wk (n := 2) (by omega) (by omega) (psi_wt (by omega)) (by omega) (by omega)
  obtain ⟨t, ht⟩ := wk_mul_ok wk_x (wk_power hp'.wk hp2) (by omega) (by omega)
  obtain ⟨u, hu⟩ := wk_mul_ok he'.wk hg'.wk (by ring_nf; omega) (by omega)
  obtain ⟨s1, s2, s3⟩ := phi_shape hp' he' hg' hp2 ht hu
  obtain ⟨c, hc⟩ := C20_reduction_returns (t.sub u) a b (by
    intro e he
    obtain ⟨⟨k1, k2, k3, k4⟩, k5, k6⟩ := s1 e he
    simp only [Monomial.key] at *
    refine ⟨k1, by rw [k3]; decide, fun hy => ?_⟩
    omega)
  refine ⟨c, ?_⟩
  have ht' : Poly.termMul (TermBuilder.new.xpow 1).build p2 = .ok t := ht
  simp only [hp, he, hg, hp2, ht', hu, hc, Res.ok_bind]

/-- C32: `phi(a,b,n)` returns exactly for `1 ≤ n ≤ 46340`, and panics for all other `n`. -/
theorem C32_phi_returns_iff (a b n : ℤ) :
    ((∃ c, phi a b n = .ok c) ↔ 1 ≤ n ∧ n ≤ 46340) ∧
    (¬ (1 ≤ n ∧ n ≤ 46340) → ∃ w, phi a b n = .panic w) := by
  have h1 : (∃ c, phi a b n = .ok c) ↔ 1 ≤ n ∧ n ≤ 46340 := by
    constructor
    · rintro ⟨c, hc⟩
      obtain ⟨h1, h2, h3, h4, h5⟩ := phi_spec hc
      refine ⟨h1, ?_⟩
      by_contra hn
      have hk := (shortW a b).coeff_Φ n
      rw [← h5, polyX_coeff h3, Int.cast_id] at hk
      obtain ⟨e, he, hk⟩ := mem_of_coef_ne (P := c) (k := Key.xn (n.natAbs ^ 2)) (by rw [hk]; norm_num)
      have := h4 e he
      rw [hk] at this
      simp only [XMax, Key.xn] at this
      have hsq : 46341 ^ 2 ≤ n.natAbs ^ 2 := Nat.pow_le_pow_left (by omega) 2
      omega
    · rintro ⟨h1, h2⟩; exact phi_total a b n h1 h2
  refine ⟨h1, fun h => panic_of_not_ok (fun c hc => h (h1.1 ⟨c, hc⟩)) (phi_ne_timeout a b n)⟩

theorem omega_ne_timeout (a b n : ℤ) : omega a b n ≠ .timeout := by
  unfold omega
  refine bind_ne_timeout (rassert_ne_timeout _) fun _ => ?_
  split_ifs
  · simp
  · exact bind_ne_timeout chk_ne_timeout fun _ => bind_ne_timeout (psi_ne_timeout _ _ _) fun _ =>
      bind_ne_timeout (psi_ne_timeout _ _ _) fun _ => bind_ne_timeout (Poly.power_ne_timeout _ _) fun _ =>
      bind_ne_timeout (mul_ne_timeout _ _) fun _ => bind_ne_timeout (psi_ne_timeout _ _ _) fun _ =>
      bind_ne_timeout (psi_ne_timeout _ _ _) fun _ => bind_ne_timeout (Poly.power_ne_timeout _ _) fun _ =>
      bind_ne_timeout (mul_ne_timeout _ _) fun _ => bind_ne_timeout (div_ne_timeout _ _) fun _ =>
      reduction_ne_timeout _ _ _

theorem omega_total (a b n : ℤ) (h1 : 1 ≤ n) (h2 : n ≤ 37837) : ∃ c, omega a b n = .ok c := by
  by_cases hn1 : n = 1
  · subst hn1; exact ⟨_, omega_one a b⟩
  rw [omega_eq a b n (by omega) (by omega)]
  have hsq : n ^ 2 - n % 2 ≤ 1431655764 := by
    by_cases h : n = 37837
    · subst h; norm_num
    · have : n ^ 2 ≤ 1431562896 := by nlinarith [show n ≤ 37836 by omega]
      omega
  obtain ⟨e, he⟩ := psi_total a b (n + 2) (by omega) (by omega)
  obtain ⟨f, hf⟩ := psi_total a b (n - 1) (by omega) (by omega)
  obtain ⟨g, hg⟩ := psi_total a b (n - 2) (by omega) (by omega)
  obtain ⟨h, hh⟩ := psi_total a b (n + 1) (by omega) (by omega)
  have he' := (psi_spec a b _ _ he).2
  have hf' := (psi_spec a b _ _ hf).2
  have hg' := (psi_spec a b _ _ hg).2
  have hh' := (psi_spec a b _ _ hh).2
  have hsq1 : (n + 1) ^ 2 ≤ 1431790000 := by nlinarith
  have hsq2 : (n - 1) ^ 2 ≤ 1431790000 := by nlinarith
  obtain ⟨f2, hf2⟩ := wk_power_ok hf'.wk (n := 2) (by omega) (by omega) (psi_wt (by omega)) (by omega) (by omega)
  obtain ⟨h2, hh2⟩ := wk_power_ok hh'.wk (n := 2) (by omega) (by omega) (psi_wt (by omega)) (by omega) (by omega)
  obtain ⟨s, hs⟩ := wk_mul_ok he'.wk (wk_power hf'.wk hf2) (by ring_nf; omega) (by omega)
  obtain ⟨t, ht⟩ := wk_mul_ok hg'.wk (wk_power hh'.wk hh2) (by ring_nf; omega) (by omega)
  obtain ⟨s1, s2, s3⟩ := omega_shape he' hf' hg' hh' hf2 hh2 hs ht
  obtain ⟨j, hj⟩ := div_cy_ok (c := 4) (by norm_num) (a := s.sub t)
    (fun e he => ⟨(s1 e he).1, s2 e he, by rw [(s1 e he).2.1]; omega, by rw [(s1 e he).2.1]; omega⟩)
  obtain ⟨c, hc, -⟩ := omega_finish (by omega) s1 s2 s3 hj
  refine ⟨c, ?_⟩
  simp only [he, hf, hg, hh, hf2, hh2, hs, ht, hj, hc, Res.ok_bind]

theorem xmax_natDegree {c : Poly} (h : c.All Key.IsXY) (hm : c.All XMax) (j : ℕ)
    (hj : (c.polyXY ℤ).coeff j ≠ 0) : ((c.polyXY ℤ).coeff j).natDegree ≤ 2147483647 := by
  have hl : ((c.polyXY ℤ).coeff j).coeff ((c.polyXY ℤ).coeff j).natDegree ≠ 0 := by
    rw [coeff_natDegree]; exact leadingCoeff_ne_zero.2 hj
  generalize ((c.polyXY ℤ).coeff j).natDegree = d at *
  rw [polyXY_coeff h, Int.cast_id] at hl
  obtain ⟨e, he, hk⟩ := mem_of_coef_ne hl
  have := hm e he
  rw [hk] at this
  simp only [XMax] at this
  omega

theorem natDegree_prod (W : WeierstrassCurve ℤ) {i k : ℤ} (hi : i ≠ 0) (hk : k ≠ 0) (c : ℤ) (hc : c ≠ 0) :
    C c * (W.preΨ i * W.preΨ k ^ 2) ≠ 0 ∧ (C c * (W.preΨ i * W.preΨ k ^ 2)).natDegree =
      (i.natAbs ^ 2 - if Even i then 4 else 1) / 2 + 2 * ((k.natAbs ^ 2 - if Even k then 4 else 1) / 2) := by
  have h1 : W.preΨ i ≠ 0 := W.preΨ_ne_zero (by simpa using hi)
  have h2 : W.preΨ k ≠ 0 := W.preΨ_ne_zero (by simpa using hk)
  refine ⟨mul_ne_zero (C_ne_zero.2 hc) (mul_ne_zero h1 (pow_ne_zero _ h2)), ?_⟩
  rw [natDegree_C_mul hc, natDegree_mul h1 (pow_ne_zero _ h2), natDegree_pow,
    W.natDegree_preΨ (by simpa using hi), W.natDegree_preΨ (by simpa using hk)]

theorem omega_not_ok {a b n : ℤ} (hn : 37838 ≤ n) (c : Poly) : omega a b n ≠ .ok c := by
  intro h
  have hn' := (omega_spec h (by omega)).1
  rw [omega_eq a b n (by omega) hn'] at h
  simp only [Res.bind_eq_ok] at h
  obtain ⟨e, he, f, hf, f2, hf2, s, hs, -⟩ := h
  have he' := (psi_spec a b _ _ he).2
  have hf' := (psi_spec a b _ _ hf).2
  have hw := wk_mul he'.wk (wk_power hf'.wk hf2) hs
  have hx := xmax_mul hs
  have hval : s.polyXY ℤ = (shortW a b).Ψ (n + 2) * (shortW a b).Ψ (n - 1) ^ 2 := by
    rw [polyXY_mul he'.isXY ((wk_power hf'.wk hf2).mono fun _ h => h.1) hs, polyXY_power hf'.isXY hf2,
      he'.val, hf'.val]
    rfl
  obtain ⟨m, rfl⟩ := Int.eq_ofNat_of_zero_le (show 0 ≤ n by omega)
  have hsq : 37838 ^ 2 ≤ m ^ 2 := Nat.pow_le_pow_left (by omega) 2
  have e1 : ((m : ℤ) + 2).natAbs = m + 2 := by omega
  have e2 : ((m : ℤ) - 1).natAbs = m - 1 := by omega
  obtain ⟨k, rfl⟩ : ∃ k, m = k + 1 := ⟨m - 1, by omega⟩
  have key : ∀ j : ℕ, ∀ d : ℤ, d ≠ 0 → (s.polyXY ℤ).coeff j =
      C d * ((shortW a b).preΨ (((k + 1 : ℕ) : ℤ) + 2) * (shortW a b).preΨ (((k + 1 : ℕ) : ℤ) - 1) ^ 2) → False := by
    intro j d hd hj
    obtain ⟨n0, nd⟩ := natDegree_prod (shortW a b) (i := ((k + 1 : ℕ) : ℤ) + 2) (k := ((k + 1 : ℕ) : ℤ) - 1)
      (by omega) (by omega) d hd
    have := xmax_natDegree (hw.mono fun _ h => h.1) hx j (by rw [hj]; exact n0)
    rw [hj, nd, e1, e2] at this
    simp only [Nat.add_sub_cancel] at this
    have hk2 : 37837 ^ 2 ≤ k ^ 2 := Nat.pow_le_pow_left (by omega) 2
    rw [show (k + 1 + 2) ^ 2 = k ^ 2 + 6 * k + 9 by ring] at this
    have : (k ^ 2 + 6 * k + 9 - 4) / 2 + 2 * ((k ^ 2 - 4) / 2) ≤ 2147483647 := by
      split_ifs at this <;> omega
    omega
  simp only [WeierstrassCurve.Ψ, psi2] at hval
  rcases Int.emod_two_eq_zero_or_one ((k + 1 : ℕ) : ℤ) with hp | hp
  · have q1 : Even (((k + 1 : ℕ) : ℤ) + 2) := by rw [Int.even_iff]; omega
    have q2 : ¬ Even (((k + 1 : ℕ) : ℤ) - 1) := by rw [Int.even_iff]; omega
    refine key 1 2 (by norm_num) ?_
    rw [hval]
    simp only [q1, q2, if_true, if_false, mul_one]
    rw [show ∀ P Q : ℤ[X], (C P * (C (C 2) * X) * C Q ^ 2 : ℤ[X][X]) = C (C 2 * (P * Q ^ 2)) * X from
      fun P Q => by simp only [C_mul, C_pow]; ring, coeff_C_mul, coeff_X_one, mul_one]
  · have q1 : ¬ Even (((k + 1 : ℕ) : ℤ) + 2) := by rw [Int.even_iff]; omega
    have q2 : Even (((k + 1 : ℕ) : ℤ) - 1) := by rw [Int.even_iff]; omega
    refine key 2 4 (by norm_num) ?_
    rw [hval]
    simp only [q1, q2, if_true, if_false, mul_one]
    rw [show ∀ P Q : ℤ[X], (C P * (C Q * (C (C 2) * X)) ^ 2 : ℤ[X][X]) = C (C 4 * (P * Q ^ 2)) * X ^ 2 from
      fun P Q => by
        rw [show (4 : ℤ) = 2 * 2 by norm_num]
        simp only [C_mul, C_pow]; ring, coeff_C_mul, coeff_X_pow, if_pos rfl, mul_one]

/-- C32: `omega(a,b,n)` returns exactly for `1 ≤ n ≤ 37837`, and panics for all other `n`. -/
theorem C32_omega_returns_iff (a b n : ℤ) :
    ((∃ c, omega a b n = .ok c) ↔ 1 ≤ n ∧ n ≤ 37837) ∧
    (¬ (1 ≤ n ∧ n ≤ 37837) → ∃ w, omega a b n = .panic w) := by
  have h1 : (∃ c, omega a b n = .ok c) ↔ 1 ≤ n ∧ n ≤ 37837 := by
    constructor
    · rintro ⟨c, hc⟩
      have hn : 1 ≤ n := by
        by_contra hn
        have : decide (n ≥ 1) = false := by simpa using hn
        unfold omega at hc
        rw [this] at hc
        simp at hc
      refine ⟨hn, ?_⟩
      by_contra h
      exact omega_not_ok (by omega) c hc
    · rintro ⟨h1, h2⟩; exact omega_total a b n h1 h2
  refine ⟨h1, fun h => panic_of_not_ok (fun c hc => h (h1.1 ⟨c, hc⟩)) (omega_ne_timeout a b n)⟩

/-! Concrete cases: the hypotheses of C29-C31 are met. -/

/-- The `(x-exponent, y-exponent, coefficient)` list of a result, for the examples below. -/
def showXY (r : Res Poly) : List (ℤ × ℤ × ℤ) :=
  match r with
  | .ok c => c.entries.map (fun (e : Monomial × ℤ) => (e.1.xpow, e.1.ypow, e.2))
  | _ => []

example : showXY (psi 2 3 5) = [(0, 0, -22976), (1, 0, -39360), (2, 0, -10240), (3, 0, -45120),
    (4, 0, -36560), (5, 0, -8352), (6, 0, -4560), (7, 0, 1440), (8, 0, -420), (9, 0, 1140), (10, 0, 124),
    (12, 0, 5)] := by decide +kernel
example : showXY (phi 2 3 2) = [(0, 0, 4), (1, 0, -24), (2, 0, -4), (4, 0, 1)] := by decide +kernel
example : showXY (omega 2 3 2) =
    [(0, 0, -80), (1, 0, -24), (2, 0, -20), (3, 0, 60), (4, 0, 10), (6, 0, 1)] := by decide +kernel
example : showXY (omega 2 3 3) = [(0, 1, -48576), (1, 1, -54720), (2, 1, -25344), (3, 1, -10560),
    (4, 1, -20240), (5, 1, 3168), (6, 1, -16720), (7, 1, -3168), (8, 1, -660), (9, 1, 660), (10, 1, 44),
    (12, 1, 1)] := by decide +kernel
example : ∃ c, psi 2 3 1000 = .ok c := ((C32_psi_returns_iff 2 3 1000).1).2 (by norm_num)
example : ∃ c, omega (-1) 0 37837 = .ok c := ((C32_omega_returns_iff (-1) 0 37837).1).2 (by norm_num)
example : ∃ w, phi 1 1 46341 = .panic w := (C32_phi_returns_iff 1 1 46341).2 (by norm_num)

end EC
