import Verif.Lemmas.DivPoly

/-! Correctness and totality of `psi`. -/

namespace EC
open Poly Polynomial WeierstrassCurve

/-! ### Monomials of weight at most `w` -/

/-- `x^i y^j` with `2 i + 3 j ≤ w`. -/
def WK (j w : ℤ) (k : Key) : Prop := k.IsXY ∧ k.y = j ∧ 2 * k.x + 3 * k.y ≤ w

/-- The `x`-exponent fits in `i32`. -/
def XMax (k : Key) : Prop := k.x ≤ 2147483647

theorem WK.isXY {j w : ℤ} {k : Key} (h : WK j w k) : k.IsXY := h.1

theorem WK.mul {j w j' w' : ℤ} {k k' : Key} (h : WK j w k) (h' : WK j' w' k') :
    WK (j + j') (w + w') (k.mul k') := by
  obtain ⟨x, y, q, v⟩ := k
  obtain ⟨x', y', q', v'⟩ := k'
  obtain ⟨⟨h1, h2, h3, h4⟩, h5, h6⟩ := h
  obtain ⟨⟨h1', h2', h3', h4'⟩, h5', h6'⟩ := h'
  simp only at *
  subst h3 h4 h3' h4'
  refine ⟨⟨?_, ?_, ?_, ?_⟩, ?_, ?_⟩ <;> simp only [Key.mul, Option.or_none, add_zero] <;> omega

theorem WK.compat {j w j' w' : ℤ} {k k' : Key} (h : WK j w k) (h' : WK j' w' k')
    (hw : w + w' - 3 * (j + j') ≤ 4294967295) (hj : j + j' ≤ 100) : k.Compat k' := by
  obtain ⟨x, y, q, v⟩ := k
  obtain ⟨x', y', q', v'⟩ := k'
  obtain ⟨⟨h1, h2, h3, h4⟩, h5, h6⟩ := h
  obtain ⟨⟨h1', h2', h3', h4'⟩, h5', h6'⟩ := h'
  simp only at *
  subst h3 h4 h3' h4'
  refine ⟨by simp, ⟨?_, ?_⟩, ⟨?_, ?_⟩, ⟨?_, ?_⟩⟩ <;> simp only <;> omega

theorem wk_mul {j w j' w' : ℤ} {a b c : Poly} (ha : a.All (WK j w)) (hb : b.All (WK j' w'))
    (h : a.mul b = .ok c) : c.All (WK (j + j') (w + w')) :=
  all_mul ha hb (fun _ _ h1 h2 _ => h1.mul h2) h

theorem xmax_mul {a b c : Poly} (h : a.mul b = .ok c) : c.All XMax :=
  all_mul (S := fun _ => True) (T := fun _ => True) (fun _ _ => trivial) (fun _ _ => trivial)
    (fun _ _ _ _ hc => hc.2.1.2) h

theorem wk_mul_ok {j w j' w' : ℤ} {a b : Poly} (ha : a.All (WK j w)) (hb : b.All (WK j' w'))
    (hw : w + w' - 3 * (j + j') ≤ 4294967295) (hj : j + j' ≤ 100) : ∃ c, a.mul b = .ok c :=
  mul_ok fun ie hie je hje => (ha ie hie).compat (hb je hje) hw hj

theorem wk_one : WK 0 0 Key.one := by simp [WK, Key.IsXY, Key.one]

theorem wk_power {j w n : ℤ} {a c : Poly} (ha : a.All (WK j w)) (h : a.power n = .ok c) :
    c.All (WK (n * j) (n * w)) := by
  have := power_all (T := fun i => WK (i * j) (i * w)) (f := a) (n := n) (j := 1)
    (by simpa using wk_one)
    (fun {m n k k'} h h' => by have := h.mul h'; rwa [← add_mul, ← add_mul] at this)
    (by simpa using ha) h
  simpa using this

theorem wk_power_ok {j w n : ℤ} {a : Poly} (ha : a.All (WK j w)) (hn : 0 ≤ n) (hj : 0 ≤ j)
    (hw : 0 ≤ w - 3 * j)
    (hw' : n * (w - 3 * j) ≤ 4294967295) (hj' : n * j ≤ 100) : ∃ c, a.power n = .ok c := by
  have hg : Graded n (fun i k => 0 ≤ i ∧ WK (i * j) (i * w) k) := by
    refine ⟨⟨le_refl _, by simpa using wk_one⟩, ?_, ?_⟩
    · rintro m n k k' ⟨h0, h⟩ ⟨h0', h'⟩
      refine ⟨by omega, ?_⟩
      have := h.mul h'; rwa [← add_mul, ← add_mul] at this
    · rintro m n k k' ⟨h0, h⟩ ⟨h0', h'⟩ hmn
      refine h.compat h' ?_ ?_
      · nlinarith
      · nlinarith
  obtain ⟨c, hc, -⟩ := hg.power (f := a) (n := n) (j := 1) hn (by norm_num)
    (by intro e he; exact ⟨by norm_num, by simpa using ha e he⟩) (by omega)
  exact ⟨c, hc⟩

/-! ### `psi` -/

/-- What is proved about the result of `psi(a,b,n)`. -/
structure PsiOK (a b n : ℤ) (c : Poly) : Prop where
  wk : c.All (WK (1 - n % 2) (n ^ 2 - 1))
  xmax : c.All XMax
  val : c.polyXY ℤ = (shortW a b).Ψ n

theorem PsiOK.isXY {a b n : ℤ} {c : Poly} (h : PsiOK a b n c) : c.All Key.IsXY := h.wk.mono fun _ h => h.1

theorem psi_neg (a b n : ℤ) (h : n < 0) : psi a b n = .panic .assertion := by
  rw [psi]
  have : decide (n ≥ 0) = false := by simpa using h
  rw [this]; rfl

theorem psi_zero (a b : ℤ) : psi a b 0 = .ok Poly.new := by
  rw [psi]; rfl

theorem psi_one (a b : ℤ) : psi a b 1 = .ok TermBuilder.new.build.toPol := by
  rw [psi]; rfl

theorem psi_two (a b : ℤ) : psi a b 2 = .ok ((TermBuilder.new.coef 2).ypow 1).build.toPol := by
  rw [psi]; rfl

theorem psi_three (a b : ℤ) : psi a b 3 =
    .ok (((((TermBuilder.new.coef 3).xpow 4).build.add ((TermBuilder.new.coef (6 * a)).xpow 2).build).addTerm
      ((TermBuilder.new.coef (12 * b)).xpow 1).build).addTerm (TermBuilder.new.coef (-(power a 2))).build) := by
  rw [psi]; rfl

theorem psi_four (a b : ℤ) : psi a b 4 =
    Poly.termMul ((TermBuilder.new.coef 4).ypow 1).build
      ((((((TermBuilder.new.xpow 6).build.add ((TermBuilder.new.coef (5 * a)).xpow 4).build).addTerm
        ((TermBuilder.new.coef (20 * b)).xpow 3).build).addTerm
        ((TermBuilder.new.coef (-5 * power a 2)).xpow 2).build).addTerm
        ((TermBuilder.new.coef (-4 * a * b)).xpow 1).build).addTerm
        (TermBuilder.new.coef (-8 * power b 2 - power a 3)).build) := by
  rw [psi]; rfl

theorem psi_odd (a b m : ℤ) (hm : 2 ≤ m) : psi a b (2 * m + 1) = (do
    let e ← psi a b (m + 2)
    let f ← (← psi a b m).power 3
    let g ← psi a b (m - 1)
    let h ← (← psi a b (m + 1)).power 3
    ((← e.mul f).sub (← g.mul h)).reduction a b) := by
  rw [psi]
  have h1 : decide (2 * m + 1 ≥ 0) = true := by simp; omega
  have h2 : Int.fmod (2 * m + 1) 2 = 1 := by rw [Int.fmod_eq_emod_of_nonneg _ (by norm_num)]; omega
  have h3 : Int.fdiv (2 * m + 1 - 1) 2 = m := by rw [fdiv_two]; omega
  have h4 : decide (m < 2 * m + 1) = true := by simp; omega
  rw [h1, if_neg (by omega), if_neg (by omega), if_neg (by omega), if_neg (by omega), if_neg (by omega),
    if_neg (by omega), if_pos h2, h3]
  simp only [h4, rassert_true, Res.ok_bind]

theorem psi_even (a b m : ℤ) (hm : 3 ≤ m) : psi a b (2 * m) = (do
    let e ← psi a b (m + 2)
    let f ← (← psi a b (m - 1)).power 2
    let g ← psi a b (m - 2)
    let h ← (← psi a b (m + 1)).power 2
    let i ← (← psi a b m).mul ((← e.mul f).sub (← g.mul h))
    let j ← i.divTerm ((TermBuilder.new.coef 2).ypow 1).build
    j.reduction a b) := by
  rw [psi]
  have h1 : decide (2 * m ≥ 0) = true := by simp; omega
  have h2 : ¬ Int.fmod (2 * m) 2 = 1 := by rw [Int.fmod_eq_emod_of_nonneg _ (by norm_num)]; omega
  have h3 : Int.fdiv (2 * m) 2 = m := by rw [fdiv_two]; omega
  have h4 : decide (m < 2 * m) = true := by simp; omega
  rw [h1, if_neg (by omega), if_neg (by omega), if_neg (by omega), if_neg (by omega), if_neg (by omega),
    if_neg (by omega), if_neg h2, h3]
  simp only [h4, rassert_true, Res.ok_bind]

theorem psiOK_zero (a b : ℤ) : PsiOK a b 0 Poly.new :=
  ⟨all_new, all_new, by simp [polyXY, evalAt_eq_lin]⟩

theorem psiOK_one (a b : ℤ) : PsiOK a b 1 TermBuilder.new.build.toPol := by
  refine ⟨all_toPol fun _ => ?_, all_toPol fun _ => ?_, ?_⟩
  · simp [WK, Key.IsXY, TermBuilder.new, TermBuilder.build, Monomial.key, SubVar.key, SubVar.new]
  · simp [XMax, TermBuilder.new, TermBuilder.build, Monomial.key]
  · rw [polyXY_toPol]
    simp [TermBuilder.new, TermBuilder.build, Monomial.key, SubVar.key, SubVar.new, Key.evalAt]

theorem psiOK_two (a b : ℤ) : PsiOK a b 2 ((TermBuilder.new.coef 2).ypow 1).build.toPol := by
  refine ⟨all_toPol fun _ => ?_, all_toPol fun _ => ?_, ?_⟩
  · simp [WK, Key.IsXY, TermBuilder.new, TermBuilder.build, TermBuilder.coef, TermBuilder.ypow,
      Monomial.key, SubVar.key, SubVar.new]
  · simp [XMax, TermBuilder.new, TermBuilder.build, TermBuilder.coef, TermBuilder.ypow, Monomial.key]
  · rw [polyXY_toPol, Ψ_two, psi2]
    simp [TermBuilder.new, TermBuilder.build, TermBuilder.coef, TermBuilder.ypow,
      Monomial.key, SubVar.key, SubVar.new, Key.evalAt, map_ofNat]

theorem psiOK_three (a b : ℤ) : ∃ c, psi a b 3 = .ok c ∧ PsiOK a b 3 c := by
  refine ⟨_, psi_three a b, ?_, ?_, ?_⟩
  · refine all_addTerm (all_addTerm (all_termAdd (fun _ => ?_) ?_) fun _ => ?_) fun _ => ?_ <;>
    simp [WK, Key.IsXY, TermBuilder.new, TermBuilder.build, TermBuilder.coef, TermBuilder.xpow,
      Monomial.key, SubVar.key, SubVar.new]
  · refine all_addTerm (all_addTerm (all_termAdd (fun _ => ?_) ?_) fun _ => ?_) fun _ => ?_ <;>
    simp [XMax, TermBuilder.new, TermBuilder.build, TermBuilder.coef, TermBuilder.xpow, Monomial.key]
  · unfold polyXY
    rw [evalAt_eq_lin, lin_addTerm, lin_addTerm, lin_termAddTerm, Ψ_three]
    simp [TermBuilder.new, TermBuilder.build, TermBuilder.coef, TermBuilder.xpow,
      Monomial.key, SubVar.key, SubVar.new, Key.evalAt, WeierstrassCurve.Ψ₃, b₂, b₄, b₆, b₈]
    simp only [map_ofNat]
    ring

theorem psiOK_four (a b : ℤ) : ∃ c, psi a b 4 = .ok c ∧ PsiOK a b 4 c := by
  rw [psi_four]
  set f := ((((((TermBuilder.new.xpow 6).build.add ((TermBuilder.new.coef (5 * a)).xpow 4).build).addTerm
        ((TermBuilder.new.coef (20 * b)).xpow 3).build).addTerm
        ((TermBuilder.new.coef (-5 * power a 2)).xpow 2).build).addTerm
        ((TermBuilder.new.coef (-4 * a * b)).xpow 1).build).addTerm
        (TermBuilder.new.coef (-8 * power b 2 - power a 3)).build) with hf
  have h1 : f.All (WK 0 12) := by
    refine all_addTerm (all_addTerm (all_addTerm (all_addTerm (all_termAdd (fun _ => ?_) ?_) fun _ => ?_) fun _ => ?_)
      fun _ => ?_) fun _ => ?_ <;>
    simp [WK, Key.IsXY, TermBuilder.new, TermBuilder.build, TermBuilder.coef, TermBuilder.xpow,
      Monomial.key, SubVar.key, SubVar.new]
  have h2 : ((TermBuilder.new.coef 4).ypow 1).build.toPol.All (WK 1 3) := by
    refine all_toPol fun _ => ?_
    simp [WK, Key.IsXY, TermBuilder.new, TermBuilder.build, TermBuilder.coef, TermBuilder.ypow,
      Monomial.key, SubVar.key, SubVar.new]
  obtain ⟨c, hc⟩ := wk_mul_ok h2 h1 (by norm_num) (by norm_num)
  refine ⟨c, hc, by simpa using wk_mul h2 h1 hc, xmax_mul hc, ?_⟩
  rw [polyXY_mul (h2.mono fun _ h => h.1) (h1.mono fun _ h => h.1) hc, polyXY_toPol]
  unfold polyXY
  rw [hf, evalAt_eq_lin, lin_addTerm, lin_addTerm, lin_addTerm, lin_addTerm, lin_termAddTerm, Ψ_four, psi2]
  simp [TermBuilder.new, TermBuilder.build, TermBuilder.coef, TermBuilder.xpow, TermBuilder.ypow,
      Monomial.key, SubVar.key, SubVar.new, Key.evalAt, WeierstrassCurve.preΨ₄, b₂, b₄, b₆, b₈]
  simp only [map_ofNat]
  ring

theorem all_sub' {A B D : Key → Prop} {a b : Poly} (ha : a.All A) (hb : b.All B)
    (hA : ∀ k, A k → D k) (hB : ∀ k, B k → D k) : (a.sub b).All D :=
  all_sub (ha.mono hA) (hb.mono hB)

/-- Shape of the argument of the reduction in the odd case. -/
def OddK (n : ℤ) (k : Key) : Prop := k.IsXY ∧ (k.y = 0 ∨ k.y = 4) ∧ 2 * k.x + 3 * k.y ≤ n ^ 2 - 1

theorem odd_shape {a b m : ℤ} {e f g h f3 h3 s t : Poly} (he : PsiOK a b (m + 2) e) (hf : PsiOK a b m f)
    (hg : PsiOK a b (m - 1) g) (hh : PsiOK a b (m + 1) h)
    (hf3 : f.power 3 = .ok f3) (hh3 : h.power 3 = .ok h3)
    (hs : e.mul f3 = .ok s) (ht : g.mul h3 = .ok t) :
    (s.sub t).All (OddK (2 * m + 1)) ∧ (s.sub t).All XMax ∧
    (s.sub t).polyXY ℤ = (shortW a b).Ψ (m + 2) * (shortW a b).Ψ m ^ 3 -
      (shortW a b).Ψ (m - 1) * (shortW a b).Ψ (m + 1) ^ 3 := by
  refine ⟨?_, all_sub (xmax_mul hs) (xmax_mul ht), ?_⟩
  · refine all_sub' (wk_mul he.wk (wk_power hf.wk hf3) hs) (wk_mul hg.wk (wk_power hh.wk hh3) ht) ?_ ?_
    · rintro k ⟨k1, k2, k3⟩
      refine ⟨k1, by omega, ?_⟩
      ring_nf at k3 ⊢
      omega
    · rintro k ⟨k1, k2, k3⟩
      refine ⟨k1, by omega, ?_⟩
      ring_nf at k3 ⊢
      omega
  · rw [polyXY_sub, polyXY_mul he.isXY ((wk_power hf.wk hf3).mono fun _ h => h.1) hs,
      polyXY_mul hg.isXY ((wk_power hh.wk hh3).mono fun _ h => h.1) ht,
      polyXY_power hf.isXY hf3, polyXY_power hh.isXY hh3, he.val, hf.val, hg.val, hh.val]
    rfl

theorem psiOK_odd {a b m : ℤ} {i c : Poly} (h1 : i.All (OddK (2 * m + 1))) (h2 : i.All XMax)
    (h3 : i.polyXY ℤ = (shortW a b).Ψ (m + 2) * (shortW a b).Ψ m ^ 3 -
      (shortW a b).Ψ (m - 1) * (shortW a b).Ψ (m + 1) ^ 3)
    (hc : i.reduction a b = .ok c) : PsiOK a b (2 * m + 1) c := by
  have hall : c.All (WK (1 - (2 * m + 1) % 2) ((2 * m + 1) ^ 2 - 1)) := by
    rw [reduction_eq] at hc
    refine redFold_all (W := XLe) (fun y ee _ h => power_XLe h) h1 ?_ ?_ hc
    · rintro k ⟨k1, k2, k3⟩ k4
      exact ⟨k1, by omega, k3⟩
    · rintro ⟨x, y, q, v⟩ ⟨x', y', q', v'⟩ ⟨⟨l1, l2, l3, l4⟩, k2, k3⟩ k4 ⟨⟨m1, m2, m3, m4⟩, m5⟩ -
      simp only at *
      subst l3 l4 m2 m3 m4
      refine ⟨⟨?_, ?_, ?_, ?_⟩, ?_, ?_⟩ <;> simp only [Key.mul, Key.setY, Option.or_none, add_zero] <;> omega
  have hmax : c.All XMax := by
    rw [reduction_eq] at hc
    refine redFold_all (W := fun _ _ => True) (fun _ _ _ _ _ _ => trivial) h2 (fun k hk _ => hk) ?_ hc
    intro k k' _ _ _ hcp
    exact hcp.2.1.2
  refine ⟨hall, hmax, ?_⟩
  have hy0 := polyXY_of_y0 (P := c) (hall.mono fun k hk => ⟨hk.1, by rw [hk.2.1]; omega⟩)
  have hmk := mk_reduction (h1.mono fun _ h => h.1) hc
  have hodd := (shortW a b).Ψ_odd m
  rw [← h3] at hodd
  have hP : (shortW a b).Ψ (2 * m + 1) = C ((shortW a b).preΨ (2 * m + 1)) := by
    simp [WeierstrassCurve.Ψ]
  have hz : Affine.CoordinateRing.mk (shortW a b).toAffine (shortW a b).toAffine.polynomial = 0 :=
    AdjoinRoot.mk_self
  rw [hy0.2, hP]
  congr 1
  apply mk_C_inj (a := a) (b := b)
  rw [← hP, hodd, map_add, map_mul, map_mul, hz, zero_mul, zero_mul, add_zero, ← hy0.2, hmk]

theorem even_shape {a b m : ℤ} {p e f g h f2 h2 s t i : Poly} (hp : PsiOK a b m p) (he : PsiOK a b (m + 2) e)
    (hf : PsiOK a b (m - 1) f) (hg : PsiOK a b (m - 2) g) (hh : PsiOK a b (m + 1) h)
    (hf2 : f.power 2 = .ok f2) (hh2 : h.power 2 = .ok h2)
    (hs : e.mul f2 = .ok s) (ht : g.mul h2 = .ok t) (hi : p.mul (s.sub t) = .ok i) :
    i.All (WK 2 ((2 * m) ^ 2 + 2)) ∧ i.All XMax ∧
    i.polyXY ℤ = (shortW a b).Ψ (2 * m) * (shortW a b).ψ₂ := by
  have hst : (s.sub t).All (WK (2 - (1 - m % 2)) (3 * m ^ 2 + 3)) := by
    refine all_sub' (wk_mul he.wk (wk_power hf.wk hf2) hs) (wk_mul hg.wk (wk_power hh.wk hh2) ht) ?_ ?_
    · rintro k ⟨k1, k2, k3⟩
      refine ⟨k1, by omega, ?_⟩
      ring_nf at k3 ⊢
      omega
    · rintro k ⟨k1, k2, k3⟩
      refine ⟨k1, by omega, ?_⟩
      ring_nf at k3 ⊢
      omega
  refine ⟨(wk_mul hp.wk hst hi).mono ?_, xmax_mul hi, ?_⟩
  · rintro k ⟨k1, k2, k3⟩
    refine ⟨k1, by omega, ?_⟩
    ring_nf at k3 ⊢
    omega
  · rw [polyXY_mul hp.isXY (hst.mono fun _ h => h.1) hi, polyXY_sub,
      polyXY_mul he.isXY ((wk_power hf.wk hf2).mono fun _ h => h.1) hs,
      polyXY_mul hg.isXY ((wk_power hh.wk hh2).mono fun _ h => h.1) ht,
      polyXY_power hf.isXY hf2, polyXY_power hh.isXY hh2, he.val, hf.val, hg.val, hh.val, hp.val, Ψ_even]
    rw [show (2 : ℤ).toNat = 2 from rfl]
    ring

theorem psiOK_even {a b m : ℤ} {i j c : Poly} (h1 : i.All (WK 2 ((2 * m) ^ 2 + 2))) (h2 : i.All XMax)
    (h3 : i.polyXY ℤ = (shortW a b).Ψ (2 * m) * (shortW a b).ψ₂)
    (hj : i.divTerm ((TermBuilder.new.coef 2).ypow 1).build = .ok j)
    (hc : j.reduction a b = .ok c) : PsiOK a b (2 * m) c := by
  have hdiv : ∀ e ∈ i.entries, (2 : ℤ) ∣ e.2 := by
    refine dvd_coefs (P := (shortW a b).Ψ (2 * m) * X) (h1.mono fun _ h => h.1) ?_
    rw [h3, psi2]; ring
  obtain ⟨d1, d2⟩ := div_cy_spec (c := 2) (by norm_num)
    (h1.mono fun k hk => ⟨hk.1, by rw [hk.2.1]; norm_num⟩) hj
  have d2 := d2 hdiv
  have hw : j.All (fun k => WK (1 - (2 * m) % 2) ((2 * m) ^ 2 - 1) k ∧ XMax k) := by
    apply d1
    intro e he
    obtain ⟨⟨k1, k2, k3, k4⟩, k5, k6⟩ := h1 e he
    refine ⟨⟨⟨k1, ?_, k3, k4⟩, ?_, ?_⟩, h2 e he⟩ <;> simp only [Key.setY] <;> omega
  obtain ⟨c', hc', hlin, hall⟩ := reduction_lt (a := a) (b := b) (f := j)
    (hw.mono fun k hk => by rw [hk.1.2.1]; omega)
  rw [hc] at hc'
  cases hc'
  have hw' := hall hw
  refine ⟨hw'.mono fun _ h => h.1, hw'.mono fun _ h => h.2, ?_⟩
  have : c.polyXY ℤ = j.polyXY ℤ := by
    unfold polyXY; rw [evalAt_eq_lin, evalAt_eq_lin, hlin]
  rw [this]
  rw [h3, psi2, mul_comm] at d2
  have hne : (C (C 2) * X : ℤ[X][X]) ≠ 0 := by
    apply mul_ne_zero _ X_ne_zero
    rw [Ne, C_eq_zero, C_eq_zero]; norm_num
  exact (mul_left_cancel₀ hne d2).symm

/-- Partial correctness of `psi`. -/
theorem psi_spec (a b : ℤ) : ∀ (n : ℤ) (c : Poly), psi a b n = .ok c → 0 ≤ n ∧ PsiOK a b n c := by
  intro n
  induction hn : n.toNat using Nat.strong_induction_on generalizing n with
  | _ N ih =>
    intro c h
    have hn0 : 0 ≤ n := by
      by_contra hneg
      rw [psi_neg _ _ _ (by omega)] at h; cases h
    refine ⟨hn0, ?_⟩
    by_cases h0 : n = 0
    · subst h0; rw [psi_zero] at h; cases h; exact psiOK_zero a b
    by_cases h1 : n = 1
    · subst h1; rw [psi_one] at h; cases h; exact psiOK_one a b
    by_cases h2 : n = 2
    · subst h2; rw [psi_two] at h; cases h; exact psiOK_two a b
    by_cases h3 : n = 3
    · subst h3; obtain ⟨c', hc', hok⟩ := psiOK_three a b; rw [hc'] at h; cases h; exact hok
    by_cases h4 : n = 4
    · subst h4; obtain ⟨c', hc', hok⟩ := psiOK_four a b; rw [hc'] at h; cases h; exact hok
    rcases Int.even_or_odd' n with ⟨m, hm | hm⟩
    · subst hm
      rw [psi_even a b m (by omega)] at h
      simp only [Res.bind_eq_ok] at h
      obtain ⟨e, he, f, hf, f2, hf2, g, hg, h, hh, h2, hh2, p, hp, s, hs, t, ht, i, hi, j, hj, hc⟩ := h
      have := even_shape (ih _ (by omega) _ rfl _ hp).2 (ih _ (by omega) _ rfl _ he).2
        (ih _ (by omega) _ rfl _ hf).2 (ih _ (by omega) _ rfl _ hg).2 (ih _ (by omega) _ rfl _ hh).2
        hf2 hh2 hs ht hi
      exact psiOK_even this.1 this.2.1 this.2.2 hj hc
    · subst hm
      rw [psi_odd a b m (by omega)] at h
      simp only [Res.bind_eq_ok] at h
      obtain ⟨e, he, f, hf, f3, hf3, g, hg, h, hh, h3, hh3, s, hs, t, ht, hc⟩ := h
      have := odd_shape (ih _ (by omega) _ rfl _ he).2 (ih _ (by omega) _ rfl _ hf).2
        (ih _ (by omega) _ rfl _ hg).2 (ih _ (by omega) _ rfl _ hh).2 hf3 hh3 hs ht
      exact psiOK_odd this.1 this.2.1 this.2.2 hc

theorem psi_wt {n : ℤ} (h : 1 ≤ n) : 0 ≤ n ^ 2 - 1 - 3 * (1 - n % 2) := by
  by_cases h2 : 2 ≤ n
  · have : 4 ≤ n ^ 2 := by nlinarith
    omega
  · have : n = 1 := by omega
    subst this; norm_num

theorem psi_total (a b : ℤ) : ∀ (n : ℤ), 0 ≤ n → n ≤ 65536 → ∃ c, psi a b n = .ok c := by
  intro n
  induction hn : n.toNat using Nat.strong_induction_on generalizing n with
  | _ N ih =>
    intro hn0 hn1
    by_cases h0 : n = 0
    · subst h0; exact ⟨_, psi_zero a b⟩
    by_cases h1 : n = 1
    · subst h1; exact ⟨_, psi_one a b⟩
    by_cases h2 : n = 2
    · subst h2; exact ⟨_, psi_two a b⟩
    by_cases h3 : n = 3
    · subst h3; exact ⟨_, psi_three a b⟩
    by_cases h4 : n = 4
    · subst h4; obtain ⟨c, hc, -⟩ := psiOK_four a b; exact ⟨c, hc⟩
    rcases Int.even_or_odd' n with ⟨m, hm | hm⟩
    · subst hm
      have hsq : m ^ 2 ≤ 1073741824 := by nlinarith
      have hsq1 : (m + 1) ^ 2 ≤ 1073807361 := by nlinarith
      have hsq2 : (m - 1) ^ 2 ≤ 1073741824 := by nlinarith
      have hm3 : 3 ≤ m := by omega
      obtain ⟨p, hp⟩ := ih _ (by omega) m rfl (by omega) (by omega)
      obtain ⟨e, he⟩ := ih _ (by omega) (m + 2) rfl (by omega) (by omega)
      obtain ⟨f, hf⟩ := ih _ (by omega) (m - 1) rfl (by omega) (by omega)
      obtain ⟨g, hg⟩ := ih _ (by omega) (m - 2) rfl (by omega) (by omega)
      obtain ⟨h, hh⟩ := ih _ (by omega) (m + 1) rfl (by omega) (by omega)
      have hp' := (psi_spec a b _ _ hp).2
      have he' := (psi_spec a b _ _ he).2
      have hf' := (psi_spec a b _ _ hf).2
      have hg' := (psi_spec a b _ _ hg).2
      have hh' := (psi_spec a b _ _ hh).2
      obtain ⟨f2, hf2⟩ := wk_power_ok hf'.wk (n := 2) (by omega) (by omega) (psi_wt (by omega))
        (by omega) (by omega)
      obtain ⟨h2, hh2⟩ := wk_power_ok hh'.wk (n := 2) (by omega) (by omega) (psi_wt (by omega))
        (by omega) (by omega)
      obtain ⟨s, hs⟩ := wk_mul_ok he'.wk (wk_power hf'.wk hf2) (by ring_nf; omega) (by omega)
      obtain ⟨t, ht⟩ := wk_mul_ok hg'.wk (wk_power hh'.wk hh2) (by ring_nf; omega) (by omega)
      have hst : (s.sub t).All (WK (2 - (1 - m % 2)) (3 * m ^ 2 + 3)) := by
        refine all_sub' (wk_mul he'.wk (wk_power hf'.wk hf2) hs) (wk_mul hg'.wk (wk_power hh'.wk hh2) ht) ?_ ?_
        · rintro k ⟨k1, k2, k3⟩
          refine ⟨k1, by omega, ?_⟩
          ring_nf at k3 ⊢
          omega
        · rintro k ⟨k1, k2, k3⟩
          refine ⟨k1, by omega, ?_⟩
          ring_nf at k3 ⊢
          omega
      obtain ⟨i, hi⟩ := wk_mul_ok hp'.wk hst (by ring_nf; omega) (by omega)
      obtain ⟨s1, s2, s3⟩ := even_shape hp' he' hf' hg' hh' hf2 hh2 hs ht hi
      obtain ⟨j, hj⟩ := div_cy_ok (c := 2) (by norm_num) (a := i)
        (fun e he => ⟨(s1 e he).1, s2 e he, by rw [(s1 e he).2.1]; norm_num, by rw [(s1 e he).2.1]; norm_num⟩)
      obtain ⟨d1, -⟩ := div_cy_spec (c := 2) (by norm_num)
        (s1.mono fun k hk => ⟨hk.1, by rw [hk.2.1]; norm_num⟩) hj
      obtain ⟨c, hc, -⟩ := reduction_lt (a := a) (b := b) (f := j)
        (d1 fun e he => by have := (s1 e he).2.1; simp only [Key.setY]; omega)
      refine ⟨c, ?_⟩
      rw [psi_even a b m hm3]
      simp only [hp, he, hf, hg, hh, hf2, hh2, hs, ht, hi, hj, hc, Res.ok_bind]
    · subst hm
      have hm7 : m ≤ 32767 := by omega
      have hsq : m ^ 2 ≤ 1073676289 := by nlinarith
      have hsq1 : (m + 1) ^ 2 ≤ 1073741824 := by nlinarith
      have hm3 : 2 ≤ m := by omega
      obtain ⟨e, he⟩ := ih _ (by omega) (m + 2) rfl (by omega) (by omega)
      obtain ⟨f, hf⟩ := ih _ (by omega) m rfl (by omega) (by omega)
      obtain ⟨g, hg⟩ := ih _ (by omega) (m - 1) rfl (by omega) (by omega)
      obtain ⟨h, hh⟩ := ih _ (by omega) (m + 1) rfl (by omega) (by omega)
      have he' := (psi_spec a b _ _ he).2
      have hf' := (psi_spec a b _ _ hf).2
      have hg' := (psi_spec a b _ _ hg).2
      have hh' := (psi_spec a b _ _ hh).2
      obtain ⟨f3, hf3⟩ := wk_power_ok hf'.wk (n := 3) (by omega) (by omega) (psi_wt (by omega))
        (by omega) (by omega)
      obtain ⟨h3, hh3⟩ := wk_power_ok hh'.wk (n := 3) (by omega) (by omega) (psi_wt (by omega))
        (by omega) (by omega)
      obtain ⟨s, hs⟩ := wk_mul_ok he'.wk (wk_power hf'.wk hf3) (by ring_nf; omega) (by omega)
      obtain ⟨t, ht⟩ := wk_mul_ok hg'.wk (wk_power hh'.wk hh3) (by ring_nf; omega) (by omega)
      obtain ⟨s1, s2, s3⟩ := odd_shape he' hf' hg' hh' hf3 hh3 hs ht
      obtain ⟨c, hc⟩ := C20_reduction_returns (s.sub t) a b (by
        intro e he
        obtain ⟨⟨k1, k2, k3, k4⟩, k5, k6⟩ := s1 e he
        simp only [Monomial.key] at *
        refine ⟨k1, by rw [k3]; decide, fun hy => ?_⟩
        ring_nf at k6
        omega)
      refine ⟨c, ?_⟩
      rw [psi_odd a b m hm3]
      simp only [he, hf, hg, hh, hf3, hh3, hs, ht, hc, Res.ok_bind]

end EC
