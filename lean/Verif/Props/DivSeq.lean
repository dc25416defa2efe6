import Verif.Props.Multiples
import Verif.Props.PolyDiv
import Verif.Props.NormalForm
import Verif.Lemmas.EDSMul
import Mathlib.AlgebraicGeometry.EllipticCurve.DivisionPolynomial.Degree

/-! Property C96: the division polynomials returned by `psi`, `phi`, `omega` as a sequence: degrees and leading
coefficients, the elliptic relation between them, divisibility, and the division polynomials of a multiple of a
point. -/

namespace EC
open Poly Polynomial WeierstrassCurve

/-- The highest term, from a bound on the exponents and a non-zero coefficient. -/
theorem highest_of_coef {P : Poly} {i j : ℕ} (h : P.All (fun k => k.IsXY ∧ k.y = j ∧ k.x ≤ i))
    (hc : P.coef (Key.mk i j 0 none) ≠ 0) :
    P.highestTermX.xpow = i ∧ P.highestTermX.ypow = j ∧ P.highestTermX.qpow = 0 ∧
    P.highestTermX.var.empty = true ∧ P.highestTermX.coef = P.coef (Key.mk i j 0 none) := by
  obtain ⟨e0, he0, hk0⟩ := mem_of_coef_ne hc
  obtain ⟨e, he, h1, -⟩ := highestTermX_of_ne (List.ne_nil_of_mem he0)
  have hle := le_highest he0
  rw [h1] at hle ⊢
  obtain ⟨⟨-, -, kq, kv⟩, ky, kx⟩ := h e he
  have hx : e.1.key.x = i := le_antisymm kx (by
    have : e0.1.key.x = i := by rw [hk0]
    rw [← this]; exact hle)
  have hk : e.1.key = Key.mk i j 0 none := by
    rcases hh : e.1.key with ⟨x, y, q, v⟩
    rw [hh] at hx ky kq kv
    simp only at hx ky kq kv
    rw [hx, ky, kq, kv]
  refine ⟨hx, ky, kq, SubVar.key_eq_none.1 kv, ?_⟩
  rw [← hk, coef_of_mem he]; rfl

theorem degreeX_of_highest {P : Poly} (h : P.All Key.IsX) {i : ℤ} (hx : P.highestTermX.xpow = i)
    (hc : P.highestTermX.coef ≠ 0) : P.degreeX = .ok i := by
  have h0 : P.isZero = false := by
    by_contra h0
    rw [Bool.not_eq_false] at h0
    rw [(C27_zero P h0).2] at hc
    exact hc rfl
  unfold degreeX
  rw [hasY_of_isX h, hasQ_of_isX h]
  simp only [Bool.not_false, rassert_true, Res.ok_bind, h0]
  rw [hx]; rfl

theorem psi_top (a b : ℤ) (n : ℕ) (hn : 1 ≤ n) (c : Poly) (h : psi a b n = .ok c) :
    c.highestTermX.coef = n ∧ c.highestTermX.ypow = (if Even n then 1 else 0) ∧
    2 * c.highestTermX.xpow = (n : ℤ) ^ 2 - (if Even n then 4 else 1) ∧ c.highestTermX.qpow = 0 ∧
    c.highestTermX.var.empty = true := by
  obtain ⟨-, hok⟩ := psi_spec a b n c h
  have hv := hok.val
  by_cases he : Even n
  · obtain ⟨m, rfl⟩ := even_iff_exists_two_mul.1 he
    have hm : 1 ≤ m := by omega
    have hm2 : 1 ≤ m ^ 2 := Nat.one_le_pow _ _ hm
    have hz : Even (((2 * m : ℕ)) : ℤ) := by exact_mod_cast he
    have hc := polyXY_coeff (R := ℤ) hok.isXY (2 * m ^ 2 - 2) 1
    rw [hv, WeierstrassCurve.Ψ, if_pos hz, psi2, ← mul_assoc, ← C_mul, coeff_C_mul, coeff_X_one, mul_one,
      mul_comm, coeff_C_mul] at hc
    have h3 := (shortW a b).coeff_preΨ ((2 * m : ℕ) : ℤ)
    rw [if_pos hz, if_pos hz, Int.natAbs_natCast, show ((2 * m) ^ 2 - 4) / 2 = 2 * m ^ 2 - 2 by
      rw [mul_pow]; omega] at h3
    have hc' : c.coef (Key.mk (2 * m ^ 2 - 2 : ℕ) (1 : ℕ) 0 none) = (2 * m : ℕ) := by
      have := hc.symm
      rw [h3] at this
      simp only [Int.cast_id] at this
      rw [this]
      push_cast
      rw [Int.mul_ediv_cancel_left _ (by norm_num)]
    obtain ⟨t1, t2, t3, t4, t5⟩ := highest_of_coef (i := 2 * m ^ 2 - 2) (j := 1) (P := c)
      (hok.wk.mono fun k hk => by
        obtain ⟨k1, k2, k3⟩ := hk
        have e : ((2 * m : ℕ) : ℤ) % 2 = 0 := by omega
        rw [e] at k2
        refine ⟨k1, by simpa using k2, ?_⟩
        push_cast at k3
        rw [show (2 * (m : ℤ)) ^ 2 = 4 * (m : ℤ) ^ 2 by ring] at k3
        have : (1 : ℤ) ≤ (m : ℤ) ^ 2 := by exact_mod_cast hm2
        rw [Nat.cast_sub (by omega)]
        push_cast
        omega) (by rw [hc']; omega)
    refine ⟨by rw [t5, hc'], by rw [t2, if_pos he]; rfl, ?_, t3, t4⟩
    rw [t1, if_pos he, Nat.cast_sub (by omega)]
    push_cast
    ring
  · have hz : ¬ Even (n : ℤ) := by exact_mod_cast he
    obtain ⟨m, rfl⟩ := Nat.not_even_iff_odd.1 he
    have hc := polyXY_coeff (R := ℤ) hok.isXY (2 * m ^ 2 + 2 * m) 0
    rw [hv, WeierstrassCurve.Ψ, if_neg hz, mul_one, coeff_C_zero] at hc
    have h3 := (shortW a b).coeff_preΨ ((2 * m + 1 : ℕ) : ℤ)
    rw [if_neg hz, if_neg hz, Int.natAbs_natCast, show ((2 * m + 1) ^ 2 - 1) / 2 = 2 * m ^ 2 + 2 * m by
      have : (2 * m + 1) ^ 2 = 2 * (2 * m ^ 2 + 2 * m) + 1 := by ring
      omega] at h3
    have hc' : c.coef (Key.mk (2 * m ^ 2 + 2 * m : ℕ) (0 : ℕ) 0 none) = (2 * m + 1 : ℕ) := by
      have := hc.symm
      rw [h3] at this
      simpa only [Int.cast_id] using this
    obtain ⟨t1, t2, t3, t4, t5⟩ := highest_of_coef (i := 2 * m ^ 2 + 2 * m) (j := 0) (P := c)
      (hok.wk.mono fun k hk => by
        obtain ⟨k1, k2, k3⟩ := hk
        have e : ((2 * m + 1 : ℕ) : ℤ) % 2 = 1 := by omega
        rw [e] at k2
        refine ⟨k1, by simpa using k2, ?_⟩
        rw [k2] at k3
        push_cast at k3 ⊢
        rw [show (2 * (m : ℤ) + 1) ^ 2 = 2 * (2 * (m : ℤ) ^ 2 + 2 * m) + 1 by ring] at k3
        omega) (by rw [hc']; omega)
    refine ⟨by rw [t5, hc'], by rw [t2, if_neg he]; rfl, ?_, t3, t4⟩
    rw [t1, if_neg he]
    push_cast
    ring

/-- C96: for odd `n` the result of `psi(a,b,n)` is a polynomial in `x` of degree `(n^2-1)/2` with leading
coefficient `n`. -/
theorem C96_psi_odd (a b : ℤ) (n : ℕ) (hn : Odd n) (c : Poly) (h : psi a b n = .ok c) :
    c.degreeX = .ok (((n : ℤ) ^ 2 - 1) / 2) ∧ c.highestTermX.coef = n ∧
    c.highestTermX.xpow = ((n : ℤ) ^ 2 - 1) / 2 := by
  have hn1 : 1 ≤ n := hn.pos
  obtain ⟨t1, t2, t3, t4, t5⟩ := psi_top a b n hn1 c h
  rw [if_neg (Nat.not_even_iff_odd.2 hn)] at t3
  have hx : c.highestTermX.xpow = ((n : ℤ) ^ 2 - 1) / 2 := by omega
  refine ⟨degreeX_of_highest ?_ hx (by rw [t1]; omega), t1, hx⟩
  refine (psi_spec a b n c h).2.wk.mono fun k hk => ?_
  obtain ⟨⟨k1, k2, k3, k4⟩, k5, k6⟩ := hk
  have : (n : ℤ) % 2 = 1 := by have := Nat.odd_iff.1 hn; omega
  exact ⟨k1, by omega, k3, k4⟩

/-- C96: for even `n ≥ 2` the highest term of `psi(a,b,n)` is `n x^((n^2-4)/2) y`. -/
theorem C96_psi_even (a b : ℤ) (n : ℕ) (hn : Even n) (h1 : 1 ≤ n) (c : Poly) (h : psi a b n = .ok c) :
    c.highestTermX.coef = n ∧ c.highestTermX.xpow = ((n : ℤ) ^ 2 - 4) / 2 ∧ c.highestTermX.ypow = 1 ∧
    c.highestTermX.qpow = 0 ∧ c.highestTermX.var.empty = true := by
  obtain ⟨t1, t2, t3, t4, t5⟩ := psi_top a b n h1 c h
  rw [if_pos hn] at t2 t3
  exact ⟨t1, by omega, t2, t4, t5⟩


theorem phi_xle {a b n : ℤ} {c : Poly} (h : phi a b n = .ok c) : c.All (fun k => k.x ≤ n ^ 2) := by
  obtain ⟨hn, hn', -⟩ := phi_spec h
  rw [phi_eq a b n hn hn'] at h
  simp only [Res.bind_eq_ok] at h
  obtain ⟨p, hp, p2, hp2, t, ht, e, he, g, hg, u, hu, hc⟩ := h
  obtain ⟨s1, -, -⟩ := phi_shape (psi_spec a b _ _ hp).2 (psi_spec a b _ _ he).2 (psi_spec a b _ _ hg).2
    hp2 ht hu
  rw [reduction_eq] at hc
  refine redFold_all (W := XLe) (fun y ee _ h => power_XLe h) s1 ?_ ?_ hc
  · rintro k ⟨k1, k2, k3⟩ k4
    have : k.y = 0 := by omega
    rw [this] at k3
    omega
  · rintro ⟨x, y, q, v⟩ ⟨x', y', q', v'⟩ ⟨⟨l1, l2, l3, l4⟩, k2, k3⟩ k4 ⟨⟨m1, m2, m3, m4⟩, m5⟩ -
    simp only [Key.mul, Key.setY] at *
    have : y = 2 := by omega
    subst this
    norm_num at m5
    omega

/-- C96: `phi(a,b,n)` is a monic polynomial in `x` of degree `n^2`. -/
theorem C96_phi (a b : ℤ) (n : ℕ) (c : Poly) (h : phi a b n = .ok c) :
    c.degreeX = .ok ((n : ℤ) ^ 2) ∧ c.highestTermX.coef = 1 ∧ c.highestTermX.xpow = (n : ℤ) ^ 2 := by
  obtain ⟨-, -, hX, -, hv⟩ := phi_spec h
  have hc := polyX_coeff (R := ℤ) hX (n ^ 2)
  have h3 := (shortW a b).coeff_Φ (n : ℤ)
  rw [Int.natAbs_natCast] at h3
  rw [hv, h3] at hc
  have hc' : c.coef (Key.mk (n ^ 2 : ℕ) (0 : ℕ) 0 none) = 1 := by
    simpa [Key.xn] using hc.symm
  have hall : c.All (fun k => k.IsXY ∧ k.y = (0 : ℕ) ∧ k.x ≤ (n ^ 2 : ℕ)) := fun e he => by
    obtain ⟨k1, k2, k3, k4⟩ := hX e he
    have := phi_xle h e he
    refine ⟨⟨k1, k2.ge, k3, k4⟩, k2, ?_⟩
    push_cast
    exact this
  obtain ⟨t1, t2, t3, t4, t5⟩ := highest_of_coef hall (by rw [hc']; norm_num)
  rw [hc'] at t5
  push_cast at t1
  exact ⟨degreeX_of_highest hX t1 (by rw [t5]; norm_num), t5, t1⟩

theorem preΨ_lead (a b : ℤ) (n : ℕ) (hn : 1 ≤ n) :
    ((shortW a b).preΨ n).leadingCoeff = (if Even n then (n : ℤ) / 2 else n) ∧
    ((shortW a b).preΨ n).natDegree = (n ^ 2 - if Even n then 4 else 1) / 2 := by
  have h0 : ((n : ℤ) : ℤ) ≠ 0 := by omega
  have h1 := (shortW a b).leadingCoeff_preΨ (n := (n : ℤ)) h0
  have h2 := (shortW a b).natDegree_preΨ (n := (n : ℤ)) h0
  rw [Int.natAbs_natCast] at h2
  simp only [Int.even_coe_nat] at h1 h2
  refine ⟨?_, h2⟩
  rw [h1]
  split_ifs <;> simp

theorem omega_wk {a b : ℤ} {n : ℕ} {c : Poly} (hn : 1 ≤ n) (h : omega a b n = .ok c) :
    c.All (WK ((n : ℤ) % 2) (3 * (n : ℤ) ^ 2)) := by
  rcases (by omega : n = 1 ∨ 2 ≤ n) with rfl | h2
  · rw [Nat.cast_one, omega_one] at h
    cases h
    refine all_toPol fun _ => ?_
    simp [WK, Key.IsXY, TermBuilder.new, TermBuilder.build, TermBuilder.ypow,
      Monomial.key, SubVar.key, SubVar.new]
  · exact (omega_spec h (by omega)).2.1

/-- C96: the highest term of `omega(a,b,n)` is `x^(3 n^2 / 2)` for even `n` and `x^(3 (n^2 - 1) / 2) y` for odd `n`,
with coefficient 1. -/
theorem C96_omega (a b : ℤ) (n : ℕ) (c : Poly) (h : omega a b n = .ok c) :
    c.highestTermX.coef = 1 ∧ c.highestTermX.ypow = (n : ℤ) % 2 ∧
    c.highestTermX.xpow = 3 * ((n : ℤ) ^ 2 - (n : ℤ) % 2) / 2 ∧ c.highestTermX.qpow = 0 ∧
    c.highestTermX.var.empty = true := by
  have hn : 1 ≤ n := by
    by_contra hn
    have : decide ((n : ℤ) ≥ 1) = false := by simp; omega
    unfold omega at h
    rw [this] at h
    simp at h
  obtain ⟨p, hp⟩ : ∃ p, psi a b n = .ok p := by
    rcases (by omega : n = 1 ∨ 2 ≤ n) with rfl | h2
    · exact (C32_psi_returns_iff a b 1).1.2 (by norm_num)
    · have hr := (C32_omega_returns_iff a b n).1.1 ⟨c, h⟩
      exact (C32_psi_returns_iff a b n).1.2 (by omega)
  have hd := C31_double a b n p c (by omega) hp h
  rw [(C29_psi a b n p hp).2.1] at hd
  have hw := omega_wk hn h
  obtain ⟨l2, d2⟩ := preΨ_lead a b (2 * n) (by omega)
  obtain ⟨l1, d1⟩ := preΨ_lead a b n hn
  have hz2 : Even (2 * (n : ℤ)) := by simp
  have hs : 1 ≤ n ^ 2 := Nat.one_le_pow _ _ hn
  rw [if_pos (by simp)] at l2 d2
  have l2' : ((shortW a b).preΨ (2 * (n : ℤ))).leadingCoeff = n := by
    push_cast at l2
    rw [l2]; omega
  have d2' : ((shortW a b).preΨ (2 * (n : ℤ))).natDegree = 2 * n ^ 2 - 2 := by
    push_cast at d2
    rw [d2, mul_pow]; omega
  have c1 := congrArg (fun f => coeff f 1) hd
  rw [WeierstrassCurve.Ψ, WeierstrassCurve.Ψ, if_pos hz2, psi2, ← mul_assoc (C _) (C _) X, ← C_mul,
    coeff_C_mul, coeff_X_one, mul_one] at c1
  have two : (2 : ℤ[X][X]) = C (C 2) := by simp only [map_ofNat]
  have fin : ∀ (i j : ℕ) (g : ℤ[X]), g = (c.polyXY ℤ).coeff j → g.leadingCoeff = 1 → g.natDegree = i →
      (j : ℤ) = (n : ℤ) % 2 → 2 * (i : ℤ) = 3 * ((n : ℤ) ^ 2 - j) →
      c.highestTermX.coef = 1 ∧ c.highestTermX.ypow = (n : ℤ) % 2 ∧
      c.highestTermX.xpow = 3 * ((n : ℤ) ^ 2 - (n : ℤ) % 2) / 2 ∧ c.highestTermX.qpow = 0 ∧
      c.highestTermX.var.empty = true := by
    intro i j g hg hl hdeg hj hij
    have hc := polyXY_coeff (R := ℤ) (hw.mono fun _ h => h.1) i j
    rw [← hg, ← hdeg, coeff_natDegree, hl] at hc
    rw [hdeg] at hc
    have hc' : c.coef (Key.mk i j 0 none) = 1 := by simpa using hc.symm
    obtain ⟨t1, t2, t3, t4, t5⟩ := highest_of_coef (i := i) (j := j) (P := c)
      (hw.mono fun k hk => by
        obtain ⟨k1, k2, k3⟩ := hk
        refine ⟨k1, by rw [k2, hj], ?_⟩
        omega) (by rw [hc']; norm_num)
    refine ⟨by rw [t5, hc'], by rw [t2, hj], ?_, t3, t4⟩
    rw [t1, ← hj]; omega
  by_cases he : Even n
  · have hz : Even (n : ℤ) := by exact_mod_cast he
    rw [if_pos he] at l1 d1
    rw [if_pos hz] at c1
    have c2 : (C 2 * ((C 2 * (shortW a b).preΨ n) * (c.polyXY ℤ).coeff 0) : ℤ[X]) =
        C 2 * (shortW a b).preΨ (2 * (n : ℤ)) := by
      rw [mul_comm (C 2) ((shortW a b).preΨ (2 * (n : ℤ))), ← c1, two]
      rw [show (C (C 2) * (C ((shortW a b).preΨ n) * (C (C 2) * X)) * c.polyXY ℤ : ℤ[X][X]) =
        C (C 2 * ((shortW a b).preΨ n * C 2)) * (c.polyXY ℤ * X) by simp only [C_mul]; ring]
      rw [coeff_C_mul, coeff_mul_X]
      ring
    have c3 := mul_left_cancel₀ (by simp : (C 2 : ℤ[X]) ≠ 0) c2
    have hlead : ((c.polyXY ℤ).coeff 0).leadingCoeff = 1 := by
      have := congrArg leadingCoeff c3
      rw [leadingCoeff_mul, leadingCoeff_mul, leadingCoeff_C, l1, l2'] at this
      have hne : (n : ℤ) ≠ 0 := by omega
      apply mul_left_cancel₀ hne
      rw [mul_one]
      refine Eq.trans ?_ this
      congr 1
      have := Nat.even_iff.1 he
      omega
    have hdeg : ((c.polyXY ℤ).coeff 0).natDegree + (n ^ 2 - 4) / 2 = 2 * n ^ 2 - 2 := by
      have := congrArg natDegree c3
      have n1 : (shortW a b).preΨ n ≠ 0 := by
        intro h0
        rw [h0, leadingCoeff_zero] at l1
        have := Nat.even_iff.1 he
        omega
      have n2 : (c.polyXY ℤ).coeff 0 ≠ 0 := by
        intro h0
        rw [h0, leadingCoeff_zero] at hlead
        exact zero_ne_one hlead
      rw [natDegree_mul (mul_ne_zero (by simp) n1) n2, natDegree_C_mul (by norm_num), d1, d2'] at this
      omega
    obtain ⟨m, rfl⟩ := even_iff_exists_two_mul.1 he
    have e4 : (2 * m) ^ 2 = 4 * m ^ 2 := by ring
    rw [e4] at hdeg hs
    have hdeg' : ((c.polyXY ℤ).coeff 0).natDegree = 6 * m ^ 2 := by
      have : 1 ≤ m ^ 2 := Nat.one_le_pow _ _ (by omega)
      omega
    refine fin (6 * m ^ 2) 0 _ rfl hlead hdeg' (by push_cast; omega) ?_
    push_cast
    ring
  · have hz : ¬ Even (n : ℤ) := by exact_mod_cast he
    rw [if_neg he] at l1 d1
    rw [if_neg hz, mul_one] at c1
    have c2 : (C 2 * ((shortW a b).preΨ n * (c.polyXY ℤ).coeff 1) : ℤ[X]) =
        C 2 * (shortW a b).preΨ (2 * (n : ℤ)) := by
      rw [mul_comm (C 2) ((shortW a b).preΨ (2 * (n : ℤ))), ← c1, two, ← C_mul, coeff_C_mul]
      ring
    have c3 := mul_left_cancel₀ (by simp : (C 2 : ℤ[X]) ≠ 0) c2
    have hlead : ((c.polyXY ℤ).coeff 1).leadingCoeff = 1 := by
      have := congrArg leadingCoeff c3
      rw [leadingCoeff_mul, l1, l2'] at this
      have hne : (n : ℤ) ≠ 0 := by omega
      apply mul_left_cancel₀ hne
      rw [mul_one]
      exact this
    have hdeg : ((c.polyXY ℤ).coeff 1).natDegree + (n ^ 2 - 1) / 2 = 2 * n ^ 2 - 2 := by
      have := congrArg natDegree c3
      have n1 : (shortW a b).preΨ n ≠ 0 := by
        intro h0
        rw [h0, leadingCoeff_zero] at l1
        omega
      have n2 : (c.polyXY ℤ).coeff 1 ≠ 0 := by
        intro h0
        rw [h0, leadingCoeff_zero] at hlead
        exact zero_ne_one hlead
      rw [natDegree_mul n1 n2, d1, d2'] at this
      omega
    obtain ⟨m, rfl⟩ := Nat.not_even_iff_odd.1 he
    have e4 : (2 * m + 1) ^ 2 = 2 * (2 * m ^ 2 + 2 * m) + 1 := by ring
    rw [e4] at hdeg hs
    have hdeg' : ((c.polyXY ℤ).coeff 1).natDegree = 3 * (2 * m ^ 2 + 2 * m) := by omega
    refine fin _ 1 _ rfl hlead hdeg' (by push_cast; omega) ?_
    push_cast
    ring


/-! ### Relations -/

/-- Evaluation at the generic point of the coordinate ring is the class. -/
theorem evR_class (a b : ℤ) (f : ℤ[X][X]) :
    evR (Affine.CoordinateRing (shortW a b).toAffine) (Affine.CoordinateRing.mk (shortW a b).toAffine (C X))
      (Affine.CoordinateRing.mk (shortW a b).toAffine X) f = Affine.CoordinateRing.mk (shortW a b).toAffine f := by
  have : evR (Affine.CoordinateRing (shortW a b).toAffine) (Affine.CoordinateRing.mk (shortW a b).toAffine (C X))
      (Affine.CoordinateRing.mk (shortW a b).toAffine X) = Affine.CoordinateRing.mk (shortW a b).toAffine := by
    apply Polynomial.ringHom_ext
    · intro q
      induction q using Polynomial.induction_on' with
      | add p q hp hq => rw [C_add, map_add, map_add, hp, hq]
      | monomial n c =>
        rw [← C_mul_X_pow_eq_monomial, C_mul, C_pow, map_mul, map_mul, map_pow, map_pow, evR_CX, evR_CC]
        simp
    · rw [evR_X]
  rw [this]

theorem class_eqn (a b : ℤ) : Affine.CoordinateRing.mk (shortW a b).toAffine X ^ 2 =
    Affine.CoordinateRing.mk (shortW a b).toAffine (C X) ^ 3 +
      ((a : ℤ) : Affine.CoordinateRing (shortW a b).toAffine) * Affine.CoordinateRing.mk (shortW a b).toAffine (C X) +
      ((b : ℤ) : Affine.CoordinateRing (shortW a b).toAffine) := mk_curve a b

/-- The value of the division polynomial in the coordinate ring. -/
noncomputable def psR (a b : ℤ) (n : ℤ) : Affine.CoordinateRing (shortW a b).toAffine :=
  EDS.ps (a : Affine.CoordinateRing (shortW a b).toAffine) b (Affine.CoordinateRing.mk (shortW a b).toAffine (C X))
    (Affine.CoordinateRing.mk (shortW a b).toAffine X) n

theorem class_psi (a b n : ℤ) (c : Poly) (h : psi a b n = .ok c) :
    Affine.CoordinateRing.mk (shortW a b).toAffine (c.polyXY ℤ) = psR a b n := by
  rw [(C29_psi a b n c h).2.1, ← evR_class, evR_psi (class_eqn a b), psR]

/-- C96: whenever `m ∣ n`, `psi(a,b,m)` divides `psi(a,b,n)` modulo the equation of the curve. -/
theorem C96_divides (a b : ℤ) (m n : ℕ) (hmn : m ∣ n) (c d : Poly) (hc : psi a b m = .ok c) (hd : psi a b n = .ok d) :
    ∃ g k : ℤ[X][X], d.polyXY ℤ = c.polyXY ℤ * g + (X ^ 2 - C (X ^ 3 + C a * X + C b)) * k := by
  have h := EDS.ps_dvd (class_eqn a b) m n hmn
  have h1 := class_psi a b m c hc
  have h2 := class_psi a b n d hd
  rw [psR] at h1 h2
  rw [← h1, ← h2] at h
  obtain ⟨g, hg⟩ := h
  obtain ⟨g, rfl⟩ := AdjoinRoot.mk_surjective g
  have h3 : Affine.CoordinateRing.mk (shortW a b).toAffine (d.polyXY ℤ) =
      Affine.CoordinateRing.mk (shortW a b).toAffine (c.polyXY ℤ * g) := by rw [map_mul]; exact hg
  obtain ⟨k, hk⟩ := AdjoinRoot.mk_eq_mk.1 h3
  refine ⟨g, k, ?_⟩
  rw [← sub_eq_iff_eq_add', hk]
  congr 1
  rw [Affine.polynomial]
  simp

/-- C96: at an integral point of the curve the values of `psi` form a divisibility sequence. -/
theorem C96_divides_eval (a b x y : ℤ) (hxy : y ^ 2 = x ^ 3 + a * x + b) (m n : ℕ) (hmn : m ∣ n) (c d : Poly)
    (hc : psi a b m = .ok c) (hd : psi a b n = .ok d) : c.evalXY x y ∣ d.evalXY x y := by
  have h := EDS.ps_dvd (a := a) (b := b) hxy m n hmn
  have hxy' : ((y : ℤ) : ℤ) ^ 2 = (x : ℤ) ^ 3 + ((a : ℤ) : ℤ) * x + ((b : ℤ) : ℤ) := by simpa using hxy
  have e : ∀ (n : ℕ) (c : Poly), psi a b n = .ok c → c.evalXY x y = EDS.ps a b x y n := by
    intro n c hc
    have := evR_psi (R := ℤ) (a := a) (b := b) (x := x) (y := y) hxy' n
    rw [C22_eval_xy _ (psi_spec _ _ _ _ hc).2.isXY, (C29_psi _ _ _ _ hc).2.1]
    have e2 := evR_cast (R := ℤ) x y ((shortW a b).Ψ n)
    simp only [Int.cast_id] at e2 this
    rw [e2, this]
  rw [e m c hc, e n d hd]
  exact h


/-- C96: the elliptic relation `ψ_{m+n} ψ_{m-n} = ψ_{m+1} ψ_{m-1} ψ_n^2 - ψ_{n+1} ψ_{n-1} ψ_m^2` for all `m > n ≥ 1`,
between the polynomials returned by `psi` after `reduction`. -/
theorem C96_relation (a b : ℤ) (m n : ℕ) (hn : 1 ≤ n) (hm : n < m) (l r : Poly)
    (hl : (do
      let u ← (← psi a b (m + n)).mul (← psi a b (m - n))
      u.reduction a b) = .ok l)
    (hr : (do
      let s ← (← (← psi a b (m + 1)).mul (← psi a b (m - 1))).mul (← (← psi a b n).power 2)
      let t ← (← (← psi a b (n + 1)).mul (← psi a b (n - 1))).mul (← (← psi a b m).power 2)
      (s.sub t).reduction a b) = .ok r) : l.val = r.val := by
  simp only [Res.bind_eq_ok] at hl hr
  obtain ⟨p1, h1, p2, h2, u, hu, hl⟩ := hl
  obtain ⟨p3, h3, p4, h4, s1, hs1, p5, h5, s2, hs2, s, hs, p6, h6, p7, h7, t1, ht1, p8, h8, t2, ht2, t, ht, hr⟩ := hr
  have w1 := (psi_spec _ _ _ _ h1).2.wk
  have w2 := (psi_spec _ _ _ _ h2).2.wk
  have w3 := (psi_spec _ _ _ _ h3).2.wk
  have w4 := (psi_spec _ _ _ _ h4).2.wk
  have w5 := (psi_spec _ _ _ _ h5).2.wk
  have w6 := (psi_spec _ _ _ _ h6).2.wk
  have w7 := (psi_spec _ _ _ _ h7).2.wk
  have w8 := (psi_spec _ _ _ _ h8).2.wk
  have wu := wk_mul w1 w2 hu
  have ws1 := wk_mul w3 w4 hs1
  have ws2 := wk_power w5 hs2
  have ws := wk_mul ws1 ws2 hs
  have wt1 := wk_mul w6 w7 ht1
  have wt2 := wk_power w8 ht2
  have wt := wk_mul wt1 wt2 ht
  have xst : (s.sub t).All Key.IsXY := all_sub (ws.mono fun _ h => h.1) (wt.mono fun _ h => h.1)
  refine (C89_reduction_normal_form u (s.sub t) l r a b (wu.mono fun _ h => h.1) xst hl hr).2 ?_
  have key : Affine.CoordinateRing.mk (shortW a b).toAffine (u.polyXY ℤ) =
      Affine.CoordinateRing.mk (shortW a b).toAffine ((s.sub t).polyXY ℤ) := by
    rw [polyXY_sub, polyXY_mul (w1.mono fun _ h => h.1) (w2.mono fun _ h => h.1) hu,
      polyXY_mul (ws1.mono fun _ h => h.1) (ws2.mono fun _ h => h.1) hs,
      polyXY_mul (wt1.mono fun _ h => h.1) (wt2.mono fun _ h => h.1) ht,
      polyXY_mul (w3.mono fun _ h => h.1) (w4.mono fun _ h => h.1) hs1,
      polyXY_mul (w6.mono fun _ h => h.1) (w7.mono fun _ h => h.1) ht1,
      polyXY_power (w5.mono fun _ h => h.1) hs2, polyXY_power (w8.mono fun _ h => h.1) ht2]
    simp only [map_sub, map_mul, map_pow, class_psi _ _ _ _ h1, class_psi _ _ _ _ h2, class_psi _ _ _ _ h3,
      class_psi _ _ _ _ h4, class_psi _ _ _ _ h5, class_psi _ _ _ _ h6, class_psi _ _ _ _ h7, class_psi _ _ _ _ h8]
    have e := EDS.rel (class_eqn a b) n (m - n) (by omega) (by omega)
    rw [Nat.cast_sub hm.le, show (2 * (n : ℤ) + (m - n)) = m + n by ring,
      show ((n : ℤ) + (m - n) + 1) = m + 1 by ring, show ((n : ℤ) + (m - n) - 1) = m - 1 by ring,
      show ((n : ℤ) + (m - n)) = m by ring] at e
    exact e
  obtain ⟨k, hk⟩ := AdjoinRoot.mk_eq_mk.1 key
  refine ⟨k, ?_⟩
  rw [hk]
  congr 1
  rw [Affine.polynomial]
  simp

namespace EllipticCurve
variable {ec : EllipticCurve} [Fact (Nat.Prime ec.p.toNat)]

/-- C96: the chain rule over GF(p): if `S = m • P` is a finite point then
`psi(k m)(P) = psi(m)(P)^(k^2) psi(k)(S)`. -/
theorem C96_chain (h : ec.Good) (P S : ECPoint) (Q : ec.W.Point) (r : ec.Rep P Q) (z : P.z ≠ 0)
    (m k : ℕ) (hm : 1 ≤ m) (rS : ec.Rep S (m • Q)) (zS : S.z ≠ 0) (c d e : Poly)
    (hc : psi ec.a ec.b m = .ok c) (hd : psi ec.a ec.b k = .ok d) (he : psi ec.a ec.b ((k * m : ℕ) : ℤ) = .ok e) :
    e.evalXY P.x P.y ≡ c.evalXY P.x P.y ^ (k ^ 2) * d.evalXY S.x S.y [ZMOD ec.p] := by
  rw [← Int.toNat_of_nonneg h.p_pos.le, ← ZMod.intCast_eq_intCast_iff]
  push_cast
  rw [eval_psi r z he, eval_psi r z hc, eval_psi rS zS hd]
  exact EDS.F_mul (two_ne h) (rep_coords r z).1 m k (by omega) (rep_coords rS zS).1

/-- C96: the common zeros of `psi(m)` and `psi(n)` on the curve over GF(p) are the zeros of `psi(gcd(m,n))`. -/
theorem C96_gcd (h : ec.Good) (P : ECPoint) (o : ec.isOnCurve P = .ok true) (z : P.z ≠ 0)
    (m n : ℕ) (hm : 1 ≤ m) (hn : 1 ≤ n) (c d e : Poly)
    (hc : psi ec.a ec.b m = .ok c) (hd : psi ec.a ec.b n = .ok d) (he : psi ec.a ec.b (m.gcd n : ℕ) = .ok e) :
    (ec.p ∣ c.evalXY P.x P.y ∧ ec.p ∣ d.evalXY P.x P.y) ↔ ec.p ∣ e.evalXY P.x P.y := by
  obtain ⟨Q, r⟩ := (isOnCurve_iff_rep h P).1 o
  rw [C63_psi_zero_iff h P Q r z m hm c hc, C63_psi_zero_iff h P Q r z n hn d hd,
    C63_psi_zero_iff h P Q r z _ (Nat.gcd_pos_of_pos_left _ (by omega)) e he,
    ← addOrderOf_dvd_iff_nsmul_eq_zero, ← addOrderOf_dvd_iff_nsmul_eq_zero, ← addOrderOf_dvd_iff_nsmul_eq_zero,
    Nat.dvd_gcd_iff]

end EllipticCurve

/-! Concrete cases. -/

/-- The degrees and leading coefficients for `n = 5` and `n = 6` on `y^2 = x^3 + 6x + 2`. -/
example : (do
    let c ← psi 6 2 5
    let d ← psi 6 2 6
    let f ← phi 6 2 3
    let g ← omega 6 2 3
    let k ← c.degreeX
    pure (k, c.highestTermX.coef, d.highestTermX.xpow, d.highestTermX.coef, f.highestTermX.xpow, g.highestTermX.xpow)
    : Res (ℤ × ℤ × ℤ × ℤ × ℤ × ℤ)) = .ok (12, 5, 16, 6, 9, 12) := by decide +kernel

/-- `(3,5)` is an integral point of `y^2 = x^3 - 2`; the values of `psi(2)` and `psi(4)` there. -/
example : (5 : ℤ) ^ 2 = 3 ^ 3 + 0 * 3 + (-2) ∧ (do
    let c ← psi 0 (-2) 2
    let d ← psi 0 (-2) 4
    pure (c.evalXY 3 5, d.evalXY 3 5) : Res (ℤ × ℤ)) = .ok (10, -7660) := by decide +kernel

/-- The hypotheses of `C96_relation` are met with `m = 4`, `n = 2`: both sides return. -/
example : (do
      let u ← (← psi 6 2 6).mul (← psi 6 2 2)
      let l ← u.reduction 6 2
      let s ← (← (← psi 6 2 5).mul (← psi 6 2 3)).mul (← (← psi 6 2 2).power 2)
      let t ← (← (← psi 6 2 3).mul (← psi 6 2 1)).mul (← (← psi 6 2 4).power 2)
      let r ← (s.sub t).reduction 6 2
      pure (l.eq r)) = Res.ok true := by decide +kernel


/-- A case of `C96_chain`: on `y^2 = x^3 + 6x + 2` over GF(7), `2 • (0,3) = (1,3)` and
`psi(4)(0,3) = psi(2)(0,3)^4 psi(2)(1,3)` modulo 7. -/
example : EllipticCurve.sampleCurve.plus ⟨0, 3, 1⟩ ⟨0, 3, 1⟩ = .ok ⟨1, 3, 1⟩ ∧ (do
    let c ← psi 6 2 2
    let e ← psi 6 2 4
    pure (e.evalXY 0 3 % 7, (c.evalXY 0 3 ^ 4 * c.evalXY 1 3) % 7) : Res (ℤ × ℤ)) = .ok (6, 6) := by decide +kernel

end EC
