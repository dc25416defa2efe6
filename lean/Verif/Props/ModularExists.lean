import Verif.Props.Modular
import Verif.Lemmas.PhiExists
import Verif.Lemmas.Display

/-! Properties C75, C76: the classical modular polynomial exists, is the result of `modular_polynomial`, and
satisfies Kronecker's congruence. -/

namespace EC
open Poly Finset

/-- **C75 (existence).**  For every prime `p` there are integers `c_i_j` such that the polynomial
`x^(p+1) + y^(p+1) + ∑ c_i_i x^i y^i + ∑_{i<j} c_i_j (x^i y^j + x^j y^i)` vanishes at
`x = j(q)`, `y = j(q^p)`. -/
theorem C75_exists (p : ℕ) (hp : p.Prime) :
    ∃ c : ℕ → ℕ → ℤ, modularAt p c jLaurent (qPow p hp.pos jLaurent) = 0 :=
  exists_modular_polynomial p hp

/-- **C75.**  For every prime `p ≤ 214`, `modular_polynomial(p)` returns a polynomial `Φ` of that shape with
`Φ(j(q), j(q^p)) = 0`, as an identity of Laurent series. -/
theorem C75_modular_polynomial (p : ℕ) (hp : p.Prime) (hb : p ≤ 214) :
    ∃ f c, modularPolynomial p = .ok f ∧ f.val = modularShape p c ∧
      modularAt p c jLaurent (qPow p hp.pos jLaurent) = 0 := by
  obtain ⟨c, hc⟩ := C75_exists p hp
  obtain ⟨f, h1, h2⟩ := C40_modular_polynomial p hp hb c fun n _ => by rw [hc]; rfl
  exact ⟨f, c, h1, h2, hc⟩

/-- **C75 (a check of low-order terms suffices).**  A polynomial of that shape whose value at `(j(q), j(q^p))`
has no terms of order `≤ 0` vanishes there. -/
theorem C75_low_order (p : ℕ) (hp : p.Prime) (c : ℕ → ℕ → ℤ)
    (hc : ∀ n ≤ 0, (modularAt p c jLaurent (qPow p hp.pos jLaurent)).coeff n = 0) :
    modularAt p c jLaurent (qPow p hp.pos jLaurent) = 0 := by
  obtain ⟨c', hc'⟩ := C75_exists p hp
  have h := C40_unique p hp c c' hc fun n _ => by rw [hc']; rfl
  rw [← hc']
  unfold modularAt
  congr 1
  · congr 1
    exact sum_congr rfl fun i hi => by rw [h i i le_rfl (by have := mem_range.1 hi; omega)]
  · exact sum_congr rfl fun i hi => sum_congr rfl fun j hj => by
      rw [h i j (by have := mem_Ico.1 hj; omega) (by have := mem_Ico.1 hj; omega)]

/-- **C75** for `p = 2`: the polynomial that `modular_polynomial(2)` returns vanishes at `(j(q), j(q²))`. -/
theorem C75_phi2 : ∃ f, modularPolynomial 2 = .ok f ∧ f.val = modularShape 2 phi2 ∧
    modularAt 2 phi2 jLaurent (qPow 2 Nat.prime_two.pos jLaurent) = 0 := by
  obtain ⟨f, h1, h2, h3⟩ := C40_phi2
  exact ⟨f, h1, h2, C75_low_order 2 Nat.prime_two phi2 h3⟩

/-! ### C76: Kronecker's congruence -/

/-- The coefficients of `(x^p - y) (x - y^p)`. -/
def kron (p i j : ℕ) : ℤ := if (i = p ∧ j = p) ∨ (i = 1 ∧ j = 1) then -1 else 0

theorem kron_at {R : Type*} [CommRing R] {p : ℕ} (hp : 2 ≤ p) (X Y : R) :
    modularAt p (kron p) X Y = (X ^ p - Y) * (X - Y ^ p) := by
  unfold modularAt
  have h2 : ∑ i ∈ range (p + 1), ∑ j ∈ Ico (i + 1) (p + 1), kron p i j • (X ^ i * Y ^ j + X ^ j * Y ^ i) = 0 := by
    refine sum_eq_zero fun i _ => sum_eq_zero fun j hj => ?_
    have := mem_Ico.1 hj
    rw [kron, if_neg (by omega), zero_smul]
  have h1 : ∑ i ∈ range (p + 1), kron p i i • (X ^ i * Y ^ i) = -(X ^ p * Y ^ p) + -(X * Y) := by
    rw [sum_eq_add p 1 (by omega)]
    · simp [kron]
    · intro i _ ⟨h, h'⟩
      rw [kron, if_neg (by omega), zero_smul]
    · intro h; exact absurd (mem_range.2 (by omega)) h
    · intro h; exact absurd (mem_range.2 (by omega)) h
  rw [h1, h2]
  ring

/-- Frobenius: `f(q)^p ≡ f(q^p)` modulo `p`. -/
theorem pow_sub_expand (p : ℕ) [Fact p.Prime] (hp : p ≠ 0) (f : PowerSeries ℤ) :
    ∃ g : PowerSeries ℤ, f ^ p - PowerSeries.expand p hp f = (p : PowerSeries ℤ) * g := by
  have h : PowerSeries.map (Int.castRingHom (ZMod p)) (f ^ p - PowerSeries.expand p hp f) = 0 := by
    rw [map_sub, map_pow, PowerSeries.map_expand]
    have h1 : PowerSeries.map (frobenius (ZMod p) p) (PowerSeries.expand p hp (PowerSeries.map (Int.castRingHom (ZMod p)) f)) =
        PowerSeries.map (Int.castRingHom (ZMod p)) f ^ p := MvPowerSeries.map_frobenius_expand p hp
    rw [← h1, ZMod.frobenius_zmod]
    rw [PowerSeries.map_id, id, sub_self]
  have hd : ∀ n, (p : ℤ) ∣ PowerSeries.coeff n (f ^ p - PowerSeries.expand p hp f) := by
    intro n
    have := congrArg (PowerSeries.coeff n) h
    rw [PowerSeries.coeff_map, map_zero] at this
    exact (ZMod.intCast_zmod_eq_zero_iff_dvd _ p).1 this
  choose g hg using hd
  refine ⟨PowerSeries.mk g, ?_⟩
  ext n
  rw [hg]
  have e : (p : PowerSeries ℤ) = PowerSeries.C (p : ℤ) := by simp
  rw [e, PowerSeries.coeff_C_mul, PowerSeries.coeff_mk]

theorem jLaurent_frobenius (p : ℕ) (hp : p.Prime) :
    ∃ g : LaurentSeries ℤ, jLaurent ^ p - qPow p hp.pos jLaurent = (p : ℤ) • g := by
  have : Fact p.Prime := ⟨hp⟩
  obtain ⟨g, hg⟩ := pow_sub_expand p hp.pos.ne' seriesJ1
  refine ⟨HahnSeries.single (-(p : ℤ)) 1 * HahnSeries.ofPowerSeries ℤ ℤ g, ?_⟩
  unfold jLaurent
  rw [mul_pow, map_mul, ofPS_expand, qPow_single, HahnSeries.single_pow, ← map_pow, one_pow]
  have e : p • (-1 : ℤ) = -(p : ℤ) := by simp
  have e' : (p : ℤ) * (-1 : ℤ) = -(p : ℤ) := by ring
  rw [e, e', ← mul_sub, ← map_sub, hg, map_mul, map_natCast, zsmul_eq_mul]
  push_cast
  ring

/-- The coefficients modulo `p`. -/
theorem kron_congr (p : ℕ) (hp : p.Prime) (c : ℕ → ℕ → ℤ)
    (hc : modularAt p c jLaurent (qPow p hp.pos jLaurent) = 0) (i j : ℕ) (hij : i ≤ j) (hj : j ≤ p) :
    (p : ℤ) ∣ c i j - kron p i j := by
  have h := triangularZ (triSet p) (fun t : ℕ × ℕ => c t.1 t.2 - kron p t.1 t.2) (fun t => -((p : ℤ) * t.2 + t.1))
    (triW hp.pos) (AddSubgroup.zmultiples (p : ℤ)) (tri_inj hp.pos) (tri_zero hp.two_le) (tri_one hp.two_le) (by
      intro s _
      rw [Int.mem_zmultiples_iff]
      have h1 := modularAt_coeff_tri hp.pos c (-((p : ℤ) * s.2 + s.1))
      have h2 := modularAt_coeff_tri hp.pos (kron p) (-((p : ℤ) * s.2 + s.1))
      rw [hc, HahnSeries.coeff_zero] at h1
      obtain ⟨g, hg⟩ := jLaurent_frobenius p hp
      rw [kron_at hp.two_le, hg, smul_mul_assoc, HahnSeries.coeff_smul, smul_eq_mul] at h2
      refine ⟨-((g * (jLaurent - qPow p hp.pos jLaurent ^ p)).coeff (-((p : ℤ) * s.2 + s.1))), ?_⟩
      rw [mul_neg, h2]
      simp only [smul_eq_mul, mul_sub, sum_sub_distrib]
      linear_combination -h1)
  have := h (i, j) (mem_triSet.2 ⟨hij, hj⟩)
  rwa [Int.mem_zmultiples_iff] at this

/-- **C76 (Kronecker's congruence).**  For every prime `p ≤ 214`, `modular_polynomial(p)` returns a
polynomial congruent to `(x^p - y) (x - y^p)` modulo `p`. -/
theorem C76_kronecker (p : ℕ) (hp : p.Prime) (hb : p ≤ 214) :
    ∃ f g, modularPolynomial p = .ok f ∧
      f.val = (mono p 0 0 - mono 0 1 0) * (mono 1 0 0 - mono 0 p 0) + (p : ℤ) • g := by
  obtain ⟨f, c, h1, h2, h3⟩ := C75_modular_polynomial p hp hb
  have hk := kron_congr p hp c h3
  choose e he using fun i j => (⟨(c i j - kron p i j) / p, fun hij hj => by
    rw [Int.mul_ediv_cancel' (hk i j hij hj)]⟩ : ∃ e : ℤ, i ≤ j → j ≤ p → c i j - kron p i j = p * e)
  refine ⟨f, ∑ i ∈ range (p + 1), e i i • mono i i 0 +
    ∑ i ∈ range (p + 1), ∑ j ∈ Ico (i + 1) (p + 1), e i j • (mono i j 0 + mono j i 0), h1, ?_⟩
  have hm : ∀ a b : ℕ, (mono a b 0 : LRing) = mono 1 0 0 ^ a * mono 0 1 0 ^ b := by
    intro a b
    have h1 : ∀ a : ℕ, (mono 1 0 0 : LRing) ^ a = mono a 0 0 := by
      intro a
      induction a with
      | zero => rw [pow_zero]; exact mono_zero.symm
      | succ a ih => rw [pow_succ, ih, mono_mul]; norm_num
    have h2 : ∀ a : ℕ, (mono 0 1 0 : LRing) ^ a = mono 0 a 0 := by
      intro a
      induction a with
      | zero => rw [pow_zero]; exact mono_zero.symm
      | succ a ih => rw [pow_succ, ih, mono_mul]; norm_num
    rw [h1, h2, mono_mul]; norm_num
  have hmod : ∀ c : ℕ → ℕ → ℤ, modularShape p c = modularAt p c (mono 1 0 0) (mono 0 1 0) := by
    intro c
    unfold modularShape modularAt
    simp only [← hm]
    congr 3
    · have := hm (p + 1) 0
      push_cast at this
      rw [this, pow_zero, mul_one]
    · have := hm 0 (p + 1)
      push_cast at this
      rw [this, pow_zero, one_mul]
  have hx : (mono p 0 0 : LRing) = mono 1 0 0 ^ p := by
    have := hm p 0
    rwa [pow_zero, mul_one] at this
  have hy : (mono 0 p 0 : LRing) = mono 0 1 0 ^ p := by
    have := hm 0 p
    rwa [pow_zero, one_mul] at this
  rw [h2, hx, hy, ← kron_at hp.two_le, ← hmod]
  unfold modularShape
  have s1 : ∑ i ∈ range (p + 1), c i i • (mono i i 0 : LRing) = ∑ i ∈ range (p + 1), kron p i i • (mono i i 0 : LRing) +
      (p : ℤ) • ∑ i ∈ range (p + 1), e i i • (mono i i 0 : LRing) := by
    rw [smul_sum, ← sum_add_distrib]
    refine sum_congr rfl fun i hi => ?_
    rw [smul_smul, ← he i i le_rfl (by have := mem_range.1 hi; omega), ← add_smul, add_sub_cancel]
  have s2 : ∑ i ∈ range (p + 1), ∑ j ∈ Ico (i + 1) (p + 1), c i j • (mono i j 0 + mono j i 0 : LRing) =
      ∑ i ∈ range (p + 1), ∑ j ∈ Ico (i + 1) (p + 1), kron p i j • (mono i j 0 + mono j i 0 : LRing) +
      (p : ℤ) • ∑ i ∈ range (p + 1), ∑ j ∈ Ico (i + 1) (p + 1), e i j • (mono i j 0 + mono j i 0 : LRing) := by
    rw [smul_sum, ← sum_add_distrib]
    refine sum_congr rfl fun i hi => ?_
    rw [smul_sum, ← sum_add_distrib]
    refine sum_congr rfl fun j hj => ?_
    rw [smul_smul, ← he i j (by have := mem_Ico.1 hj; omega) (by have := mem_Ico.1 hj; omega), ← add_smul, add_sub_cancel]
  rw [s1, s2, smul_add]
  abel

/-- The congruence is not an equality: `Φ_2` has the coefficient `1488`. -/
example : phi2 1 2 = 1488 ∧ kron 2 1 2 = 0 ∧ (2 : ℤ) ∣ 1488 - 0 := by decide

end EC
