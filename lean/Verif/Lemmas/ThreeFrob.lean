import Verif.Lemmas.Velu3
import Verif.Lemmas.GroupStr

/-! Pure mathematics: the 3-division polynomial, Frobenius on the 3-torsion, and the j-invariants of the quotients. -/

namespace EC
open WeierstrassCurve EDS Polynomial

section
variable {K : Type*} [Field K]

/-- The parameter of a root of the 3-division polynomial. -/
theorem psi3_param' {a b e x : K} (h2 : (2 : K) ≠ 0) (h3 : (3 : K) ≠ 0) (he : psi3At a b e = 0) (h0 : e ≠ 0)
    (hD : 4 * a ^ 3 + 27 * b ^ 2 ≠ 0) (hx : x = jOf (velu3A a e) (velu3B a b e)) :
    ∃ s : K, s ≠ 0 ∧ s + 27 ≠ 0 ∧ a * (s + 27) = e ^ 2 * (72 - 3 * (s + 27)) ∧
      b * (s + 27) ^ 2 = e ^ 3 * 2 * (s ^ 2 + 18 * s - 27) ∧
      (s + 27) * (s + 3) ^ 3 = jOf a b * s ∧ x * s ^ 3 = (s + 27) * (s + 243) ^ 3 := by
  obtain ⟨r, hr, rfl, rfl⟩ := psi3_param h2 h3 he h0 hD
  have hr' : r - 27 ≠ 0 := by
    intro h
    apply hD
    rw [disc_param hr, h]; simp
  refine ⟨r - 27, hr', by simpa using hr, ?_, ?_, ?_, ?_⟩
  · rw [sub_add_cancel]; field_simp
  · rw [sub_add_cancel]; field_simp; ring
  · rw [jOf_param h2 h3 h0 hr hr', div_mul_cancel₀ _ hr']; ring
  · rw [hx, jOf_velu3_param h2 h3 h0 hr hr', div_mul_cancel₀ _ (pow_ne_zero 3 hr')]; ring

/-- Four different roots of the 3-division polynomial do not lead to the same j-invariant, except in characteristic 7, 13, or
if `b = 0`. -/
theorem four_collide {a b x : K} (h2 : (2 : K) ≠ 0) (h3 : (3 : K) ≠ 0) (h7 : (7 : K) ≠ 0) (h13 : (13 : K) ≠ 0)
    (hD : 4 * a ^ 3 + 27 * b ^ 2 ≠ 0) (ha : a ≠ 0) (hb : b ≠ 0) (f : Fin 4 → K) (hf : Function.Injective f)
    (he : ∀ i, psi3At a b (f i) = 0) (hx : ∀ i, x = jOf (velu3A a (f i)) (velu3B a b (f i))) : False := by
  have h0 : ∀ i, f i ≠ 0 := fun i h0 => by
    have := he i
    rw [h0] at this
    unfold psi3At at this
    exact ha (pow_eq_zero_iff (n := 2) (by norm_num) |>.1 (by linear_combination -this))
  have hp := fun i => psi3_param' h2 h3 (he i) (h0 i) hD (hx i)
  choose s s0 s27 sa sb s1 s2 using hp
  have sinj : Function.Injective s := by
    intro i k hik
    apply hf
    have e1 := sa i; have e2 := sb i; have e3 := sa k; have e4 := sb k
    rw [← hik] at e3 e4
    have hB : (s i ^ 2 + 18 * s i - 27) * 2 ≠ 0 := by
      intro h
      have : b * (s i + 27) ^ 2 = 0 := by rw [e2]; linear_combination f i ^ 3 * h
      exact mul_ne_zero hb (pow_ne_zero 2 (s27 i)) this
    have key : ∀ e : K, a * (s i + 27) = e ^ 2 * (72 - 3 * (s i + 27)) → b * (s i + 27) ^ 2 = e ^ 3 * 2 * (s i ^ 2 + 18 * s i - 27) →
        e * (a * (s i + 27) * ((s i ^ 2 + 18 * s i - 27) * 2)) = b * (s i + 27) ^ 2 * (72 - 3 * (s i + 27)) := by
      intro e g1 g2
      rw [g2, g1]; ring
    have := (key (f i) e1 e2).trans (key (f k) e3 e4).symm
    exact mul_right_cancel₀ (mul_ne_zero (mul_ne_zero ha (s27 i)) hB) this
  obtain ⟨d1, hd1⟩ : ∃ d, d = 19131120 + jOf a b := ⟨_, rfl⟩
  obtain ⟨d2, hd2⟩ : ∃ d : K, d = 196560 := ⟨_, rfl⟩
  obtain ⟨d3, hd3⟩ : ∃ d, d = 720 - x := ⟨_, rfl⟩
  have hz : (C (387419760 : K) + C d1 * X + C d2 * X ^ 2 + C d3 * X ^ 3 : K[X]) = 0 := by
    refine eq_zero_of_natDegree_lt_card_of_eval_eq_zero _ sinj (fun i => ?_) ?_
    · simp only [eval_add, eval_mul, eval_C, eval_pow, eval_X]
      rw [hd1, hd2, hd3]
      linear_combination -s1 i - s2 i
    · rw [Fintype.card_fin]
      refine Nat.lt_succ_of_le ?_
      compute_degree
  have c0 := congrArg (fun g => coeff g 1) hz
  have c2 := congrArg (fun g => coeff g 2) hz
  simp only [coeff_add, coeff_C_mul, coeff_X_pow, coeff_X, coeff_C, coeff_zero] at c0 c2
  norm_num at c0 c2
  rw [hd1] at c0
  rw [hd2] at c2
  have h5 : (5 : K) = 0 := by
    have e : (196560 : K) = 5 * (2 ^ 4 * 3 ^ 3 * 7 * 13) := by norm_num
    rw [e] at c2
    exact (mul_eq_zero.1 c2).resolve_right (mul_ne_zero (mul_ne_zero (mul_ne_zero (pow_ne_zero _ h2) (pow_ne_zero _ h3)) h7) h13)
  have hj : jOf a b = 0 := by linear_combination c0 - 3826224 * h5
  unfold jOf at hj
  rcases div_eq_zero_iff.1 hj with h | h
  · have e : (1728 * 4 : K) = 2 ^ 8 * 3 ^ 3 := by norm_num
    have : (2 ^ 8 * 3 ^ 3 : K) * a ^ 3 = 0 := by rw [← e]; linear_combination h
    exact mul_ne_zero (mul_ne_zero (pow_ne_zero _ h2) (pow_ne_zero _ h3)) (pow_ne_zero 3 ha) this
  · exact hD h

/-- The same for two roots with different squares, if `b = 0`. -/
theorem two_collide {a b x e e' : K} (h2 : (2 : K) ≠ 0) (h3 : (3 : K) ≠ 0) (h7 : (7 : K) ≠ 0) (h19 : (19 : K) ≠ 0)
    (h31 : (31 : K) ≠ 0) (ha : a ≠ 0) (hb : b = 0) (he : psi3At a b e = 0) (he' : psi3At a b e' = 0) (hne : e ^ 2 ≠ e' ^ 2)
    (hx : x = jOf (velu3A a e) (velu3B a b e)) (hx' : x = jOf (velu3A a e') (velu3B a b e')) : False := by
  subst hb
  have hD : 4 * a ^ 3 + 27 * (0 : K) ^ 2 ≠ 0 := by
    have : (4 : K) = 2 ^ 2 := by norm_num
    rw [this]
    simp [h2, ha]
  have h0 : ∀ e, psi3At a 0 e = 0 → e ≠ 0 := fun e h h0 => by
    rw [h0] at h
    unfold psi3At at h
    exact ha (pow_eq_zero_iff (n := 2) (by norm_num) |>.1 (by linear_combination -h))
  obtain ⟨s, s0, s27, sa, sb, s1, s2⟩ := psi3_param' h2 h3 he (h0 _ he) hD hx
  obtain ⟨t, t0, t27, ta, tb, t1, t2⟩ := psi3_param' h2 h3 he' (h0 _ he') hD hx'
  have qs : s ^ 2 + 18 * s - 27 = 0 := by
    have : e ^ 3 * 2 * (s ^ 2 + 18 * s - 27) = 0 := by rw [← sb]; ring
    exact (mul_eq_zero.1 this).resolve_left (mul_ne_zero (pow_ne_zero 3 (h0 _ he)) h2)
  have qt : t ^ 2 + 18 * t - 27 = 0 := by
    have : e' ^ 3 * 2 * (t ^ 2 + 18 * t - 27) = 0 := by rw [← tb]; ring
    exact (mul_eq_zero.1 this).resolve_left (mul_ne_zero (pow_ne_zero 3 (h0 _ he')) h2)
  have hst : s - t ≠ 0 := by
    intro h
    have h' : t = s := by linear_combination -h
    subst h'
    apply hne
    have h72 : 72 - 3 * (t + 27) ≠ 0 := by
      intro h
      rw [h, mul_zero] at sa
      exact mul_ne_zero ha s27 sa
    exact mul_right_cancel₀ h72 (sa.symm.trans ta)
  have hsum : s + t + 18 = 0 := by
    have : (s - t) * (s + t + 18) = 0 := by linear_combination qs - qt
    exact (mul_eq_zero.1 this).resolve_left hst
  have ht : t = -18 - s := by linear_combination hsum
  subst ht
  have hk : 290852384256 * (s + 9) = 0 := by
    linear_combination ((-13267969128) + (-1538000460) * s + (-10636110) * s ^ 2 + (-395010) * s ^ 3 + (-90) * s ^ 4 +
      (-2) * s ^ 5) * qs + (-18 - s) ^ 3 * s2 - s ^ 3 * t2
  have e : (290852384256 : K) = 2 ^ 9 * 3 ^ 9 * 7 ^ 2 * 19 * 31 := by norm_num
  rw [e] at hk
  refine mul_ne_zero (mul_ne_zero (mul_ne_zero (mul_ne_zero (mul_ne_zero (pow_ne_zero _ h2) (pow_ne_zero _ h3)) (pow_ne_zero _ h7))
    h19) h31) ?_ hk
  intro h9
  apply hst
  linear_combination 2 * h9

end

section
variable {F : Type} [Field F] [DecidableEq F] [Fintype F] {a b : F}
variable (h2 : (2 : F) ≠ 0) (hd : 4 * a ^ 3 + 27 * b ^ 2 ≠ 0)
variable {K : Type} [Field K] [DecidableEq K] [Algebra F K]

local notation "q" => Fintype.card F

theorem psi3_iff {A B : K} (h2 : (2 : K) ≠ 0) {P : Pt A B} (hP : P ≠ 0) : psi3At A B (xc P) = 0 ↔ 3 • P = 0 := by
  rw [← F_eq_zero_iff h2 hP 3 (by norm_num), F_three]; rfl

theorem frobK_inj {P Q : EPt a b K} (h : frobK h2 hd K P = frobK h2 hd K Q) : P = Q := by
  by_contra hne
  have h0 : P - Q ≠ 0 := sub_ne_zero.2 hne
  refine (frobK_ne h2 hd h0).1 ?_
  rw [map_sub, h, sub_self]

theorem frob_sq (P : EPt a b K) :
    frobK h2 hd K (frobK h2 hd K P) = trc a b • frobK h2 hd K P - (q : ℤ) • P := by
  have h := frob_char (K := K) h2 hd P
  unfold charP at h
  rw [eq_sub_iff_add_eq, ← sub_eq_zero, ← h]; abel

/-- Multiples of a point of order 3 depend on the multiplier modulo 3. -/
theorem zsmul_congr {M : Type*} [AddCommGroup M] {P : M} (h3 : 3 • P = 0) {m n : ℤ} (h : (3 : ℤ) ∣ m - n) : m • P = n • P := by
  obtain ⟨c, hc⟩ := h
  have : m = n + c * 3 := by linarith
  rw [this, add_zsmul, mul_zsmul]
  have h3' : (3 : ℤ) • P = 0 := by rw [← h3]; exact (natCast_zsmul P 3).symm ▸ rfl
  rw [h3', zsmul_zero, add_zero]

theorem three_dvd {M : Type*} [AddCommGroup M] {P : M} (h3 : 3 • P = 0) (hP : P ≠ 0) {m : ℤ} (h : m • P = 0) : (3 : ℤ) ∣ m := by
  have h1 : addOrderOf P ∣ 3 := addOrderOf_dvd_of_nsmul_eq_zero h3
  rcases (Nat.dvd_prime Nat.prime_three).1 h1 with h4 | h4
  · exact absurd (AddMonoid.addOrderOf_eq_one_iff.1 h4) hP
  · have := addOrderOf_dvd_iff_zsmul_eq_zero.2 h
    rw [h4] at this
    exact_mod_cast this

omit [DecidableEq F] [DecidableEq K] in
/-- The elements fixed by the `q`-th power are those of the field. -/
theorem exists_of_pow_card {x : K} (hx : x ^ q = x) : ∃ e : F, algebraMap F K e = x := by
  classical
  by_contra hno
  push Not at hno
  have hq : 1 < q := Fintype.one_lt_card
  have hf : (X ^ q - X : K[X]) ≠ 0 := FiniteField.X_pow_card_sub_X_ne_zero K hq
  have := card_le_of_roots hf (FiniteField.X_pow_card_sub_X_natDegree_eq K hq).le
    (insert x (Finset.univ.image (algebraMap F K))) (by
      intro y hy
      rw [eval_sub, eval_pow, eval_X, sub_eq_zero]
      rcases Finset.mem_insert.1 hy with rfl | hy
      · exact hx
      · obtain ⟨e, -, rfl⟩ := Finset.mem_image.1 hy
        rw [← map_pow, FiniteField.pow_card])
  rw [Finset.card_insert_of_notMem (by
    intro h
    obtain ⟨e, -, he⟩ := Finset.mem_image.1 h
    exact hno e he), Finset.card_image_of_injective _ (algebraMap F K).injective, Finset.card_univ] at this
  omega

include h2 hd in
/-- If `X^2 - t X + q` has a root modulo 3, the 3-division polynomial has a root in the field. -/
theorem exists_rational_psi3 (K : Type) [Field K] [DecidableEq K] [Algebra F K] [IsAlgClosed K] (h3 : (3 : F) ≠ 0) (l : ℤ) (hl : (3 : ℤ) ∣ l ^ 2 - trc a b * l + q) :
    ∃ e : F, psi3At a b e = 0 := by
  have h3K : ((3 : ℕ) : K) ≠ 0 := by
    rw [← map_natCast (algebraMap F K)]
    exact (_root_.map_ne_zero _).2 (by exact_mod_cast h3)
  obtain ⟨s, hs, hs3⟩ := card_torsion (two_ne_ext h2 K) (disc_ext hd K) h3K
  obtain ⟨P, hPs, hP⟩ : ∃ P ∈ s, P ≠ 0 := by
    obtain ⟨P, hP, h⟩ := Finset.exists_mem_ne (by rw [hs]; norm_num) (0 : EPt a b K)
    exact ⟨P, hP, h⟩
  have hP3 := hs3 P hPs
  -- an eigenvector
  obtain ⟨Q, c, hQ, hQ3, hc⟩ : ∃ (Q : EPt a b K) (c : ℤ), Q ≠ 0 ∧ 3 • Q = 0 ∧ frobK h2 hd K Q = c • Q := by
    by_cases h0 : frobK h2 hd K P - (trc a b - l) • P = 0
    · exact ⟨P, _, hP, hP3, sub_eq_zero.1 h0⟩
    · refine ⟨_, l, h0, ?_, ?_⟩
      · rw [nsmul_sub, ← map_nsmul, hP3, map_zero, smul_comm, hP3, smul_zero, sub_zero]
      · rw [map_sub, map_zsmul, frob_sq]
        have h5 : (l ^ 2 - trc a b * l + q) • P = 0 := (zsmul_congr hP3 (by simpa using hl)).trans (zero_zsmul P)
        rw [← sub_eq_zero, ← neg_eq_zero, ← h5]
        module
  have hQn := (frobK_ne h2 hd hQ).1
  have hx : xc Q ^ q = xc Q := by
    have h1 : frobK h2 hd K Q = Q ∨ frobK h2 hd K Q = -Q := by
      have h6 : c % 3 = 0 ∨ c % 3 = 1 ∨ c % 3 = 2 := by omega
      rcases h6 with h6 | h6 | h6
      · exfalso
        apply hQn
        rw [hc, zsmul_congr hQ3 (n := 0) (by omega), zero_zsmul]
      · left; rw [hc, zsmul_congr hQ3 (n := 1) (by omega), one_zsmul]
      · right; rw [hc, zsmul_congr hQ3 (n := -1) (by omega), neg_one_zsmul]
    rw [← (frobK_ne h2 hd hQ).2.1]
    rcases h1 with h1 | h1
    · rw [h1]
    · rw [h1, xc_neg]
  obtain ⟨e, he⟩ := exists_of_pow_card hx
  refine ⟨e, ?_⟩
  have h7 := (psi3_iff (two_ne_ext h2 K) hQ).2 hQ3
  rw [← he] at h7
  apply (algebraMap F K).injective
  rw [map_zero, ← h7]
  unfold psi3At
  simp only [map_add, map_sub, map_mul, map_pow, map_ofNat]

/-- If `q = 2` and `t ≠ 0` modulo 3, a point of order 3 is no eigenvector of Frobenius. -/
theorem no_eigen (hq3 : q % 3 = 2) (ht : ¬ (3 : ℤ) ∣ trc a b) {P : EPt a b K} (hP : P ≠ 0) (hP3 : 3 • P = 0) (c : ℤ) :
    frobK h2 hd K P ≠ c • P := by
  intro h
  have h1 := frob_sq h2 hd P
  rw [h, map_zsmul, h] at h1
  have h4 : (c * c - trc a b * c + q) • P = 0 := by
    rw [← sub_eq_zero] at h1
    rw [← h1]; module
  have h5 := three_dvd hP3 hP h4
  have h6 : c % 3 = 0 ∨ c % 3 = 1 ∨ c % 3 = 2 := by omega
  have h7 : trc a b % 3 = 1 ∨ trc a b % 3 = 2 := by omega
  have h8 : (q : ℤ) % 3 = 2 := by omega
  have h9 : (c * c - trc a b * c + q) % 3 = ((c % 3) * (c % 3) - (trc a b % 3) * (c % 3) + (q : ℤ) % 3) % 3 := by
    simp only [Int.add_emod, Int.sub_emod, Int.mul_emod, Int.emod_emod]
  rw [Int.dvd_iff_emod_eq_zero, h9, h8] at h5
  rcases h6 with h6 | h6 | h6 <;> rcases h7 with h7 | h7 <;> rw [h6, h7] at h5 <;> revert h5 <;> decide

/-- Then its image under Frobenius, the square and the cube of Frobenius is not itself or its negative. -/
theorem no_eigen_pow (hq3 : q % 3 = 2) (ht : ¬ (3 : ℤ) ∣ trc a b) {P : EPt a b K} (hP : P ≠ 0) (hP3 : 3 • P = 0) (c : ℤ) :
    frobK h2 hd K (frobK h2 hd K P) ≠ c • P ∧ frobK h2 hd K (frobK h2 hd K (frobK h2 hd K P)) ≠ c • P := by
  have hF3 : 3 • frobK h2 hd K P = 0 := by rw [← map_nsmul, hP3, map_zero]
  have ht2 : (3 : ℤ) ∣ trc a b * trc a b - 1 := by
    have h7 : trc a b % 3 = 1 ∨ trc a b % 3 = 2 := by omega
    rw [Int.dvd_iff_emod_eq_zero, Int.sub_emod, Int.mul_emod]
    rcases h7 with h7 | h7 <;> rw [h7] <;> rfl
  have h8 : (q : ℤ) % 3 = 2 := by omega
  constructor
  · intro h
    rw [frob_sq] at h
    refine no_eigen h2 hd hq3 ht hP hP3 (trc a b * (c + q)) ?_
    have h1 : trc a b • frobK h2 hd K P = (c + q) • P := by rw [add_zsmul, ← h]; abel
    rw [mul_zsmul, ← h1, ← mul_zsmul, zsmul_congr hF3 ht2, one_zsmul]
  · intro h
    rw [frob_sq h2 hd (frobK h2 hd K P), frob_sq] at h
    refine no_eigen h2 hd hq3 ht hP hP3 (2 * (c + trc a b * q)) ?_
    have h1 : (trc a b * trc a b - q) • frobK h2 hd K P = (c + trc a b * q) • P := by
      rw [add_zsmul, ← h]; module
    rw [mul_zsmul, ← h1, ← mul_zsmul, zsmul_congr hF3 (n := 1) (by omega), one_zsmul]

include h2 hd in
/-- For `q = 2` modulo 3: if the quotient by a subgroup of order 3 over the algebraic closure has its j-invariant in the
field, the trace is divisible by 3. -/
theorem three_dvd_trc [IsAlgClosed K] (hq3 : q % 3 = 2) (h7 : (7 : F) ≠ 0) (h13 : (13 : F) ≠ 0) (h19 : (19 : F) ≠ 0)
    (h31 : (31 : F) ≠ 0) (h3 : (3 : F) ≠ 0) (x : F) (e : K) (he : psi3At (algebraMap F K a) (algebraMap F K b) e = 0)
    (hx : algebraMap F K x = jOf (velu3A (algebraMap F K a) e) (velu3B (algebraMap F K a) (algebraMap F K b) e)) :
    (3 : ℤ) ∣ trc a b := by
  by_contra ht
  have up : ∀ n : ℕ, (n : F) ≠ 0 → (n : K) ≠ 0 := fun n hn => by
    rw [← map_natCast (algebraMap F K)]; exact (_root_.map_ne_zero _).2 hn
  obtain ⟨P, hP, rfl⟩ := exists_point (a := algebraMap F K a) (b := algebraMap F K b) (two_ne_ext h2 K) (disc_ext hd K) e
  have hP3 := (psi3_iff (two_ne_ext h2 K) hP).1 he
  set φ := frobK h2 hd K with hφ
  let G : ℕ → EPt a b K := fun i => φ^[i] P
  have G1 : ∀ i, G (i + 1) = φ (G i) := fun i => Function.iterate_succ_apply' φ i P
  have G0 : ∀ i, G i ≠ 0 ∧ 3 • G i = 0 := by
    intro i
    induction i with
    | zero => exact ⟨hP, hP3⟩
    | succ i ih =>
      rw [G1]
      exact ⟨(frobK_ne h2 hd ih.1).1, by rw [← map_nsmul, ih.2, map_zero]⟩
  have Gx : ∀ i, xc (G (i + 1)) = xc (G i) ^ q := fun i => by rw [G1]; exact (frobK_ne h2 hd (G0 i).1).2.1
  have Ge : ∀ i, psi3At (algebraMap F K a) (algebraMap F K b) (xc (G i)) = 0 := fun i =>
    (psi3_iff (two_ne_ext h2 K) (G0 i).1).2 (G0 i).2
  have Gj : ∀ i, algebraMap F K x =
      jOf (velu3A (algebraMap F K a) (xc (G i))) (velu3B (algebraMap F K a) (algebraMap F K b) (xc (G i))) := by
    intro i
    induction i with
    | zero => exact hx
    | succ i ih =>
      have h := congrArg (FiniteField.frobeniusAlgHom F K) ih
      rw [AlgHom.commutes] at h
      rw [h, Gx]
      have hfr : ∀ z : K, FiniteField.frobeniusAlgHom F K z = z ^ q := fun z => rfl
      unfold jOf velu3A velu3B
      simp only [map_div₀, map_sub, map_add, map_mul, map_pow, map_ofNat, AlgHom.commutes]
      simp only [hfr]
  -- the coordinates of `G i` are different
  have Gne : ∀ i k, k = i + 1 ∨ k = i + 2 ∨ k = i + 3 → xc (G i) ≠ xc (G k) := by
    intro i k hk h
    have h1 : G k = (1 : ℤ) • G i ∨ G k = (-1 : ℤ) • G i := by
      rw [one_zsmul, neg_one_zsmul]
      exact (xc_eq_iff (G0 k).1 (G0 i).1).1 h.symm
    obtain ⟨c, hc⟩ : ∃ c : ℤ, G k = c • G i := by
      rcases h1 with h1 | h1
      · exact ⟨_, h1⟩
      · exact ⟨_, h1⟩
    rcases hk with rfl | rfl | rfl
    · exact no_eigen h2 hd hq3 ht (G0 i).1 (G0 i).2 c (by rw [← hc, G1])
    · exact (no_eigen_pow h2 hd hq3 ht (G0 i).1 (G0 i).2 c).1 (by rw [← hc, G1, G1])
    · exact (no_eigen_pow h2 hd hq3 ht (G0 i).1 (G0 i).2 c).2 (by rw [← hc, G1, G1, G1])
  have ha : algebraMap F K a ≠ 0 := by
    intro ha
    have h0 : psi3At (algebraMap F K a) (algebraMap F K b) 0 = 0 := by unfold psi3At; rw [ha]; ring
    obtain ⟨R, hR, hRx⟩ := exists_point (a := algebraMap F K a) (b := algebraMap F K b) (two_ne_ext h2 K) (disc_ext hd K) 0
    have hR3 : 3 • R = 0 := (psi3_iff (two_ne_ext h2 K) hR).1 (by rw [hRx]; exact h0)
    obtain ⟨p1, p2, -⟩ := frobK_ne h2 hd hR
    rcases (xc_eq_iff p1 hR).1 (by rw [p2, hRx, zero_pow Fintype.card_ne_zero]) with h | h
    · exact no_eigen h2 hd hq3 ht hR hR3 1 (by rw [one_zsmul]; exact h)
    · exact no_eigen h2 hd hq3 ht hR hR3 (-1) (by rw [neg_one_zsmul]; exact h)
  by_cases hb : algebraMap F K b = 0
  · refine two_collide (two_ne_ext h2 K) (up 3 (by exact_mod_cast h3)) (up 7 (by exact_mod_cast h7)) (up 19 (by exact_mod_cast h19))
      (up 31 (by exact_mod_cast h31)) ha hb (Ge 0) (Ge 1) ?_ (Gj 0) (Gj 1)
    intro h
    apply Gne 0 2 (by omega)
    rcases sq_eq_sq_iff_eq_or_eq_neg.1 h with h | h
    · exact absurd h (Gne 0 1 (by omega))
    · have h4 := Gx 1
      have hneg : ∀ z : K, (-z) ^ q = -(z ^ q) := fun z => map_neg (FiniteField.frobeniusAlgHom F K) z
      have h5 : xc (G 1) = -xc (G 0) := by rw [h, neg_neg]
      rw [h5, hneg, ← Gx 0, h5, neg_neg] at h4
      exact h4.symm
  · refine four_collide (two_ne_ext h2 K) (up 3 (by exact_mod_cast h3)) (up 7 (by exact_mod_cast h7)) (up 13 (by exact_mod_cast h13))
      (disc_ext hd K) ha hb (fun i : Fin 4 => xc (G i)) ?_ (fun i => Ge i) (fun i => Gj i)
    intro i k h
    by_contra hik
    have hlt : (i : ℕ) ≠ k := fun h => hik (Fin.ext h)
    rcases lt_or_gt_of_ne hlt with hlt | hlt
    · exact Gne i k (by omega) h
    · exact Gne k i (by omega) h.symm

end
end EC
