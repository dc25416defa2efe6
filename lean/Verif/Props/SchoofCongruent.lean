import Verif.Props.SchoofDomain
import Verif.Props.SchoofModThree

/-! Property C85: how the outcome of `schoof` depends on the representatives of the coefficients. -/

namespace EC
open Poly Polynomial WeierstrassCurve EDS

section
variable (K : Type) [Field K] [DecidableEq K] [IsAlgClosed K] {a b q : ℤ} [hp : Fact (Nat.Prime q.toNat)]
  [CharP K q.toNat]

local notation "φ" => frobPoint q.toNat a b

include K in
theorem tailOk_of_dvd (hns : ¬ q ∣ 4 * a ^ 3 + 27 * b ^ 2) {l : ℕ} (hl : l = 3 ∨ l = 5)
    (hlq : (l : ℤ) < q) (hql : q % l = 1) {t : ℤ} (ht : (l : ℤ) ∣ t)
    (hF : ∀ P : Pt (a : K) b, φ (φ P) + q • P = t • φ P)
    (ha : 3 ≤ a) (ha' : a ≤ 1431655765) (hd : 2 * (q ^ 2 - 1) ∣ a - 1) : TailOk a b q l := by
  let _ : Algebra (ZMod q.toNat) K := _root_.ZMod.algebra K q.toNat
  have h3l : 3 ≤ l := by omega
  have hl5 : l ≤ 5 := by omega
  have h2 : q ≠ 2 := by omega
  have hodd : l % 2 = 1 := by rcases hl with rfl | rfl <;> rfl
  obtain ⟨h2K, h3K, hdK⟩ := char_nonzero_data (K := K) (a := a) (b := b) h2 hns (by omega)
  have hlK : (l : K) ≠ 0 := by
    intro h0
    have := (CharP.cast_eq_zero_iff K q.toNat l).1 h0
    have := Nat.le_of_dvd (by omega) this
    omega
  obtain ⟨k, hk⟩ := hd
  have hq2 : 1 ≤ q ^ 2 - 1 := by nlinarith
  have hk0 : 0 ≤ k := by
    by_contra hc
    have : 2 * (q ^ 2 - 1) * k ≤ 0 := by nlinarith
    omega
  have hk' : a - 1 = 2 * ((q ^ 2 - 1) * k) := by rw [hk]; ring
  have hm : ((a - 1) / 2).toNat = (q.toNat ^ 2 - 1) * k.toNat := by
    have e1 : (a - 1) / 2 = (q ^ 2 - 1) * k := by omega
    rw [e1]
    apply Int.natCast_inj.1
    have h1 : 1 ≤ q.toNat ^ 2 := Nat.one_le_pow _ _ (by omega)
    rw [Int.toNat_of_nonneg (by positivity)]
    push_cast [Nat.cast_sub h1]
    rw [Int.toNat_of_nonneg hk0, Int.toNat_of_nonneg (show 0 ≤ q by omega)]
  refine ⟨by omega, ha, ha', fun hco => ?_⟩
  obtain ⟨P, hP, hlP, hy⟩ := exists_tors_y (a := (a : K)) (b := b) h2K hdK hodd h3l hlK
  have hlP' : (l : ℤ) • P = 0 := by rw [natCast_zsmul]; exact hlP
  obtain ⟨g1, g2, g3⟩ := frobPoint_ne (q := q) hP
  obtain ⟨f1, f2, f3⟩ := frobPoint_ne (q := q) g1
  have hlF : (l : ℤ) • φ P = 0 := by rw [← frob_zsmul h2K, hlP', frob_zero]
  have e : φ (φ P) = -P := by
    have h := hF P
    obtain ⟨k, rfl⟩ := ht
    rw [mul_comm, mul_smul, hlF, smul_zero] at h
    have hq : q = l * (q / l) + 1 := by have := Int.mul_ediv_add_emod q l; omega
    have : q • P = P := by
      nth_rewrite 1 [hq]
      rw [add_smul, mul_comm, mul_smul, hlP', smul_zero, zero_add, one_smul]
    rw [this] at h
    exact eq_neg_of_add_eq_zero_left h
  have hx : xc P ^ (q.toNat ^ 2) = xc P := by
    have := f2
    rw [e, xc_neg, g2, ← pow_mul, ← pow_two] at this
    exact this.symm
  have hyy := f3
  rw [e, yc_neg, g3, ← pow_mul, ← pow_two] at hyy
  set c := xc P ^ 3 + (a : K) * xc P + b with hc
  have hc0 : c ≠ 0 := by rw [hc, ← eqn hP]; exact pow_ne_zero 2 hy
  have hcq : c ^ (q.toNat ^ 2) = c := by
    rw [hc, ← eqn hP, ← pow_mul, mul_comm, pow_mul, ← hyy, neg_pow_two]
  have hc1 : c ^ (q.toNat ^ 2 - 1) = 1 := by
    have h1 : 1 ≤ q.toNat ^ 2 := Nat.one_le_pow _ _ (by omega)
    apply mul_right_cancel₀ hc0
    rw [← pow_succ, Nat.sub_add_cancel h1, hcq, one_mul]
  obtain ⟨ps, hps, -⟩ := bd_psi (a := a) (b := b) (n := l) (by omega) (by omega)
  have hFl := (F_eq_zero_iff h2K hP l (by omega)).2 hlP
  have hev := (ev_psi hP hps).congr hFl
  obtain ⟨hX, hpx⟩ := psi_odd_polyX hodd hps K
  have hdp : ((dpoly q a b l).map (algebraMap (ZMod q.toNat) K)).eval (xc P) = 0 := by
    have e2 : (dpoly q a b l).map (algebraMap (ZMod q.toNat) K) = ps.polyX K := by
      rw [hpx, dpoly, ← WeierstrassCurve.map_preΨ']
      congr 1
      simp [WeierstrassCurve.map]
    rw [e2]
    have e3 : (ps.polyX K).eval (xc P) = ps.lin (Key.evalAt (xc P) (yc P) 0 0) := by
      unfold polyX
      rw [evalAt_eq_lin]
      have := map_lin ((Polynomial.evalRingHom (xc P)).toAddMonoidHom) (Key.evalAt (X : K[X]) 0 0 0) ps
      change (Polynomial.evalRingHom (xc P)) _ = _
      change (Polynomial.evalRingHom (xc P)) _ = _ at this
      rw [this]
      apply lin_congr_fun
      intro e he
      obtain ⟨h1, h2, h3, h4⟩ := hX e he
      simp [Key.evalAt, h2, h3, h4]
    rw [e3, hev.2]
  obtain ⟨u, v, huv⟩ := hco
  have := congrArg (fun f => (f.map (algebraMap (ZMod q.toNat) K)).eval (xc P)) huv
  simp only [Polynomial.map_add, Polynomial.map_mul, eval_add, eval_mul, hdp, mul_zero, add_zero] at this
  have h1 : eval (xc P) (Polynomial.map (algebraMap (ZMod q.toNat) K)
      ((X ^ 3 + C (a : ZMod q.toNat) * X + C (b : ZMod q.toNat)) ^ ((a - 1) / 2).toNat - 1)) = 0 := by
    simp only [Polynomial.map_sub, Polynomial.map_pow, Polynomial.map_add, Polynomial.map_mul, map_X, map_C, eval_sub,
      eval_pow, eval_add, eval_mul, eval_X, eval_C, Polynomial.map_one, eval_one, map_intCast, Polynomial.map_intCast, eval_intCast]
    rw [← hc, hm, pow_mul, hc1, one_pow, sub_self]
  rw [h1, mul_zero] at this
  simp at this

end

/-- The first test of case (d) for `l = 3`, as a condition on `b`. -/
theorem dpoly_zero_three {b q : ℤ} [Fact (Nat.Prime q.toNat)] (h1 : q % 3 = 1) :
    dpoly q 0 b 3 ∣ X ^ q.toNat - X ↔ ∃ c : ZMod q.toNat, c ≠ 0 ∧ c ^ 3 = -4 * (b : ZMod q.toNat) := by
  have hq := two_le_of_prime (p := q) Fact.out
  rw [← cube_iff (p := q.toNat) (by omega), dpoly_three]
  have : C (12 * (b : ZMod q.toNat)) = C 3 * C (4 * (b : ZMod q.toNat)) := by
    rw [← C_mul]; congr 1; ring
  rw [this, Int.cast_zero, mul_zero, zero_pow (by norm_num), C_0]
  have e : C 3 * X ^ 4 + 0 * X ^ 2 + C 3 * C (4 * (b : ZMod q.toNat)) * X - 0 =
    C 3 * (X * (X ^ 3 + C (4 * (b : ZMod q.toNat)))) := by ring
  rw [e]

theorem schoof2_val {fuel : ℕ} {a b q : ℤ} [Fact (Nat.Prime q.toNat)] (hi : q ≤ 2147483647) {r : ModResult}
    (h : schoof2 fuel a b q = .ok r) : r = { l := 2, r := 1 } := by
  by_cases hx : ∃ x : ZMod q.toNat, x ^ 3 + a * x + b = 0
  · obtain ⟨x, hx⟩ := hx
    exact (mono_schoof2 a b q).unique h (schoof2_root a b q hi x hx)
  · push Not at hx
    rw [schoof2_noroot a b q hi hx] at h
    exact absurd h (by simp)

open Classical in
/-- C85: if `a = a'` and `b = b'` modulo the prime `q`, the curve is nonsingular and both calls return, they return the same
list. -/
theorem C85_same_answer (a b a' b' q : ℤ) [hq : Fact (Nat.Prime q.toNat)] (ha : a ≡ a' [ZMOD q]) (hb : b ≡ b' [ZMOD q])
    (hns : ¬ q ∣ 4 * a ^ 3 + 27 * b ^ 2) (r r' : List ModResult)
    (h : Returns (fun fuel => schoof fuel a b q) r) (h' : Returns (fun fuel => schoof fuel a' b' q) r') : r = r' := by
  obtain ⟨N, h⟩ := h
  obtain ⟨N', h'⟩ := h'
  replace h : schoof N a b q = .ok r := h N le_rfl
  replace h' : schoof N' a' b' q = .ok r' := h' N' le_rfl
  have hq2 := hq.out.two_le
  have hqz : (q.toNat : ℤ) = q := Int.toNat_of_nonneg (by omega)
  have hns' : ¬ q ∣ 4 * a' ^ 3 + 27 * b' ^ 2 := by
    have : 4 * a ^ 3 + 27 * b ^ 2 ≡ 4 * a' ^ 3 + 27 * b' ^ 2 [ZMOD q] :=
      ((ha.pow 3).mul_left 4).add ((hb.pow 2).mul_left 27)
    rwa [← this.dvd_iff]
  have ea : (a : ZMod q.toNat) = a' := (ZMod.intCast_eq_intCast_iff _ _ _).2 (by rwa [hqz])
  have eb : (b : ZMod q.toNat) = b' := (ZMod.intCast_eq_intCast_iff _ _ _).2 (by rwa [hqz])
  have eqa : q ∣ a ↔ q ∣ a' := ha.dvd_iff
  have hi : q ≤ 2147483647 := by
    by_contra hc
    exact C62_large a b q (by omega) N r h
  obtain ⟨r2, e2, hr⟩ := schoof_eq_ok h
  obtain ⟨r2', e2', hr'⟩ := schoof_eq_ok h'
  have v2 := schoof2_val hi e2
  have v2' := schoof2_val hi e2'
  subst v2 v2'
  have l3 : ∀ {N a b e}, schoofL N a b q 3 = .ok e → e.l = 3 := fun h => (schoofL_shape (by norm_num) h).1
  have l5 : ∀ {N a b e}, schoofL N a b q 5 = .ok e → e.l = 5 := fun h => (schoofL_shape (by norm_num) h).1
  have k3 : ∀ e e' : ModResult, 3 < q → e ∈ r → e' ∈ r' → e.l = 3 → e'.l = 3 → e = e' := by
    intro e e' hq3 he he' hl hl'
    have h3 : q % 3 = 1 ∨ q % 3 = 2 := by
      have := ql_data (l := 3) (q := q) (.inl rfl) (by push_cast; omega)
      push_cast at this
      omega
    have : e.r = e'.r := by
      rcases h3 with h3 | h3
      · rw [C73_mod_three a b q h3 hns N r h e he hl _ rfl, C73_mod_three a' b' q h3 hns' N' r' h' e' he' hl' _ rfl, ea, eb]; simp only [eqa]
      · rw [(C67_mod_three a b q (by omega) h3 hns N r h e he hl _ rfl).1,
          (C67_mod_three a' b' q (by omega) h3 hns' N' r' h' e' he' hl' _ rfl).1, ea, eb]
    cases e; cases e'; simp_all
  have k5 : ∀ e e' : ModResult, e ∈ r → e' ∈ r' → e.l = 5 → e'.l = 5 → e = e' := by
    intro e e' he he' hl hl'
    have : e.r = e'.r := by
      rw [C79_mod_five a b q hns N r h e he hl _ rfl, C79_mod_five a' b' q hns' N' r' h' e' he' hl' _ rfl, ea, eb]; simp only [eqa]
    cases e; cases e'; simp_all
  rcases hr with ⟨h1, rfl⟩ | ⟨h1, h2, r3, w3, rfl⟩ | ⟨h1, r3, r5, w3, w5, rfl⟩
  · rcases hr' with ⟨-, rfl⟩ | ⟨h2, -⟩ | ⟨h2, -⟩
    · rfl
    · omega
    · omega
  · rcases hr' with ⟨h3, -⟩ | ⟨-, -, r3', w3', rfl⟩ | ⟨h3, -⟩
    · omega
    · rw [k3 r3 r3' h1 (by simp) (by simp) (l3 w3) (l3 w3')]
    · omega
  · rcases hr' with ⟨h3, -⟩ | ⟨h3, h4, -⟩ | ⟨-, r3', r5', w3', w5', rfl⟩
    · omega
    · omega
    · rw [k3 r3 r3' (by omega) (by simp) (by simp) (l3 w3) (l3 w3'), k5 r5 r5' (by simp) (by simp) (l5 w5) (l5 w5')]

/-- C85: for the same `a`, or a prime `q` that is 1 neither modulo 3 nor modulo 5, whether `schoof` returns depends only on
the coefficients modulo `q`. -/
theorem C85_same_domain (a b a' b' q : ℤ) [hq : Fact (Nat.Prime q.toNat)] (h3 : 3 < q) (ha : a ≡ a' [ZMOD q])
    (hb : b ≡ b' [ZMOD q]) (hns : ¬ q ∣ 4 * a ^ 3 + 27 * b ^ 2) (h : a = a' ∨ (q % 3 ≠ 1 ∧ q % 5 ≠ 1)) :
    (∃ r, Returns (fun fuel => schoof fuel a b q) r) ↔ ∃ r, Returns (fun fuel => schoof fuel a' b' q) r := by
  have hqz : (q.toNat : ℤ) = q := Int.toNat_of_nonneg (by omega)
  have hns' : ¬ q ∣ 4 * a' ^ 3 + 27 * b' ^ 2 := by
    have : 4 * a ^ 3 + 27 * b ^ 2 ≡ 4 * a' ^ 3 + 27 * b' ^ 2 [ZMOD q] :=
      ((ha.pow 3).mul_left 4).add ((hb.pow 2).mul_left 27)
    rwa [← this.dvd_iff]
  have ea : (a : ZMod q.toNat) = a' := (ZMod.intCast_eq_intCast_iff _ _ _).2 (by rwa [hqz])
  have eb : (b : ZMod q.toNat) = b' := (ZMod.intCast_eq_intCast_iff _ _ _).2 (by rwa [hqz])
  have hS : ∀ t (l : ℕ), l = 3 ∨ l = 5 → (StepReturns a b q t l ↔ StepReturns a' b' q t l) := by
    intro t l hl
    rcases h with rfl | ⟨h1, h2⟩
    · simp only [StepReturns, TailOk, dpoly, eb]
    · have : q % (l : ℤ) ≠ 1 := by rcases hl with rfl | rfl <;> assumption
      simp only [StepReturns, this, false_imp_iff, imp_true_iff]
  rw [C84_domain a b q h3 hns _ rfl, C84_domain a' b' q h3 hns' _ rfl, hS _ 3 (.inl rfl), hS _ 5 (.inr rfl), ea, eb]

instance fact_prime_19 : Fact (Nat.Prime (19 : ℤ).toNat) := ⟨show Nat.Prime 19 by norm_num⟩

/-- `y^2 = x^3 + 2 x + 5` over GF(19) has trace -6. -/
theorem trace_19 : (-6 : ℤ) =
    19 + 1 - Nat.card (shortW ((2 : ℤ) : ZMod (19 : ℤ).toNat) ((5 : ℤ) : ZMod (19 : ℤ).toNat)).toAffine.Point := by
  have hx : (match EllipticCurve.new 2 5 19 with | .ok ec => decide (ec.cardinality = 26) | _ => false) = true := by
    decide +kernel
  cases h : EllipticCurve.new 2 5 19 with
  | panic w => rw [h] at hx; simp at hx
  | timeout => rw [h] at hx; simp at hx
  | ok ec =>
    rw [h] at hx
    simp only [decide_eq_true_eq] at hx
    have := C45_cardinality 2 5 19 ec h (by norm_num) (by norm_num)
    rw [← this, hx]; norm_num

/-- C85 is false: 2 and 6481 are the same modulo 19, but `schoof(2, 5, 19)` never returns and `schoof(6481, 5, 19)`
returns. -/
theorem C85_representative_refuted : (2 : ℤ) ≡ 6481 [ZMOD 19] ∧ (∀ fuel r, schoof fuel 2 5 19 ≠ .ok r) ∧
    ∃ r, Returns (fun fuel => schoof fuel 6481 5 19) r := by
  refine ⟨by decide, ?_, ?_⟩
  · intro fuel r h
    have h' : ∃ r, Returns (fun fuel => schoof fuel 2 5 19) r := ⟨r, (mono_schoof 2 5 19).returns h⟩
    obtain ⟨-, -, hS, -⟩ := (C84_domain 2 5 19 (by norm_num) (by decide) _ trace_19).1 h'
    have := (hS.2 (by norm_num) (by norm_num) ?_).1
    · norm_num at this
    · exact (dpoly_zero_three (by norm_num)).2 ⟨-1, by decide, by decide⟩
  · have ht : (-6 : ℤ) =
        19 + 1 - Nat.card (shortW ((6481 : ℤ) : ZMod (19 : ℤ).toNat) ((5 : ℤ) : ZMod (19 : ℤ).toNat)).toAffine.Point := by
      rw [show ((6481 : ℤ) : ZMod (19 : ℤ).toNat) = ((2 : ℤ) : ZMod (19 : ℤ).toNat) by decide]
      exact trace_19
    refine (C84_domain 6481 5 19 (by norm_num) (by decide) (-6) ht).2 ⟨⟨3, by decide⟩, by norm_num,
      ⟨fun _ => by norm_num, fun _ _ _ => ?_⟩, fun _ => ⟨fun _ => by norm_num, fun h => absurd h (by norm_num)⟩⟩
    let K := AlgebraicClosure (ZMod (19 : ℤ).toNat)
    have : CharP K (19 : ℤ).toNat :=
      charP_of_injective_algebraMap (algebraMap (ZMod (19 : ℤ).toNat) K).injective (19 : ℤ).toNat
    have : DecidableEq K := Classical.decEq K
    exact tailOk_of_dvd K (by decide) (.inl rfl) (by norm_num) (by norm_num) (by norm_num)
      (fun P => frob_char_point (by norm_num) (by decide) P ht) (by norm_num) (by norm_num) (by norm_num)

/-- The hypotheses of `C85_same_answer` hold for coefficients 1, 0 and 1, 7 modulo 7. -/
example : ∃ r, Returns (fun fuel => schoof fuel 1 0 7) r ∧ Returns (fun fuel => schoof fuel 1 7 7) r := by
  obtain ⟨r, h⟩ := returns_7
  obtain ⟨r', h'⟩ := (C85_same_domain 1 0 1 7 7 (by norm_num) rfl (by decide) (by decide) (.inl rfl)).1 ⟨r, h⟩
  have := C85_same_answer 1 0 1 7 7 rfl (by decide) (by decide) r r' h h'
  subst this
  exact ⟨r, h, h'⟩

end EC
