import Verif.Props.SchoofTrace
import Verif.Lemmas.TorsCount
import Mathlib.LinearAlgebra.Lagrange

/-! When the polynomial of the test for `j` in `schoof` is zero. -/

namespace EC
open Poly Polynomial WeierstrassCurve

/-- `x^i y^j` with `i < n` and `j < 2`. -/
def Key.Small (n : ℤ) (k : Key) : Prop := k.IsXY ∧ k.y < 2 ∧ k.x < n

theorem polyModLoop_all {p : ℤ} (hp : 0 < p) {oh : Term} {other : Poly} (ho : other.All Key.IsX) : ∀ (n : ℕ) (r g : Poly),
    r.All (fun k => k.IsXY ∧ k.y < 2) → Poly.polyModLoop oh other p n r = .ok g → g.All (Key.Small oh.xpow) := by
  intro n
  induction n with
  | zero => intro r g _ h; simp [Poly.polyModLoop] at h
  | succ n ih =>
    intro r g hr h
    unfold Poly.polyModLoop at h
    dsimp only at h
    split_ifs at h with hlt
    · simp only [Res.ok.injEq] at h; subst h
      exact fun e he => ⟨(hr e he).1, (hr e he).2, (le_highest he).trans_lt hlt⟩
    · obtain ⟨inv, -, h⟩ := Res.bind_eq_ok.1 h
      obtain ⟨z, hz, h⟩ := Res.bind_eq_ok.1 h
      obtain ⟨t, ht, h⟩ := Res.bind_eq_ok.1 h
      obtain ⟨d, hd, h⟩ := Res.bind_eq_ok.1 h
      obtain ⟨d', hd', h⟩ := Res.bind_eq_ok.1 h
      obtain ⟨r', hr', h⟩ := Res.bind_eq_ok.1 h
      have hrh := highest_isXY (hr.mono fun _ h => h.1)
      have hry : r.highestTermX.monomial.key.y < 2 := by
        by_cases hne : r.entries = []
        · rw [highestTermX_of_nil hne]; simp [Term.new, Monomial.key]
        · obtain ⟨e, he, he2, -⟩ := highestTermX_of_ne hne
          rw [he2]
          exact (hr e he).2
      have hzn : 0 ≤ z := by
        rw [chk_eq_ok] at hz
        omega
      have htm : t.monomial.key.IsXY ∧ t.monomial.key.y < 2 := by
        unfold Term.modularAssign at ht
        split_ifs at ht
        simp only [Res.ok.injEq] at ht
        subst ht
        exact ⟨⟨hzn, hrh.2.1, hrh.2.2.1, by simp [TermBuilder.build, Monomial.key, SubVar.key, SubVar.new, TermBuilder.new,
          TermBuilder.coef, TermBuilder.xpow, TermBuilder.ypow, TermBuilder.qpow]⟩, hry⟩
      refine ih r' g ?_ h
      refine (modularAssign_eq_ok hp hr').all (all_subAssign hr ((modularAssign_eq_ok hp hd').all ?_))
      refine all_mul (S := fun k => k.IsXY ∧ k.y < 2) (T := Key.IsX) (all_toPol fun _ => htm) ho ?_ hd
      rintro k k' ⟨⟨a1, a2, a3, a4⟩, a5⟩ ⟨b1, b2, b3, b4⟩ -
      refine ⟨⟨by simp only [Key.mul]; omega, by simp only [Key.mul]; omega, by simp only [Key.mul]; omega, ?_⟩,
        by simp only [Key.mul]; omega⟩
      simp [Key.mul, a4, b4]

/-- A reduced polynomial `A(x) + y B(x)` of small degree with many zeros is the zero polynomial. -/
theorem zero_of_values {K : Type} [Field K] {p : ℕ} [CharP K p] (h2 : (2 : K) ≠ 0) {f : Poly} {n : ℕ}
    (hs : f.All (Key.Small n)) (hc : f.Canon) (hr : f.Reduced p) (t : Finset K) (ht : n ≤ t.card)
    (hv : ∀ x ∈ t, ∃ y, y ≠ 0 ∧ Ev x y f 0 ∧ Ev x (-y) f 0) : f.isZero = true := by
  have hXY : f.All Key.IsXY := hs.mono fun _ h => h.1
  have hzero : ∀ i j : ℕ, (n ≤ i ∨ 2 ≤ j) → f.coef (Key.mk i j 0 none) = 0 := by
    intro i j hij
    by_contra h0
    obtain ⟨e, he, hk⟩ := mem_of_coef_ne h0
    have := hs e he
    rw [hk] at this
    obtain ⟨-, h3, h4⟩ := this
    simp only at h3 h4
    omega
  set G := f.polyXY K with hG
  have hval : ∀ x y : K, f.lin (Key.evalAt x y 0 0) = (G.coeff 0).eval x + y * (G.coeff 1).eval x := by
    intro x y
    have e1 : f.lin (Key.evalAt x y 0 0) = G.evalEval x y := by
      have := evalAt_map (evalEvalRingHom x y) (C X : K[X][X]) X 0 0 f
      rw [hG, polyXY, ← coe_evalEvalRingHom, this, evalAt_eq_lin]
      congr 1
      simp only [coe_evalEvalRingHom, evalEval_C, eval_X, evalEval_X, Pi.zero_apply, map_zero]
      rfl
    have hd : G.natDegree < 2 := by
      refine Nat.lt_succ_of_le (natDegree_le_iff_coeff_eq_zero.2 fun j hj => ?_)
      ext i
      rw [hG, polyXY_coeff hXY, hzero i j (.inr hj)]; simp
    rw [e1, evalEval, eval_eq_sum_range' hd, Finset.sum_range_succ, Finset.sum_range_one, pow_zero, pow_one, mul_one,
      eval_add, eval_mul, eval_C, mul_comm]
  have hdeg : ∀ j, (G.coeff j).degree < t.card := by
    intro j
    refine lt_of_lt_of_le ?_ (show ((n : ℕ) : WithBot ℕ) ≤ t.card by exact_mod_cast ht)
    rw [degree_lt_iff_coeff_zero]
    intro i hi
    rw [hG, polyXY_coeff hXY, hzero i j (.inl hi)]; simp
  have hA : G.coeff 0 = 0 := by
    apply eq_zero_of_degree_lt_of_eval_finset_eq_zero t (hdeg 0)
    intro x hx
    obtain ⟨y, hy, v1, v2⟩ := hv x hx
    have e1 := v1.2; have e2 := v2.2
    rw [hval] at e1 e2
    have : 2 * (G.coeff 0).eval x = 0 := by linear_combination e1 + e2
    exact (mul_eq_zero.1 this).resolve_left h2
  have hB : G.coeff 1 = 0 := by
    apply eq_zero_of_degree_lt_of_eval_finset_eq_zero t (hdeg 1)
    intro x hx
    obtain ⟨y, hy, v1, v2⟩ := hv x hx
    have e1 := v1.2
    rw [hval, hA, eval_zero, zero_add] at e1
    exact (mul_eq_zero.1 e1).resolve_left hy
  rw [isZero_iff]
  by_contra hne
  obtain ⟨e, he⟩ := List.exists_mem_of_ne_nil _ hne
  obtain ⟨⟨k1, k2, k3, k4⟩, k5, k6⟩ := hs e he
  have hk : e.1.key = Key.mk (e.1.key.x.toNat : ℕ) (e.1.key.y.toNat : ℕ) 0 none := by
    generalize e.1.key = k at *
    obtain ⟨x, y, q, v⟩ := k
    simp only [Key.mk.injEq] at *
    exact ⟨by omega, by omega, k3, k4⟩
  have hz : ((e.2 : ℤ) : K) = 0 := by
    rw [← coef_of_mem he, hk, ← polyXY_coeff hXY, ← hG]
    have : e.1.key.y.toNat = 0 ∨ e.1.key.y.toNat = 1 := by omega
    rcases this with h | h <;> rw [h]
    · rw [hA, coeff_zero]
    · rw [hB, coeff_zero]
  rw [CharP.intCast_eq_zero_iff K p] at hz
  have h0 := hc e he
  obtain ⟨r1, r2⟩ := hr e he
  exact h0 (Int.eq_zero_of_dvd_of_nonneg_of_lt r1 r2 hz)

section
variable {K : Type} [Field K] [DecidableEq K] {a b q : ℤ} [Fact (Nat.Prime q.toNat)] [CharP K q.toNat]
variable {fuel : ℕ}

/-- The polynomial of the test for `j`. -/
theorem xTest_poly (hq : 2 ≤ q) {P0 : EDS.Pt (a : K) b} (hP0 : P0 ≠ 0) {j : ℕ} {num1 den1 psiL : Poly} (hX : psiL.All Key.IsX) (hn : num1.All Key.IsXY)
    (hd : den1.All Key.IsXY) {r : Bool} (h : schoofXTest fuel a b q num1 den1 psiL j = .ok r) :
    ∃ p4 : Poly, r = p4.isZero ∧ p4.Canon ∧ p4.Reduced q ∧ p4.All (Key.Small psiL.highestTermX.xpow) ∧
      ∀ (P : EDS.Pt (a : K) b) (c d : K), P ≠ 0 → Ev (EDS.xc P) (EDS.yc P) num1 c → Ev (EDS.xc P) (EDS.yc P) den1 d →
        Ev (EDS.xc P) (EDS.yc P) psiL 0 → Ev (EDS.xc P) (EDS.yc P) p4 (c * EDS.F (frobPoint q.toNat a b P) j ^ 2 -
      (EDS.xc (frobPoint q.toNat a b P) * EDS.F (frobPoint q.toNat a b P) j ^ 2 -
        EDS.F (frobPoint q.toNat a b P) (j + 1) * EDS.F (frobPoint q.toNat a b P) (j - 1)) * d) := by
  have hK := char_smulK (K := K) (q := q) (by omega)
  have hp : 1 ≤ q := by omega
  unfold schoofXTest at h
  obtain ⟨ph, hph, h⟩ := Res.bind_eq_ok.1 h
  obtain ⟨phf, hphf, h⟩ := Res.bind_eq_ok.1 h
  obtain ⟨num2, hnum2, h⟩ := Res.bind_eq_ok.1 h
  obtain ⟨ps, hps, h⟩ := Res.bind_eq_ok.1 h
  obtain ⟨psf, hpsf, h⟩ := Res.bind_eq_ok.1 h
  obtain ⟨den2, hden2, h⟩ := Res.bind_eq_ok.1 h
  obtain ⟨t1, ht1, h⟩ := Res.bind_eq_ok.1 h
  obtain ⟨t2, ht2, h⟩ := Res.bind_eq_ok.1 h
  obtain ⟨p1, hp1, h⟩ := Res.bind_eq_ok.1 h
  obtain ⟨p2, hp2, h⟩ := Res.bind_eq_ok.1 h
  obtain ⟨p3, hp3, h⟩ := Res.bind_eq_ok.1 h
  obtain ⟨p4, hp4, h⟩ := Res.bind_eq_ok.1 h
  simp only [Res.ok.injEq] at h
  have hm := modularAssign_eq_ok (by omega) hp4
  have hval : ∀ (P : EDS.Pt (a : K) b) (c d : K), P ≠ 0 → Ev (EDS.xc P) (EDS.yc P) num1 c →
      Ev (EDS.xc P) (EDS.yc P) den1 d → Ev (EDS.xc P) (EDS.yc P) p2 (c * EDS.F (frobPoint q.toNat a b P) j ^ 2 -
      (EDS.xc (frobPoint q.toNat a b P) * EDS.F (frobPoint q.toNat a b P) j ^ 2 -
        EDS.F (frobPoint q.toNat a b P) (j + 1) * EDS.F (frobPoint q.toNat a b P) (j - 1)) * d) := by
    intro P c d hP h1 h2
    have hxy := EDS.eqn hP
    obtain ⟨g1, g2, g3⟩ := frobPoint_ne (q := q) hP
    have vf := ev_phi g1 hph
    have vp := ev_psi g1 hps
    rw [g2, g3] at vf vp
    have v2 := Ev.red hp hK hxy (vf.frob hp hphf) hnum2
    have v3 := (vp.frob hp hpsf).power2 hden2
    have v4 := Ev.mod hp hK ((h1.mul v3 ht1).sub (v2.mul h2 ht2)) hp1
    rw [g2]
    exact Ev.red hp hK hxy v4 hp2
  refine ⟨p4, h.symm, hm.canon, hm.reduced (by omega), ?_, ?_⟩
  · refine hm.all ?_
    unfold polynomialModular at hp3
    obtain ⟨_, -, hp3⟩ := Res.bind_eq_ok.1 hp3
    obtain ⟨_, -, hp3⟩ := Res.bind_eq_ok.1 hp3
    obtain ⟨r3, hr3, hp3⟩ := Res.bind_eq_ok.1 hp3
    refine (modularAssign_eq_ok (by omega) hp3).all (polyModLoop_all (by omega) hX _ _ _ ?_ hr3)
    have e1 := (hval P0 _ _ hP0 ⟨hn, rfl⟩ ⟨hd, rfl⟩).1
    have e2 := (C21_reduction_modular _ _ _ _ _ hp hp2).2.1
    exact fun e he => ⟨e1 e he, e2 e he⟩
  · intro P c d hP h1 h2 h3
    exact Ev.mod hp hK (Ev.polyMod hp hK h3 (hval P c d hP h1 h2) hp3) hp4

theorem values_of_congruence (h2 : (2 : K) ≠ 0) {P A Q : EDS.Pt (a : K) b} (hA : A ≠ 0) (hQ : Q ≠ 0) (hP : P ≠ 0)
    {j : ℕ} (hj : j ≠ 0) (hjQ : j • Q ≠ 0) (u : K) (h : P = A ∨ P + A = j • Q ∨ P + A = -(j • Q)) :
    (((EDS.yc A - EDS.yc P) ^ 2 - (EDS.xc A + EDS.xc P) * (EDS.xc A - EDS.xc P) ^ 2) * u) * EDS.F Q j ^ 2 =
      (EDS.xc Q * EDS.F Q j ^ 2 - EDS.F Q (j + 1) * EDS.F Q (j - 1)) * ((EDS.xc A - EDS.xc P) ^ 2 * u) := by
  by_cases hPA : P = A
  · subst hPA; ring
  have h := h.resolve_left hPA
  have hne : P + A ≠ 0 := by
    rcases h with h | h <;> rw [h]
    · exact hjQ
    · exact neg_ne_zero.2 hjQ
  have hx : EDS.xc P ≠ EDS.xc A := by
    intro he
    rcases (EDS.xc_eq_iff hP hA).1 he with h1 | h1
    · exact hPA h1
    · exact hne (by rw [h1, neg_add_cancel])
  have hadd := EDS.xc_add hP hA hx
  have hxj := EDS.F_x h2 hQ j hj hjQ
  have e : EDS.xc (P + A) = EDS.xc (j • Q) := (EDS.xc_eq_iff hne hjQ).2 h
  rw [e] at hadd
  linear_combination (-(u * EDS.F Q j ^ 2)) * hadd + ((EDS.xc A - EDS.xc P) ^ 2 * u) * hxj

/-- The test for `j` succeeds exactly if Schoof's congruence holds up to sign for `j` at every point of order `l`. -/
theorem xTest_iff [IsAlgClosed K] (h2 : q ≠ 2) (hns : ¬ q ∣ 4 * a ^ 3 + 27 * b ^ 2) {l n j : ℕ} (hl : l.Prime)
    (hl2 : l ≠ 2) (hlq : (l : ℤ) < q) (hn : q % l = n) (hj1 : 1 ≤ j) (hjl : j < l) {nd : Poly × Poly}
    (hnd : schoofNumDen1 a b q n = .ok nd)
    {ps psL : Poly} (hps : psi a b l = .ok ps) (hpsL : ps.rem q = .ok psL) {r : Bool}
    (h : schoofXTest fuel a b q nd.1 nd.2 psL j = .ok r) :
    r = true ↔ ∀ P : EDS.Pt (a : K) b, l • P = 0 →
      frobPoint q.toNat a b (frobPoint q.toNat a b P) = q • P ∨
      frobPoint q.toNat a b (frobPoint q.toNat a b P) + q • P = j • frobPoint q.toNat a b P ∨
      frobPoint q.toNat a b (frobPoint q.toNat a b P) + q • P = -(j • frobPoint q.toNat a b P) := by
  have hpr : Nat.Prime q.toNat := Fact.out
  have hq := two_le_of_prime (p := q) hpr
  have hK := char_smulK (K := K) (q := q) (by omega)
  have h2K := two_ne_char (K := K) h2
  have hn1 : 1 ≤ n := by
    rcases Nat.eq_zero_or_pos n with rfl | h0
    · exfalso
      have hdv : (l : ℤ) ∣ q := Int.dvd_of_emod_eq_zero (by simpa using hn)
      have : l ∣ q.toNat := by
        rw [← Int.natCast_dvd_natCast, Int.toNat_of_nonneg (by omega)]; exact hdv
      have := (Nat.prime_dvd_prime_iff_eq hl hpr).1 this
      omega
    · exact h0
  have hl0 := hl.pos
  have hnl : n < l := by
    have := Int.emod_lt_of_pos q (show (0 : ℤ) < l by omega)
    omega
  -- what the values say at a point of order `l`
  have main : ∀ P : EDS.Pt (a : K) b, P ≠ 0 → l • P = 0 →
      frobPoint q.toNat a b P ≠ 0 ∧ frobPoint q.toNat a b (frobPoint q.toNat a b P) ≠ 0 ∧ n • P ≠ 0 ∧ q • P = n • P ∧
      j • frobPoint q.toNat a b P ≠ 0 ∧ EDS.F P n ≠ 0 ∧ Ev (EDS.xc P) (EDS.yc P) psL 0 ∧
      EDS.yc P ^ q.toNat ^ 2 = EDS.yc (frobPoint q.toNat a b (frobPoint q.toNat a b P)) ∧
      EDS.xc P ^ q.toNat ^ 2 = EDS.xc (frobPoint q.toNat a b (frobPoint q.toNat a b P)) := by
    intro P hP hlP
    obtain ⟨g1, g2, g3⟩ := frobPoint_ne (q := q) hP
    obtain ⟨f1, f2, f3⟩ := frobPoint_ne (q := q) g1
    have hno : ∀ (R : EDS.Pt (a : K) b), R ≠ 0 → l • R = 0 → ∀ m, 1 ≤ m → m < l → m • R ≠ 0 := by
      intro R hR hlR m hm hml h0
      have hord : addOrderOf R = l := addOrderOf_eq_prime hlR hR (hp := ⟨hl⟩)
      have := addOrderOf_dvd_of_nsmul_eq_zero h0
      rw [hord] at this
      exact absurd (Nat.le_of_dvd (by omega) this) (by omega)
    have hnP := hno P hP hlP n hn1 hnl
    have hF0 : EDS.F P l = 0 := (EDS.F_eq_zero_iff h2K hP l (by omega)).2 hlP
    have hlQ : l • frobPoint q.toNat a b P = 0 := by
      rw [← EDS.F_eq_zero_iff h2K g1 l (by omega), F_frob hP, hF0, zero_pow hpr.ne_zero]
    have v3 := Ev.rem (show 1 ≤ q by omega) hK (ev_psi hP hps) hpsL
    rw [hF0] at v3
    refine ⟨g1, f1, hnP, ?_, hno _ g1 hlQ j hj1 hjl, fun hz => hnP ((EDS.F_eq_zero_iff h2K hP n (by omega)).1 hz), v3, ?_, ?_⟩
    · have e : q = l * (q / l) + n := by
        have := Int.mul_ediv_add_emod q l
        rw [hn] at this; exact this.symm
      rw [e, add_smul, mul_comm, mul_smul, natCast_zsmul, natCast_zsmul, hlP, smul_zero, zero_add]
    · rw [f3, g3, ← pow_mul, pow_two]
    · rw [f2, g2, ← pow_mul, pow_two]
  constructor
  · rintro rfl P hlP
    by_cases hP : P = 0
    · subst hP
      left
      rw [smul_zero]; rfl
    obtain ⟨g1, f1, hnP, hqP, hjQ, hF, v3, e1, e2⟩ := main P hP hlP
    obtain ⟨v1, v2⟩ := ev_numDen1 h2K hq hP hn1 hnP hnd
    have key := ev_xTest hq hP v1 v2 v3 h
    rw [e1, e2] at key
    rw [hqP]
    exact congruence_of_values h2K hnP g1 f1 (by omega) (pow_ne_zero 6 hF) key
  · intro hc
    have hd : (4 * (a : K) ^ 3 + 27 * (b : K) ^ 2) ≠ 0 := by
      intro h0
      apply hns
      have : ((4 * a ^ 3 + 27 * b ^ 2 : ℤ) : K) = 0 := by push_cast; exact h0
      rw [CharP.intCast_eq_zero_iff K q.toNat, Int.toNat_of_nonneg (by omega)] at this
      exact this
    have hlK : ((l : ℕ) : K) ≠ 0 := by
      intro h0
      rw [CharP.cast_eq_zero_iff K q.toNat] at h0
      have := (Nat.prime_dvd_prime_iff_eq hpr hl).1 h0
      omega
    obtain ⟨t, ht1, ht2⟩ := card_torsion_x h2K hd hlK
    have hl3 : 3 ≤ l := by have := hl.two_le; omega
    have hodd : l % 2 = 1 := by
      rcases hl.eq_two_or_odd with h | h
      · exact absurd h hl2
      · exact h
    have ht3 : (l ^ 2 - 1) / 2 ≤ t.card := by omega
    obtain ⟨x0, hx0⟩ : t.Nonempty := by
      rw [← Finset.card_pos]
      have : 9 ≤ l ^ 2 := by nlinarith
      omega
    obtain ⟨P0, hP0, hlP0, -⟩ := ht2 x0 hx0
    have hwk := (psi_spec _ _ _ _ hps).2.wk
    have hmL := rem_eq_ok (show 0 < q by omega) hpsL
    have hsm : psL.All (fun k => k.IsX ∧ k.x ≤ ((l ^ 2 - 1) / 2 : ℕ)) := by
      refine hmL.all (hwk.mono ?_)
      rintro k ⟨⟨k1, k2, k3, k4⟩, k5, k6⟩
      have hl9 : 1 ≤ l ^ 2 := by nlinarith
      have hy : k.y = 0 := by omega
      refine ⟨⟨k1, hy, k3, k4⟩, ?_⟩
      have : ((l ^ 2 - 1 : ℕ) : ℤ) = (l : ℤ) ^ 2 - 1 := by push_cast [hl9]; ring
      omega
    have hxL : psL.highestTermX.xpow ≤ ((l ^ 2 - 1) / 2 : ℕ) := by
      by_cases hne : psL.entries = []
      · rw [highestTermX_of_nil hne]
        exact Int.natCast_nonneg _
      · obtain ⟨e, he, he2, -⟩ := highestTermX_of_ne hne
        rw [he2]
        exact (hsm e he).2
    have hall0 : ∀ P : EDS.Pt (a : K) b, P ≠ 0 → l • P = 0 → _ := fun P hP hlP =>
      ev_numDen1 h2K hq hP hn1 (main P hP hlP).2.2.1 hnd
    obtain ⟨p4, hr, hcan, hred, hsmall, hv⟩ := xTest_poly (K := K) hq hP0 (hsm.mono fun _ h => h.1)
      (hall0 P0 hP0 hlP0).1.1 (hall0 P0 hP0 hlP0).2.1 h
    have hzero : ∀ P : EDS.Pt (a : K) b, P ≠ 0 → l • P = 0 → Ev (EDS.xc P) (EDS.yc P) p4 0 := by
      intro P hP hlP
      obtain ⟨g1, f1, hnP, hqP, hjQ, hF, v3, e1, e2⟩ := main P hP hlP
      obtain ⟨v1, v2⟩ := hall0 P hP hlP
      have hcP := hc P hlP
      rw [hqP] at hcP
      have val := values_of_congruence h2K hnP g1 f1 (by omega) hjQ (EDS.F P n ^ 6) hcP
      refine (hv P _ _ hP v1 v2 v3).congr ?_
      rw [e1, e2]
      linear_combination val
    rw [hr]
    refine zero_of_values (K := K) (p := q.toNat) (n := (l ^ 2 - 1) / 2) h2K ?_ hcan ?_ t ht3 ?_
    · exact hsmall.mono fun k hk => ⟨hk.1, hk.2.1, hk.2.2.trans_le hxL⟩
    · rw [Int.toNat_of_nonneg (by omega)]; exact hred
    · intro x hx
      obtain ⟨P, hP, hlP, rfl⟩ := ht2 x hx
      refine ⟨EDS.yc P, ?_, hzero P hP hlP, ?_⟩
      · intro hy
        have h2P : 2 • P = 0 := by rw [two_smul, EDS.two_nsmul_eq_zero_iff h2K hP]; exact hy
        have hord : addOrderOf P = l := addOrderOf_eq_prime hlP hP (hp := ⟨hl⟩)
        have := addOrderOf_dvd_of_nsmul_eq_zero h2P
        rw [hord] at this
        exact absurd (Nat.le_of_dvd (by omega) this) (by omega)
      · have := hzero (-P) (neg_ne_zero.2 hP) (by rw [smul_neg, hlP, neg_zero])
        rwa [EDS.xc_neg, EDS.yc_neg] at this

end
end EC
