import Verif.Lemmas.RootsFp
import Verif.Lemmas.Fuel
import Verif.Props.PolyDiv
import Verif.Props.Curve
import Mathlib.GroupTheory.Perm.Cycle.Type

/-! Properties C53, C54, C61: the result of `schoof`. -/

namespace EC
open Poly Polynomial WeierstrassCurve

/-! ### C53 -/

theorem schoof2_eq (fuel : ℕ) (a b q : ℤ) : schoof2 fuel a b q =
    (Poly.gcd fuel (curvePol a b) (frobPol q) q >>= fun m =>
      .ok { l := 2, r := if (!m.isZero) then 1 else 0 }) := by
  unfold schoof2 isGcdOne
  rw [Res.bind_assoc']
  rfl

theorem eval_curve {n : ℕ} (a b : ℤ) (x : ZMod n) :
    (X ^ 3 + C (a : ZMod n) * X + C (b : ZMod n)).eval x = x ^ 3 + a * x + b := by simp

/-- The cubic `x^3 + a x + b` has a root: `schoof` records the entry `1 mod 2`. -/
theorem schoof2_root (a b q : ℤ) [Fact (Nat.Prime q.toNat)] (hi : q ≤ 2147483647) (x : ZMod q.toNat)
    (hx : x ^ 3 + a * x + b = 0) : Returns (fun fuel => schoof2 fuel a b q) { l := 2, r := 1 } := by
  have hq := two_le_of_prime (p := q) Fact.out
  have hco : ¬ IsCoprime ((curvePol a b).polyX (ZMod q.toNat)) ((frobPol q).polyX (ZMod q.toNat)) := by
    rw [frobPol_polyX _ hq, curvePol_polyX, isCoprime_frob_iff]
    intro h
    exact h x (by rw [eval_curve]; exact hx)
  obtain ⟨v, h1, -, -, -, h5, -⟩ := gcd_spec hq _ _ _ (UniOK_curvePol q a b) (UniOK_frobPol q hq hi).1 le_rfl hco
  refine ⟨(curvePol a b).deg + 2 * (frobPol q).deg + 2, fun fuel hf => ?_⟩
  dsimp only
  rw [schoof2_eq, h1 fuel hf, Res.ok_bind]
  have : v.isZero = false := by
    by_contra h3
    exact h5.ne_zero (polyX_eq_zero_of_nil (isZero_iff.1 (by simpa using h3)))
  rw [this]; rfl

theorem schoof2_noroot (a b q : ℤ) [Fact (Nat.Prime q.toNat)] (hi : q ≤ 2147483647)
    (hx : ∀ x : ZMod q.toNat, x ^ 3 + a * x + b ≠ 0) (fuel : ℕ) : schoof2 fuel a b q = .timeout := by
  have hq := two_le_of_prime (p := q) Fact.out
  rw [schoof2_eq, gcd_diverges hq fuel _ _ (UniOK_curvePol q a b) (UniOK_frobPol q hq hi).1]
  · rfl
  · rw [frobPol_polyX _ hq, curvePol_polyX, isCoprime_frob_iff]
    intro x; rw [eval_curve]; exact hx x

/-- C53: if `x^3 + a x + b` has no root modulo the prime `q` (the trace is then odd), `schoof` never
returns. -/
theorem C53_odd_trace_diverges (a b q : ℤ) (hq : Nat.Prime q.toNat) (hi : q ≤ 2147483647)
    (hx : ∀ x : ZMod q.toNat, x ^ 3 + a * x + b ≠ 0) : Diverges (fun fuel => schoof fuel a b q) := by
  have : Fact (Nat.Prime q.toNat) := ⟨hq⟩
  intro fuel
  dsimp only
  unfold schoof
  rw [schoof2_noroot a b q hi hx]; rfl

/-- The trace of Frobenius of a nonsingular curve over an odd prime field is even exactly when
`x^3 + a x + b` has a root. -/
theorem trace_even_iff (a b q : ℤ) (hq : Nat.Prime q.toNat) (h2 : q ≠ 2) (hd : ¬ q ∣ 4 * a ^ 3 + 27 * b ^ 2) :
    Even (q + 1 - Nat.card (shortW (a : ZMod q.toNat) (b : ZMod q.toNat)).toAffine.Point) ↔
      ∃ x : ZMod q.toNat, x ^ 3 + a * x + b = 0 := by
  have : Fact (Nat.Prime q.toNat) := ⟨hq⟩
  let ec : EllipticCurve := ⟨a, b, q, curvePol a b, []⟩
  have hg : ec.Good := ⟨rfl, hq, h2, hd⟩
  have hq2 := two_le_of_prime hq
  have hodd : Odd q := by
    have := hq.eq_two_or_odd'
    rcases this with h | h
    · omega
    · obtain ⟨k, hk⟩ := h; exact ⟨k, by omega⟩
  have hpar : Even (q + 1 - (Nat.card ec.W.Point : ℤ)) ↔ Even (Nat.card ec.W.Point) := by
    rw [Int.even_sub, Int.even_coe_nat]
    simp [hodd.add_one]
  have hfin : Finite ec.W.Point := by
    by_contra hinf
    have := EllipticCurve.length_points hg
    rw [not_finite_iff_infinite] at hinf
    rw [Nat.card_eq_zero_of_infinite] at this
    simp at this
  refine hpar.trans ?_
  constructor
  · intro he
    have h2 : Fact (Nat.Prime 2) := ⟨Nat.prime_two⟩
    obtain ⟨P, hP⟩ := exists_prime_addOrderOf_dvd_card' (G := ec.W.Point) 2 he.two_dvd
    have hP2 : P = -P := by
      have := addOrderOf_nsmul_eq_zero P
      rw [hP, two_nsmul] at this
      exact eq_neg_of_add_eq_zero_left this
    cases P with
    | zero =>
      have : addOrderOf (Affine.Point.zero : ec.W.Point) = 1 := AddMonoid.addOrderOf_eq_one_iff.2 rfl
      omega
    | some x y h =>
      rw [Affine.Point.neg_some, Affine.Point.some.injEq] at hP2
      have h3 : y = -y := by simpa [Affine.negY] using hP2.2
      have h4 : (2 : ZMod q.toNat) * y = 0 := by linear_combination h3
      have h5 : (2 : ZMod q.toNat) ≠ 0 := by
        have := (EC.zmod_eq_zero_iff (a := 2) (p := q) (by omega)).not
        push_cast at this
        rw [ne_eq, this]
        intro hdv
        have := Int.le_of_dvd (by norm_num) hdv
        omega
      have h6 : y = 0 := by simpa [h5] using h4
      have := (EllipticCurve.equation_iff (ec := ec) x y).1 h.1
      refine ⟨x, ?_⟩
      rw [h6] at this
      simpa using this.symm
  · rintro ⟨x, hx⟩
    have hn : ec.W.Nonsingular x 0 := hg.nonsingular (by rw [hx]; ring)
    let P : ec.W.Point := .some x 0 hn
    have hP : (2 : ℕ) • P = 0 := by
      rw [two_nsmul]
      exact Affine.Point.add_self_of_Y_eq (by simp [Affine.negY])
    have hP0 : P ≠ 0 := Affine.Point.some_ne_zero _
    have h7 : addOrderOf P = 2 := addOrderOf_eq_prime hP hP0
    have := addOrderOf_dvd_natCard P
    rw [h7] at this
    exact even_iff_two_dvd.2 this

theorem schoofFindJ_mem {fuel : ℕ} {a b q : ℤ} {n d p : Poly} {l : List ℤ} {j : ℤ}
    (h : schoofFindJ fuel a b q n d p l = .ok (some j)) : j ∈ l := by
  induction l with
  | nil => simp [schoofFindJ] at h
  | cons x t ih =>
    unfold schoofFindJ at h
    obtain ⟨c, -, h⟩ := Res.bind_eq_ok.1 h
    split_ifs at h
    · simp only [Res.ok.injEq, Option.some.injEq] at h; simp [h]
    · exact List.mem_cons_of_mem _ (ih h)

theorem schoofY_shape {fuel : ℕ} {a b q l ql jj : ℤ} {psiL : Poly} {r : ModResult} (hj : 1 ≤ jj)
    (h : schoofY fuel a b q l ql jj psiL = .ok r) : r.l = l ∧ (r.r = jj ∨ r.r = l - jj) := by
  unfold schoofY at h
  repeat
    obtain ⟨_, -, h⟩ := Res.bind_eq_ok.1 h
  dsimp only at h
  have key : ∀ p9 : Poly, (do
      let p9 ← p9.modularAssign q
      let p9 ← polynomialModular fuel p9 psiL q
      Res.ok (ModResult.mk l (if (if (!p9.isZero) = true then -jj else jj) < 0 then
        (if (!p9.isZero) = true then -jj else jj) + l else (if (!p9.isZero) = true then -jj else jj)))) = .ok r →
      r.l = l ∧ (r.r = jj ∨ r.r = l - jj) := by
    intro p9 h
    obtain ⟨_, -, h⟩ := Res.bind_eq_ok.1 h
    obtain ⟨p, -, h⟩ := Res.bind_eq_ok.1 h
    simp only [Res.ok.injEq] at h
    subst h
    refine ⟨rfl, ?_⟩
    dsimp only
    split_ifs <;> omega
  split_ifs at h
  · obtain ⟨_, -, h⟩ := Res.bind_eq_ok.1 h
    exact key _ h
  · exact key _ h

theorem find_irange_min {P : ℤ → Bool} {hi w : ℤ} : ∀ (n : ℕ) (lo : ℤ), (hi - lo).toNat = n →
    (irange lo hi).find? P = some w → ∀ i, lo ≤ i → i < w → P i = false := by
  intro n
  induction n with
  | zero =>
    intro lo hn h
    rw [irange_of_le (by omega)] at h; simp at h
  | succ n ih =>
    intro lo hn h i h1 h2
    rw [irange_cons (by omega), List.find?_cons] at h
    cases hP : P lo with
    | true => rw [hP] at h; simp only [Option.some.injEq] at h; omega
    | false =>
      rw [hP] at h
      rcases eq_or_lt_of_le h1 with rfl | h3
      · exact hP
      · exact ih (lo + 1) (by omega) h i (by omega) h2

theorem schoofDE_shape {fuel : ℕ} {a b q l : ℤ} {r : ModResult} (hl : 0 < l)
    (h : schoofDE fuel a b q l (q % l) = .ok r) : r.l = l ∧ (r.r = 0 ∨
      ∃ w, 1 ≤ w ∧ w < l ∧ w ^ 2 % l = q % l ∧ (∀ i, 1 ≤ i → i < w → i ^ 2 % l ≠ q % l) ∧
        (r.r = 2 * w ∨ r.r = l - 2 * w)) := by
  unfold schoofDE at h
  split at h
  · simp only [Res.ok.injEq] at h; subst h; exact ⟨rfl, .inl rfl⟩
  · rename_i w hw
    have hw1 := List.find?_some hw
    have hw2 := List.mem_of_find?_eq_some hw
    rw [mem_irange] at hw2
    simp only [decide_eq_true_eq, fmod_pos_eq hl] at hw1
    have hmin : ∀ i, 1 ≤ i → i < w → i ^ 2 % l ≠ q % l := by
      intro i h1 h2 h3
      have := find_irange_min _ 1 rfl hw i h1 h2
      simp [fmod_pos_eq hl, h3] at this
    repeat
      obtain ⟨_, -, h⟩ := Res.bind_eq_ok.1 h
    split_ifs at h
    · simp only [Res.ok.injEq] at h; subst h; exact ⟨rfl, .inl rfl⟩
    · repeat
        obtain ⟨_, -, h⟩ := Res.bind_eq_ok.1 h
      simp only [Res.ok.injEq] at h; subst h
      refine ⟨rfl, .inr ⟨w, hw2.1, hw2.2, hw1, hmin, ?_⟩⟩
      dsimp only
      split_ifs <;> omega

theorem schoofL_shape {fuel : ℕ} {a b q l : ℤ} (hl : 0 < l) {r : ModResult} (h : schoofL fuel a b q l = .ok r) :
    r.l = l ∧ ((1 ≤ r.r ∧ 2 * r.r < l) ∨ (1 ≤ l - r.r ∧ 2 * (l - r.r) < l) ∨ r.r = 0 ∨
      ∃ w, 1 ≤ w ∧ w < l ∧ w ^ 2 % l = q % l ∧ (∀ i, 1 ≤ i → i < w → i ^ 2 % l ≠ q % l) ∧
        (r.r = 2 * w ∨ r.r = l - 2 * w)) := by
  unfold schoofL at h
  obtain ⟨nd, -, h⟩ := Res.bind_eq_ok.1 h
  obtain ⟨_, -, h⟩ := Res.bind_eq_ok.1 h
  obtain ⟨_, -, h⟩ := Res.bind_eq_ok.1 h
  obtain ⟨o, ho, h⟩ := Res.bind_eq_ok.1 h
  rw [fmod_pos_eq hl] at h
  cases o with
  | none =>
    obtain ⟨h1, h2⟩ := schoofDE_shape hl h
    exact ⟨h1, .inr (.inr h2)⟩
  | some jj =>
    have hj := schoofFindJ_mem ho
    rw [mem_irange, Int.tdiv_eq_ediv_of_nonneg (by omega)] at hj
    obtain ⟨h1, h2⟩ := schoofY_shape hj.1 h
    refine ⟨h1, ?_⟩
    rcases h2 with h2 | h2 <;> omega

/-- The moduli of `schoof`: 2, then 3 if `3 < q`, then 5 if `5 < q`. -/
theorem schoof_eq_ok {fuel : ℕ} {a b q : ℤ} {r : List ModResult} (h : schoof fuel a b q = .ok r) :
    ∃ r2, schoof2 fuel a b q = .ok r2 ∧
    ((q ≤ 3 ∧ r = [r2]) ∨
     (3 < q ∧ q ≤ 5 ∧ ∃ r3, schoofL fuel a b q 3 = .ok r3 ∧ r = [r2, r3]) ∨
     (5 < q ∧ ∃ r3 r5, schoofL fuel a b q 3 = .ok r3 ∧ schoofL fuel a b q 5 = .ok r5 ∧ r = [r2, r3, r5])) := by
  unfold schoof at h
  obtain ⟨r2, h2, h⟩ := Res.bind_eq_ok.1 h
  refine ⟨r2, h2, ?_⟩
  unfold schoofLoop at h
  split_ifs at h with h3
  · left; exact ⟨by omega, by simpa using h.symm⟩
  · right
    obtain ⟨r3, e3, h⟩ := Res.bind_eq_ok.1 h
    unfold schoofLoop at h
    split_ifs at h with h5
    · left; exact ⟨by omega, by omega, r3, e3, by simpa using h.symm⟩
    · right
      obtain ⟨r5, e5, h⟩ := Res.bind_eq_ok.1 h
      unfold schoofLoop at h
      exact ⟨by omega, r3, r5, e3, e5, by simpa using h.symm⟩

/-- C53 is false: whenever `schoof` returns for a nonsingular curve over an odd prime field, its first entry
is `1 mod 2` although the trace of Frobenius `q + 1 - #E(GF(q))` is even. -/
theorem C53_parity_refuted (a b q : ℤ) (hq : Nat.Prime q.toNat) (hi : q ≤ 2147483647) (h2 : q ≠ 2)
    (hd : ¬ q ∣ 4 * a ^ 3 + 27 * b ^ 2) (fuel : ℕ) (r : List ModResult) (h : schoof fuel a b q = .ok r) :
    r[0]? = some { l := 2, r := 1 } ∧
      Even (q + 1 - Nat.card (shortW (a : ZMod q.toNat) (b : ZMod q.toNat)).toAffine.Point) := by
  have : Fact (Nat.Prime q.toNat) := ⟨hq⟩
  obtain ⟨r2, e2, hr⟩ := schoof_eq_ok h
  rw [trace_even_iff a b q hq h2 hd]
  by_cases hx : ∃ x : ZMod q.toNat, x ^ 3 + a * x + b = 0
  · refine ⟨?_, hx⟩
    obtain ⟨x, hx⟩ := hx
    have h1 := (mono_schoof2 a b q).unique e2 (schoof2_root a b q hi x hx)
    subst h1
    rcases hr with ⟨-, rfl⟩ | ⟨-, -, r3, -, rfl⟩ | ⟨-, r3, r5, -, -, rfl⟩ <;> rfl
  · push Not at hx
    rw [schoof2_noroot a b q hi hx] at e2
    exact absurd e2 (by simp)

/-! ### C54 -/

/-- C54: the entries that `schoof` returns have the moduli 2, 3, 5 (those below `q`, and 2) in this order and
residues in `[0, l)`. -/
theorem C54_shape (a b q : ℤ) (fuel : ℕ) (r : List ModResult) (h : schoof fuel a b q = .ok r) :
    r.map (·.l) = (if q ≤ 3 then [2] else if q ≤ 5 then [2, 3] else [2, 3, 5]) ∧
    ∀ e ∈ r, 0 ≤ e.r ∧ e.r < e.l := by
  obtain ⟨r2, e2, hr⟩ := schoof_eq_ok h
  have h2 : r2.l = 2 ∧ 0 ≤ r2.r ∧ r2.r < 2 := by
    unfold schoof2 at e2
    obtain ⟨c, -, e2⟩ := Res.bind_eq_ok.1 e2
    simp only [Res.ok.injEq] at e2; subst e2
    cases c <;> simp
  have h3 : ∀ r3, schoofL fuel a b q 3 = .ok r3 → r3.l = 3 ∧ 0 ≤ r3.r ∧ r3.r < 3 := by
    intro r3 e3
    obtain ⟨h1, h2⟩ := schoofL_shape (by norm_num) e3
    refine ⟨h1, ?_⟩
    rcases h2 with h2 | h2 | h2 | ⟨w, hw1, hw2, hw3, hw4, hw5⟩
    · omega
    · omega
    · omega
    · have : w = 1 := by
        by_contra hne
        have h4 := hw4 1 le_rfl (by omega)
        interval_cases w
        · exact hne rfl
        · omega
      subst this; omega
  have h5 : ∀ r5, schoofL fuel a b q 5 = .ok r5 → r5.l = 5 ∧ 0 ≤ r5.r ∧ r5.r < 5 := by
    intro r5 e5
    obtain ⟨h1, h2⟩ := schoofL_shape (by norm_num) e5
    refine ⟨h1, ?_⟩
    rcases h2 with h2 | h2 | h2 | ⟨w, hw1, hw2, hw3, hw4, hw5⟩
    · omega
    · omega
    · omega
    · have : w ≤ 2 := by
        by_contra hne
        have h4 := hw4 1 le_rfl (by omega)
        have h5 := hw4 2 (by norm_num) (by omega)
        interval_cases w <;> omega
      omega
  rcases hr with ⟨hq, rfl⟩ | ⟨hq, hq5, r3, e3, rfl⟩ | ⟨hq, r3, r5, e3, e5, rfl⟩
  · simp [hq, h2]
  · have := h3 r3 e3
    simp [h2, this, not_le.2 hq, hq5]
  · have := h3 r3 e3
    have h5' := h5 r5 e5
    simp [h2, this, h5', not_le.2 hq, not_le.2 (show 3 < q by omega)]

/-! ### Where `schoof` returns -/

/-- C62: for `q = 2` and `q = 3` it returns exactly when `x^3 + a x + b` has a root, and then the result is
the single entry `1 mod 2`. -/
theorem C62_small (a b q : ℤ) (hq : Nat.Prime q.toNat) (h3 : q ≤ 3) :
    ((∃ x : ZMod q.toNat, x ^ 3 + a * x + b = 0) →
      Returns (fun fuel => schoof fuel a b q) [{ l := 2, r := 1 }]) ∧
    ((¬ ∃ x : ZMod q.toNat, x ^ 3 + a * x + b = 0) → Diverges (fun fuel => schoof fuel a b q)) := by
  have : Fact (Nat.Prime q.toNat) := ⟨hq⟩
  constructor
  · rintro ⟨x, hx⟩
    obtain ⟨N, hN⟩ := schoof2_root a b q (by omega) x hx
    refine ⟨N, fun fuel hf => ?_⟩
    have h1 : schoof2 fuel a b q = .ok { l := 2, r := 1 } := hN fuel hf
    dsimp only
    unfold schoof schoofLoop
    rw [h1, Res.ok_bind, if_pos (by omega)]
  · intro hx
    push Not at hx
    exact C53_odd_trace_diverges a b q hq (by omega) hx

theorem schoofL_large {fuel : ℕ} {a b q l : ℤ} (h : 46341 ≤ q) (r : ModResult) :
    schoofL fuel a b q l ≠ .ok r := by
  intro hr
  unfold schoofL at hr
  obtain ⟨nd, hnd, -⟩ := Res.bind_eq_ok.1 hr
  unfold schoofNumDen1 at hnd
  obtain ⟨_, -, hnd⟩ := Res.bind_eq_ok.1 hnd
  obtain ⟨_, -, hnd⟩ := Res.bind_eq_ok.1 hnd
  obtain ⟨q2, hq2, -⟩ := Res.bind_eq_ok.1 hnd
  rw [chk_eq_ok] at hq2
  have := hq2.1.2
  nlinarith

/-- C62: from `q = 46341` on (`q^2` does not fit in an `i32`) it never returns. -/
theorem C62_large (a b q : ℤ) (h : 46341 ≤ q) (fuel : ℕ) (r : List ModResult) :
    schoof fuel a b q ≠ .ok r := by
  intro hr
  obtain ⟨r2, -, h1 | ⟨-, -, r3, h3, -⟩ | ⟨-, r3, r5, h3, -⟩⟩ := schoof_eq_ok hr
  · omega
  · exact schoofL_large h _ h3
  · exact schoofL_large h _ h3

/-- C53, C62: in general, for a prime `q` in `i32`, `schoof` does not return unless `x^3 + a x + b` has a
root. -/
theorem C62_root (a b q : ℤ) (hq : Nat.Prime q.toNat) (hi : q ≤ 2147483647) (r : List ModResult)
    (h : Returns (fun fuel => schoof fuel a b q) r) : ∃ x : ZMod q.toNat, x ^ 3 + a * x + b = 0 := by
  by_contra hx
  push Not at hx
  obtain ⟨N, hN⟩ := h
  have := hN N le_rfl
  rw [C53_odd_trace_diverges a b q hq hi hx N] at this
  simp at this

example : Returns (fun fuel => schoof fuel 2 0 3) [{ l := 2, r := 1 }] :=
  (C62_small 2 0 3 (by decide) (by norm_num)).1 ⟨0, by decide⟩
example : Diverges (fun fuel => schoof fuel 2 1 3) := by
  refine (C62_small 2 1 3 (by decide) (by norm_num)).2 ?_
  have h : ¬ ∃ x : ZMod 3, x ^ 3 + 2 * x + 1 = 0 := by decide
  rintro ⟨x, hx⟩
  refine h ⟨x, ?_⟩
  simpa using hx

/-! ### C61 -/

/-- A run of `schoof` for `y^2 = x^3 + 2 x` over GF(5). -/
theorem schoof_2_0_5 : ((schoof 60 2 0 5) >>= fun r => .ok (r.map fun m => (m.l, m.r))) = .ok [(2, 1), (3, 2)] := by
  decide +kernel

theorem schoof_2_0_5' : Returns (fun fuel => schoof fuel 2 0 5) [{ l := 2, r := 1 }, { l := 3, r := 2 }] := by
  obtain ⟨r, hr, h⟩ := Res.bind_eq_ok.1 schoof_2_0_5
  have : r = [{ l := 2, r := 1 }, { l := 3, r := 2 }] := by
    simp only [Res.ok.injEq] at h
    match r, h with
    | [⟨_, _⟩, ⟨_, _⟩], h => simpa using h
  subst this
  exact (mono_schoof 2 0 5).returns hr

/-- C61 is false: for `y^2 = x^3 + 2 x` over GF(5) `schoof` returns the entry `2 mod 3`, but the trace of Frobenius
is 4, that is `1 mod 3`. -/
theorem C61_trace_mod_three_refuted :
    Returns (fun fuel => schoof fuel 2 0 5) [{ l := 2, r := 1 }, { l := 3, r := 2 }] ∧
    (5 : ℤ) + 1 - Nat.card (shortW ((2 : ℤ) : ZMod (5 : ℤ).toNat) ((0 : ℤ) : ZMod (5 : ℤ).toNat)).toAffine.Point = 4 := by
  refine ⟨schoof_2_0_5', ?_⟩
  have hx : (match EllipticCurve.new 2 0 5 with | .ok ec => decide (ec.cardinality = 2) | _ => false) = true := by
    decide +kernel
  cases h : EllipticCurve.new 2 0 5 with
  | panic w => rw [h] at hx; simp at hx
  | timeout => rw [h] at hx; simp at hx
  | ok ec =>
    rw [h] at hx
    simp only [decide_eq_true_eq] at hx
    have := C45_cardinality 2 0 5 ec h (by norm_num) (by norm_num)
    rw [← this, hx]; norm_num

-- the hypotheses of `C53_parity_refuted` are met
example : Even ((5 : ℤ) + 1 - Nat.card (shortW ((2 : ℤ) : ZMod (5 : ℤ).toNat) ((0 : ℤ) : ZMod (5 : ℤ).toNat)).toAffine.Point) := by
  obtain ⟨N, hN⟩ := schoof_2_0_5'
  exact (C53_parity_refuted 2 0 5 (by decide) (by norm_num) (by norm_num) (by norm_num) N _ (hN N le_rfl)).2

end EC
