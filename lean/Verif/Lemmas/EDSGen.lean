import Verif.Lemmas.EDSPoint

/-! The division polynomials at a point of infinite order. -/

set_option linter.unusedSectionVars false

namespace EC.EDS
open WeierstrassCurve

variable {K : Type*} [Field K] [DecidableEq K] {a b : K}

/-- `ψ₃`. -/
def psi3 {R : Type*} [CommRing R] (a b x : R) : R := 3 * x ^ 4 + 6 * a * x ^ 2 + 12 * b * x - a ^ 2

/-- `ψ₄ / ψ₂`. -/
def psi4 {R : Type*} [CommRing R] (a b x : R) : R :=
  2 * x ^ 6 + 10 * a * x ^ 4 + 40 * b * x ^ 3 - 10 * a ^ 2 * x ^ 2 - 8 * a * b * x - 16 * b ^ 2 - 2 * a ^ 3

/-- The sequence of values of the division polynomials at `(x,y)`. -/
def ps {R : Type*} [CommRing R] (a b x y : R) (n : ℤ) : R := normEDS (2 * y) (psi3 a b x) (psi4 a b x) n

/-- The sequence built from the `x`-coordinates of the multiples of a point. -/
def w (P : Pt a b) : ℕ → K
  | 0 => 0
  | 1 => 1
  | 2 => 2 * yc P
  | n + 3 => (xc P - xc ((n + 2) • P)) * w P (n + 2) ^ 2 / w P (n + 1)

/-- `P` has infinite order. -/
def Inf (P : Pt a b) : Prop := ∀ n : ℕ, n ≠ 0 → n • P ≠ 0

section
variable {P : Pt a b} (h2 : (2 : K) ≠ 0) (hP : Inf P)
include h2 hP

theorem Inf.ne : P ≠ 0 := by have := hP 1 one_ne_zero; rwa [one_smul] at this

theorem Inf.xne {m n : ℕ} (hm : m ≠ 0) (hn : n ≠ 0) (h : m ≠ n) : xc (m • P) ≠ xc (n • P) := by
  intro e
  rcases (xc_eq_iff (hP m hm) (hP n hn)).1 e with e | e
  · rcases lt_or_gt_of_ne h with h | h
    · obtain ⟨k, rfl⟩ := Nat.exists_eq_add_of_lt h
      rw [add_assoc, add_smul, left_eq_add] at e
      exact hP _ (by omega) e
    · obtain ⟨k, rfl⟩ := Nat.exists_eq_add_of_lt h
      rw [add_assoc, add_smul, add_eq_left] at e
      exact hP _ (by omega) e
  · rw [eq_neg_iff_add_eq_zero, ← add_smul] at e
    exact hP _ (by omega) e

theorem Inf.yne {m : ℕ} (hm : m ≠ 0) : yc (m • P) ≠ 0 := by
  intro e
  rw [← two_nsmul_eq_zero_iff h2 (hP m hm), ← add_smul] at e
  exact hP _ (by omega) e

theorem Inf.xne1 {m : ℕ} (hm : 2 ≤ m) : xc P - xc (m • P) ≠ 0 := by
  have := hP.xne h2 (m := 1) (n := m) one_ne_zero (by omega) (by omega)
  rw [one_smul] at this
  exact sub_ne_zero.2 this

theorem w_ne : ∀ n : ℕ, n ≠ 0 → w P n ≠ 0
  | 0, h => absurd rfl h
  | 1, _ => by simp [w]
  | 2, _ => by
    have := hP.yne h2 (m := 1) one_ne_zero
    rw [one_smul] at this
    exact mul_ne_zero h2 this
  | n + 3, _ => by
    rw [w]
    exact div_ne_zero (mul_ne_zero (hP.xne1 h2 (by omega)) (pow_ne_zero _ (w_ne _ (by omega))))
      (w_ne _ (by omega))

theorem w_step (n : ℕ) (hn : n ≠ 0) :
    w P (n + 2) * w P n = (xc P - xc ((n + 1) • P)) * w P (n + 1) ^ 2 := by
  obtain ⟨n, rfl⟩ := Nat.exists_eq_succ_of_ne_zero hn
  rw [show n.succ + 2 = n + 3 from rfl, w]
  exact div_mul_cancel₀ _ (w_ne h2 hP _ (by omega))

/-- The key identity between five multiples. -/
theorem five {m n : ℕ} (hn : 2 ≤ n) (hm : n < m) :
    (xc ((n + 1) • P) - xc (m • P)) * (xc ((n - 1) • P) - xc (m • P)) * (xc P - xc (n • P)) ^ 2 =
    (xc P - xc ((m + n) • P)) * (xc P - xc ((m - n) • P)) * (xc (n • P) - xc (m • P)) ^ 2 := by
  have hP0 := hP.ne h2
  have e1 := bq_add (hP n (by omega)) hP0 (by
    have := hP.xne1 h2 hn; exact fun e => this (by rw [e, sub_self])) (xc (m • P))
  have e2 := bq_add (hP m (by omega)) (hP n (by omega)) (hP.xne h2 (by omega) (by omega) (by omega)) (xc P)
  have s1 : n • P + P = (n + 1) • P := by rw [add_smul, one_smul]
  have s2 : n • P - P = (n - 1) • P := by
    obtain ⟨k, rfl⟩ := Nat.exists_eq_add_of_le' (show 1 ≤ n by omega)
    rw [add_smul, one_smul, Nat.add_sub_cancel, add_sub_cancel_right]
  have s3 : m • P + n • P = (m + n) • P := by rw [add_smul]
  have s4 : m • P - n • P = (m - n) • P := by
    obtain ⟨k, rfl⟩ := Nat.exists_eq_add_of_le' hm.le
    rw [add_smul, Nat.add_sub_cancel, add_sub_cancel_right]
  rw [s1, s2] at e1
  rw [s3, s4] at e2
  have : bq a b (xc (n • P)) (xc P) (xc (m • P)) = bq a b (xc (m • P)) (xc (n • P)) (xc P) := by
    unfold bq; ring
  rw [this, ← e2] at e1
  linear_combination e1

theorem two_case {m : ℕ} (hm : 3 ≤ m) :
    (xc P - xc ((m + 1) • P)) * (xc P - xc ((m - 1) • P)) * (xc P - xc (m • P)) ^ 2 =
      (xc (2 • P) - xc (m • P)) * (2 * yc P) ^ 2 := by
  have hP0 := hP.ne h2
  have hy := hP.yne h2 (m := 1) one_ne_zero
  rw [one_smul] at hy
  have e1 := bq_add (hP m (by omega)) hP0 (by
    have := hP.xne1 h2 (show 2 ≤ m by omega); exact fun e => this (by rw [e, sub_self])) (xc P)
  have e2 := bq_self h2 hP0 hy (xc (m • P))
  have s1 : m • P + P = (m + 1) • P := by rw [add_smul, one_smul]
  have s2 : m • P - P = (m - 1) • P := by
    obtain ⟨k, rfl⟩ := Nat.exists_eq_add_of_le' (show 1 ≤ m by omega)
    rw [add_smul, one_smul, Nat.add_sub_cancel, add_sub_cancel_right]
  have s3 : P + P = 2 • P := (two_smul ℕ P).symm
  rw [s1, s2] at e1
  rw [s3] at e2
  have : bq a b (xc (m • P)) (xc P) (xc P) = bq a b (xc P) (xc P) (xc (m • P)) := by
    unfold bq; ring
  rw [this, ← e2] at e1
  linear_combination e1

/-- The elliptic relation for the sequence `w`. -/
theorem w_rel : ∀ (n : ℕ), n ≠ 0 → ∀ k : ℕ, k ≠ 0 →
    w P (2 * n + k) * w P k = (xc (n • P) - xc ((n + k) • P)) * w P (n + k) ^ 2 * w P n ^ 2 := by
  intro n
  induction n using Nat.strong_induction_on with
  | _ n ih =>
    intro hn k hk
    rcases Nat.lt_or_ge n 2 with h | h
    · obtain rfl : n = 1 := by omega
      have := w_step h2 hP k hk
      rw [one_smul, show 2 * 1 + k = k + 2 by ring, this, show 1 + k = k + 1 by ring]
      simp [w]
    · rcases Nat.lt_or_ge n 3 with h' | h'
      · obtain rfl : n = 2 := by omega
        have s1 := w_step h2 hP k hk
        have s2 := w_step h2 hP (k + 2) (by omega)
        have s3 := w_step h2 hP (k + 1) (by omega)
        have s4 := two_case h2 hP (m := k + 2) (by omega)
        have hne := w_ne h2 hP (k + 2) (by omega)
        apply mul_right_cancel₀ (pow_ne_zero 2 hne)
        simp only [show k + 2 + 1 = k + 3 from rfl, show k + 2 - 1 = k + 1 from rfl, show k + 2 + 2 = k + 4 from rfl,
          show k + 1 + 2 = k + 3 from rfl, show k + 1 + 1 = k + 2 from rfl] at *
        rw [show 2 * 2 + k = k + 4 by ring, show 2 + k = k + 2 by ring, show w P 2 = 2 * yc P from rfl]
        have : w P (k + 4) * w P k * w P (k + 2) ^ 2 = (w P (k + 4) * w P (k + 2)) * (w P (k + 2) * w P k) := by ring
        rw [this, s1, s2]
        have : (xc P - xc ((k + 3) • P)) * w P (k + 3) ^ 2 * ((xc P - xc ((k + 1) • P)) * w P (k + 1) ^ 2)
          = (xc P - xc ((k + 3) • P)) * (xc P - xc ((k + 1) • P)) * (w P (k + 3) * w P (k + 1)) ^ 2 := by ring
        rw [this, s3]
        linear_combination w P (k + 2) ^ 4 * s4
      · obtain ⟨n, rfl⟩ := Nat.exists_eq_add_of_le' (show 1 ≤ n by omega)
        have s1 := w_step h2 hP (2 * n + k) (by omega)
        have s2 := w_step h2 hP k hk
        have s3 := w_step h2 hP (n - 1) (by omega)
        have i1 := ih n (by omega) (by omega) (k + 1) (by omega)
        have i2 := ih (n - 1) (by omega) (by omega) (k + 2) (by omega)
        have f := five h2 hP (n := n) (m := n + k + 1) (by omega) (by omega)
        rw [show n - 1 + 2 = n + 1 by omega, show n - 1 + 1 = n by omega] at s3
        rw [show 2 * (n - 1) + (k + 2) = 2 * n + k by omega, show n - 1 + (k + 2) = n + k + 1 by omega] at i2
        rw [show 2 * n + (k + 1) = 2 * n + k + 1 by omega, show n + (k + 1) = n + k + 1 by omega] at i1
        rw [show n + k + 1 + n = 2 * n + k + 1 by omega, show n + k + 1 - n = k + 1 by omega] at f
        rw [show 2 * (n + 1) + k = 2 * n + k + 2 by omega, show n + 1 + k = n + k + 1 by omega]
        have hne : w P (2 * n + k) * w P (k + 2) ≠ 0 :=
          mul_ne_zero (w_ne h2 hP _ (by omega)) (w_ne h2 hP _ (by omega))
        apply mul_right_cancel₀ hne
        have e1 : w P (2 * n + k + 2) * w P k * (w P (2 * n + k) * w P (k + 2))
          = (w P (2 * n + k + 2) * w P (2 * n + k)) * (w P (k + 2) * w P k) := by ring
        rw [e1, s1, s2]
        have e2 : (xc P - xc ((2 * n + k + 1) • P)) * w P (2 * n + k + 1) ^ 2 *
            ((xc P - xc ((k + 1) • P)) * w P (k + 1) ^ 2)
          = (xc P - xc ((2 * n + k + 1) • P)) * (xc P - xc ((k + 1) • P)) *
            (w P (2 * n + k + 1) * w P (k + 1)) ^ 2 := by ring
        rw [e2, i1, i2]
        have e3 : (xc ((n + 1) • P) - xc ((n + k + 1) • P)) * w P (n + k + 1) ^ 2 * w P (n + 1) ^ 2 *
            ((xc ((n - 1) • P) - xc ((n + k + 1) • P)) * w P (n + k + 1) ^ 2 * w P (n - 1) ^ 2)
          = (xc ((n + 1) • P) - xc ((n + k + 1) • P)) * (xc ((n - 1) • P) - xc ((n + k + 1) • P)) *
            w P (n + k + 1) ^ 4 * (w P (n + 1) * w P (n - 1)) ^ 2 := by ring
        rw [e3, s3]
        linear_combination -(w P (n + k + 1) ^ 4 * w P n ^ 4) * f

theorem w_odd (m : ℕ) (hm : 2 ≤ m) :
    w P (2 * m + 1) = w P (m + 2) * w P m ^ 3 - w P (m - 1) * w P (m + 1) ^ 3 := by
  have e := w_rel h2 hP m (by omega) 1 one_ne_zero
  have s1 := w_step h2 hP m (by omega)
  have s2 := w_step h2 hP (m - 1) (by omega)
  rw [show m - 1 + 2 = m + 1 by omega, show m - 1 + 1 = m by omega] at s2
  rw [show w P 1 = 1 from rfl, mul_one] at e
  rw [e]
  linear_combination w P (m + 1) ^ 2 * s2 - w P m ^ 2 * s1

theorem w_even (m : ℕ) (hm : 3 ≤ m) :
    w P (2 * m) * (2 * yc P) = w P (m - 1) ^ 2 * w P m * w P (m + 2) - w P (m - 2) * w P m * w P (m + 1) ^ 2 := by
  have e := w_rel h2 hP (m - 1) (by omega) 2 two_ne_zero
  have s1 := w_step h2 hP m (by omega)
  have s2 := w_step h2 hP (m - 2) (by omega)
  rw [show m - 2 + 2 = m by omega, show m - 2 + 1 = m - 1 by omega] at s2
  rw [show w P 2 = 2 * yc P from rfl, show 2 * (m - 1) + 2 = 2 * m by omega, show m - 1 + 2 = m + 1 by omega] at e
  rw [e]
  linear_combination w P (m + 1) ^ 2 * s2 - w P (m - 1) ^ 2 * s1

theorem w_three : w P 3 = psi3 a b (xc P) := by
  have hP0 := hP.ne h2
  have hy := hP.yne h2 (m := 1) one_ne_zero
  rw [one_smul] at hy
  have e := xc_double h2 hP0 hy
  have h := eqn hP0
  rw [← two_smul ℕ P] at e
  have : w P 3 = (xc P - xc (2 • P)) * (2 * yc P) ^ 2 := by
    rw [show (3 : ℕ) = 0 + 3 from rfl, w]; simp [w]
  rw [this, sub_mul, e, psi3]
  linear_combination 12 * xc P * h

theorem w_four : w P 4 = psi4 a b (xc P) * (2 * yc P) := by
  have hP0 := hP.ne h2
  have hy := hP.yne h2 (m := 1) one_ne_zero
  rw [one_smul] at hy
  have e := xc_double h2 hP0 hy
  rw [← two_smul ℕ P] at e
  have s := w_step h2 hP 2 two_ne_zero
  have hx2 := hP.xne1 h2 (m := 2) le_rfl
  have e3 := xc_add (A := 2 • P) (B := P) (hP 2 two_ne_zero) hP0 (fun e => hx2 (by rw [e, sub_self]))
  have e3' := yc_double h2 hP0 hy
  rw [← two_smul ℕ P] at e3'
  rw [show 2 • P + P = (2 + 1) • P by rw [add_smul, one_smul]] at e3
  have w3 := w_three h2 hP
  have h := eqn hP0
  rw [show w P 2 = 2 * yc P from rfl, show 2 + 2 = 4 from rfl, w3] at s
  have hD : (xc P - xc (2 • P)) * (2 * yc P) ^ 2 = psi3 a b (xc P) := by
    rw [← w3, show (3 : ℕ) = 0 + 3 from rfl, w]; simp [w]
  generalize hc : psi3 a b (xc P) = c at *
  generalize xc ((2 + 1) • P) = x3 at *
  generalize xc (2 • P) = x2 at *
  generalize yc (2 • P) = y2 at *
  have hy' : (2 * yc P) ^ 3 ≠ 0 := pow_ne_zero _ (mul_ne_zero h2 hy)
  apply mul_right_cancel₀ hy'
  have k0 : w P 4 * (2 * yc P) ^ 3 = ((xc P - x3) * c ^ 2) * (2 * yc P) ^ 2 := by rw [← s]; ring
  have k1 : (xc P - x3) * c ^ 2 = (2 * yc P) ^ 4 * ((2 * xc P + x2) * (xc P - x2) ^ 2 - (y2 - yc P) ^ 2) := by
    rw [← hD]; linear_combination -(2 * yc P) ^ 4 * e3
  have k2 : (y2 - yc P) * (2 * yc P) = (3 * xc P ^ 2 + a) * (xc P - x2) - (2 * yc P) ^ 2 := by
    linear_combination e3'
  have k3 : (xc P - x3) * c ^ 2 * (2 * yc P) ^ 2 = 3 * xc P * c ^ 2 * (2 * yc P) ^ 2 - c ^ 3
      - ((3 * xc P ^ 2 + a) * c - (2 * yc P) ^ 4) ^ 2 := by
    rw [k1, ← hD]
    linear_combination -(2 * yc P) ^ 4 * ((y2 - yc P) * (2 * yc P) + ((3 * xc P ^ 2 + a) * (xc P - x2) - (2 * yc P) ^ 2)) * k2
  rw [k0, k3, ← hc, psi3, psi4]
  have y4 : yc P ^ 4 = (xc P ^ 3 + a * xc P + b) ^ 2 := by rw [← h]; ring
  have y8 : yc P ^ 8 = (xc P ^ 3 + a * xc P + b) ^ 4 := by rw [← h]; ring
  ring_nf
  rw [y8, y4, h]
  ring

theorem w_eq_ps (n : ℕ) : w P n = ps a b (xc P) (yc P) n := by
  have hy := hP.yne h2 (m := 1) one_ne_zero
  rw [one_smul] at hy
  have hy2 : 2 * yc P ≠ 0 := mul_ne_zero h2 hy
  induction n using normEDSRec' with
  | zero => simp [w, ps]
  | one => simp [w, ps]
  | two => simp [w, ps]
  | three => rw [w_three h2 hP, ps]; exact (normEDS_three _ _ _).symm
  | four => rw [w_four h2 hP, ps]; exact (normEDS_four _ _ _).symm
  | even m ih =>
    apply mul_right_cancel₀ hy2
    rw [w_even h2 hP _ (by omega), ih _ (by omega), ih _ (by omega), ih _ (by omega), ih _ (by omega),
      ih _ (by omega)]
    have := normEDS_even (2 * yc P) (psi3 a b (xc P)) (psi4 a b (xc P)) (m + 3)
    simp only [ps]
    rw [show ((m + 3 - 1 : ℕ) : ℤ) = (m : ℤ) + 3 - 1 by omega, show ((m + 3 - 2 : ℕ) : ℤ) = (m : ℤ) + 3 - 2 by omega]
    push_cast at this ⊢
    rw [this]
  | odd m ih =>
    rw [w_odd h2 hP _ (by omega), ih _ (by omega), ih _ (by omega), ih _ (by omega), ih _ (by omega)]
    have := normEDS_odd (2 * yc P) (psi3 a b (xc P)) (psi4 a b (xc P)) (m + 2)
    simp only [ps]
    push_cast at this ⊢
    rw [this]
    congr 3
    congr 1
    omega

/-- The elliptic relation at a point of infinite order. -/
theorem ps_rel (n k : ℕ) (hn : n ≠ 0) (hk : k ≠ 0) :
    ps a b (xc P) (yc P) (2 * n + k) * ps a b (xc P) (yc P) k =
      ps a b (xc P) (yc P) (n + k + 1) * ps a b (xc P) (yc P) (n + k - 1) * ps a b (xc P) (yc P) n ^ 2 -
      ps a b (xc P) (yc P) (n + 1) * ps a b (xc P) (yc P) (n - 1) * ps a b (xc P) (yc P) (n + k) ^ 2 := by
  have key : ∀ m : ℕ, m ≠ 0 → ps a b (xc P) (yc P) (m + 1) * ps a b (xc P) (yc P) (m - 1)
      = (xc P - xc (m • P)) * ps a b (xc P) (yc P) m ^ 2 := by
    intro m hm
    rcases Nat.lt_or_ge m 2 with h | h
    · obtain rfl : m = 1 := by omega
      simp [ps]
    · have := w_step h2 hP (m - 1) (by omega)
      rw [show m - 1 + 2 = m + 1 by omega, show m - 1 + 1 = m by omega] at this
      simp only [w_eq_ps h2 hP] at this
      push_cast [Nat.cast_sub (show 1 ≤ m by omega)] at this
      exact this
  have e := w_rel h2 hP n hn k hk
  simp only [w_eq_ps h2 hP] at e
  have k1 := key n hn
  have k2 := key (n + k) (by omega)
  push_cast at e k1 k2
  rw [e, k1, k2]
  ring

/-- The recursion for the `x`-coordinates at a point of infinite order. -/
theorem ps_x (m : ℕ) (hm : 2 ≤ m) :
    2 * xc P * (ps a b (xc P) (yc P) (m + 1) * ps a b (xc P) (yc P) (m - 1)) ^ 2
      - ps a b (xc P) (yc P) (m + 2) * ps a b (xc P) (yc P) m * ps a b (xc P) (yc P) (m - 1) ^ 2
      - ps a b (xc P) (yc P) m * ps a b (xc P) (yc P) (m - 2) * ps a b (xc P) (yc P) (m + 1) ^ 2
    = 2 * (a * ps a b (xc P) (yc P) m ^ 2 + xc P * (xc P * ps a b (xc P) (yc P) m ^ 2 -
          ps a b (xc P) (yc P) (m + 1) * ps a b (xc P) (yc P) (m - 1)))
        * (2 * xc P * ps a b (xc P) (yc P) m ^ 2 - ps a b (xc P) (yc P) (m + 1) * ps a b (xc P) (yc P) (m - 1))
      + 4 * b * ps a b (xc P) (yc P) m ^ 4 := by
  have hP0 := hP.ne h2
  have key : ∀ m : ℕ, m ≠ 0 → ps a b (xc P) (yc P) (m + 1) * ps a b (xc P) (yc P) (m - 1)
      = (xc P - xc (m • P)) * ps a b (xc P) (yc P) m ^ 2 := by
    intro m hm
    rcases Nat.lt_or_ge m 2 with h | h
    · obtain rfl : m = 1 := by omega
      simp [ps]
    · have := w_step h2 hP (m - 1) (by omega)
      rw [show m - 1 + 2 = m + 1 by omega, show m - 1 + 1 = m by omega] at this
      simp only [w_eq_ps h2 hP] at this
      push_cast [Nat.cast_sub (show 1 ≤ m by omega)] at this
      exact this
  have k0 := key m (by omega)
  have k1 := key (m + 1) (by omega)
  have k2 := key (m - 1) (by omega)
  push_cast [Nat.cast_sub (show 1 ≤ m by omega)] at k1 k2
  rw [show (m : ℤ) + 1 + 1 = m + 2 by ring, show (m : ℤ) + 1 - 1 = m by ring] at k1
  rw [show (m : ℤ) - 1 + 1 = m by ring, show (m : ℤ) - 1 - 1 = m - 2 by ring] at k2
  have hx : xc (m • P) ≠ xc P := fun e => hP.xne1 h2 hm (by rw [e, sub_self])
  have e1 := xc_add (hP m (by omega)) hP0 hx
  have e2 := xc_add (A := m • P) (B := -P) (hP m (by omega)) (by simpa using hP0) (by rwa [xc_neg])
  rw [xc_neg, yc_neg, ← sub_eq_add_neg, show m • P - P = (m - 1) • P by
    obtain ⟨k, rfl⟩ := Nat.exists_eq_add_of_le' (show 1 ≤ m by omega)
    rw [add_smul, one_smul, Nat.add_sub_cancel, add_sub_cancel_right]] at e2
  rw [show m • P + P = (m + 1) • P by rw [add_smul, one_smul]] at e1
  have hA := eqn (hP m (by omega))
  have hB := eqn hP0
  rw [k1, k2, k0]
  generalize ps a b (xc P) (yc P) (m + 1) = s at *
  generalize ps a b (xc P) (yc P) (m - 1) = t at *
  generalize ps a b (xc P) (yc P) m = u at *
  have q : 2 * xc P * ((xc P - xc (m • P)) * u ^ 2) ^ 2 - (xc P - xc ((m + 1) • P)) * s ^ 2 * t ^ 2
      - (xc P - xc ((m - 1) • P)) * t ^ 2 * s ^ 2
      = (xc ((m + 1) • P) + xc ((m - 1) • P)) * (xc (m • P) - xc P) ^ 2 * u ^ 4 := by
    linear_combination (-(xc P - xc ((m + 1) • P)) - (xc P - xc ((m - 1) • P))) *
      (s * t + (xc P - xc (m • P)) * u ^ 2) * k0
  rw [q]
  linear_combination u ^ 4 * e1 + u ^ 4 * e2 + 2 * u ^ 4 * hA + 2 * u ^ 4 * hB

end
end EC.EDS
