import Verif.Props.TwoPower
import Verif.Props.BigInt

/-! Property C91: the exact result of `isogeny`. -/

namespace EC
open Poly WeierstrassCurve

/-- The contribution of an affine point to the first sum of `isogeny` (Vélu's `v`), rounded down after division by `p`. -/
def veluV (a p n : ℤ) (P : ECPoint) : ℤ :=
  if P.z = 0 then 0 else (if n % 2 = 1 then 1 else 2) * ((3 * P.x ^ 2 + a) / p)

/-- The contribution of an affine point to the second sum of `isogeny` (Vélu's `w`). -/
def veluW (a p n : ℤ) (P : ECPoint) : ℤ :=
  if P.z = 0 then 0 else (-2 * P.y / p) ^ 2 / p + P.x * veluV a p n P

namespace EllipticCurve
variable {ec : EllipticCurve}

theorem divisionPoints_sublist (n : ℤ) (l : List ECPoint) (hl : ec.divisionPoints n = .ok l) : l.Sublist ec.points := by
  unfold divisionPoints at hl
  have key : ∀ (pts acc l : List ECPoint), pts.foldlM (fun vec P => do
      let R ← ec.multiplyScalar P n
      .ok (if R = ECPoint.infinity then vec ++ [P] else vec)) acc = .ok l → ∃ s, s.Sublist pts ∧ l = acc ++ s := by
    intro pts
    induction pts with
    | nil => intro acc l h; cases h; exact ⟨[], by simp, by simp⟩
    | cons P pts ih =>
      intro acc l h
      rw [List.foldlM_cons] at h
      obtain ⟨x, hx, h⟩ := Res.bind_eq_ok.1 h
      obtain ⟨R, -, hx⟩ := Res.bind_eq_ok.1 hx
      obtain ⟨s, hs, rfl⟩ := ih _ _ h
      simp only [Res.ok.injEq] at hx
      subst hx
      split_ifs
      · exact ⟨P :: s, hs.cons_cons _, by simp⟩
      · exact ⟨s, hs.cons _, rfl⟩
  obtain ⟨s, hs, rfl⟩ := key _ _ _ hl
  simpa using hs

theorem isogeny_fold (hp : 0 < ec.p) (n : ℤ) (l : List ECPoint) (vw : ℤ × ℤ) :
    l.foldlM (ec.isogenyStep (decide (n % 2 = 1))) vw =
      .ok (vw.1 + (l.map (veluV ec.a ec.p n)).sum, vw.2 + (l.map (veluW ec.a ec.p n)).sum) := by
  induction l generalizing vw with
  | nil => simp
  | cons P l ih =>
    rw [List.foldlM_cons]
    have hs : ec.isogenyStep (decide (n % 2 = 1)) vw P = .ok (vw.1 + veluV ec.a ec.p n P, vw.2 + veluW ec.a ec.p n P) := by
      unfold isogenyStep veluW veluV ECPoint.isInfinity
      by_cases hz : P.z = 0
      · simp [hz]
      · simp only [hz, decide_false, Bool.false_eq_true, if_false, divFloor_of hp.ne', Res.ok_bind,
          Int.fdiv_eq_ediv_of_nonneg _ hp.le, show ∀ x : ℤ, power x 2 = x ^ 2 from fun x => C01_power_eq_pow x 2]
        by_cases hn : n % 2 = 1
        · simp [hn, hz]
        · simp [hn, hz, mul_comm]
    rw [hs, Res.ok_bind, ih]
    simp only [List.map_cons, List.sum_cons, add_assoc]

theorem coeffs_of_new {a b p : ℤ} (h : EllipticCurve.new a b p = .ok ec) :
    Nat.Prime p.toNat ∧ p < 2 ^ 64 ∧ ec.a = a ∧ ec.b = b ∧ ec.p = p := by
  by_cases hc : Nat.Prime p.toNat ∧ p < 2 ^ 64
  · rw [new_eq hc.1 hc.2] at h
    cases h
    exact ⟨hc.1, hc.2, rfl, rfl, rfl⟩
  · obtain ⟨w, hw⟩ := C45_new_panics a b p hc
    rw [hw] at h; cases h

/-- **C91.**  The exact result of `isogeny(n)` on every curve, in terms of the points of `division_points(n)`: the sums of
Vélu's formulas, each intermediate value divided by `p` and rounded down (where Vélu's formulas reduce modulo `p`).
(`/` is rounded down, since `p > 0`.) -/
theorem C91_isogeny (a b p : ℤ) (h : EllipticCurve.new a b p = .ok ec) (n : ℤ) (l : List ECPoint)
    (hl : ec.divisionPoints n = .ok l) :
    ec.isogeny n = EllipticCurve.new ((a - 5 * ((l.map (veluV a p n)).sum / p)) / p)
      ((b - 7 * ((l.map (veluW a p n)).sum / p)) / p) p := by
  obtain ⟨hp, -, e1, e2, e3⟩ := coeffs_of_new h
  have hp0 : 0 < ec.p := by rw [e3]; have := hp.two_le; omega
  unfold isogeny
  rw [hl, Res.ok_bind, isogeny_fold hp0]
  rw [e3] at hp0 ⊢
  simp only [Res.ok_bind, divFloor_of hp0.ne', Int.fdiv_eq_ediv_of_nonneg _ hp0.le, zero_add, e1, e2]

/-- **C91.**  `isogeny(n)` returns exactly if `division_points(n)` does, and panics as it does. -/
theorem C91_domain (a b p : ℤ) (h : EllipticCurve.new a b p = .ok ec) (n : ℤ) :
    ((∃ ec', ec.isogeny n = .ok ec') ↔ ∃ l, ec.divisionPoints n = .ok l) ∧
    ∀ w, ec.isogeny n = .panic w ↔ ec.divisionPoints n = .panic w := by
  obtain ⟨hp, hb, e1, e2, e3⟩ := coeffs_of_new h
  cases hl : ec.divisionPoints n with
  | ok l =>
    rw [C91_isogeny a b p h n l hl, new_eq hp hb]
    simp
  | panic w => unfold isogeny; rw [hl]; constructor <;> simp [Bind.bind, Res.bind]
  | timeout => unfold isogeny; rw [hl]; constructor <;> simp [Bind.bind, Res.bind]

theorem veluV_bounds {a p n : ℤ} {P : ECPoint} (hp : 2 ≤ p) (ha : 0 ≤ a ∧ a < p)
    (hx : 0 ≤ P.x ∧ P.x < p) : 0 ≤ veluV a p n P ∧ veluV a p n P ≤ 6 * p := by
  unfold veluV
  split_ifs
  · omega
  all_goals
    have h1 : 0 ≤ (3 * P.x ^ 2 + a) / p := Int.ediv_nonneg (by nlinarith) (by omega)
    have h2 : (3 * P.x ^ 2 + a) / p ≤ 3 * p := by
      apply Int.ediv_le_of_le_mul (by omega)
      nlinarith
    constructor <;> linarith

theorem veluW_bounds {a p n : ℤ} {P : ECPoint} (hp : 5 ≤ p) (ha : 0 ≤ a ∧ a < p)
    (hx : 0 ≤ P.x ∧ P.x < p) (hy : 0 ≤ P.y ∧ P.y < p) : 0 ≤ veluW a p n P ∧ veluW a p n P ≤ 6 * p * p ∧
      veluW a p n P = P.x * veluV a p n P := by
  have hv := veluV_bounds (n := n) (P := P) (by omega) ha hx
  have hw : veluW a p n P = P.x * veluV a p n P := by
    unfold veluW
    split_ifs with hz
    · unfold veluV; rw [if_pos hz, mul_zero]
    · have h1 : -2 ≤ -2 * P.y / p := by
        rw [Int.le_ediv_iff_mul_le (by omega)]; nlinarith
      have h2 : -2 * P.y / p ≤ 0 := Int.ediv_le_of_le_mul (by omega) (by omega)
      have h3 : (-2 * P.y / p) ^ 2 / p = 0 := Int.ediv_eq_zero_of_lt (sq_nonneg _) (by nlinarith)
      rw [h3, zero_add]
  rw [hw]
  refine ⟨mul_nonneg hx.1 hv.1, ?_, rfl⟩
  nlinarith [mul_le_mul hx.2.le hv.2 hv.1 (by omega : (0 : ℤ) ≤ p)]

theorem sum_map_bounds {f : ECPoint → ℤ} {c : ℤ} : ∀ l : List ECPoint, (∀ P ∈ l, 0 ≤ f P ∧ f P ≤ c) →
    0 ≤ (l.map f).sum ∧ (l.map f).sum ≤ l.length * c
  | [], _ => by simp
  | P :: l, h => by
    have h1 := sum_map_bounds l fun Q hQ => h Q (List.mem_cons_of_mem _ hQ)
    have h2 := h P List.mem_cons_self
    simp only [List.map_cons, List.sum_cons, List.length_cons]
    push_cast
    constructor <;> nlinarith

/-- **C91.**  For `0 ≤ a, b < p`, `5 ≤ p` the coefficients of `isogeny(n)` are not reduced: they lie between
`-(30 m / p + 1)` and 0, resp. `-42 m` and 0, where `m` is the number of points of `division_points(n)`.
In particular the coefficient of `x` is 0 or -1 if `30 m ≤ p`. -/
theorem C91_bounds (a b p : ℤ) (h : EllipticCurve.new a b p = .ok ec) (hp5 : 5 ≤ p) (ha : 0 ≤ a ∧ a < p)
    (hb : 0 ≤ b ∧ b < p) (n : ℤ) (l : List ECPoint) (hl : ec.divisionPoints n = .ok l) :
    ∃ ec', ec.isogeny n = .ok ec' ∧ ec'.p = p ∧
      -(30 * l.length / p + 1) ≤ ec'.a ∧ ec'.a ≤ 0 ∧ -(42 * l.length) ≤ ec'.b ∧ ec'.b ≤ 0 ∧
      (30 * l.length ≤ p → ec'.a = 0 ∨ ec'.a = -1) := by
  obtain ⟨hp, hb', e1, e2, e3⟩ := coeffs_of_new h
  obtain ⟨ec0, h0, -, -, -, -, -, -, hm⟩ := C45_new a b p hp hb'
  cases h.symm.trans h0
  have hpts : ∀ P ∈ l, (0 ≤ P.x ∧ P.x < p) ∧ (0 ≤ P.y ∧ P.y < p) := fun P hP => by
    rcases (hm P).1 ((divisionPoints_sublist n l hl).subset hP) with rfl | ⟨h1, h2, -⟩
    · simp only; omega
    · exact ⟨h1, h2⟩
  have hV := sum_map_bounds (f := veluV a p n) (c := 6 * p) l fun P hP => veluV_bounds (by omega) ha (hpts P hP).1
  have hW := sum_map_bounds (f := veluW a p n) (c := 6 * p * p) l fun P hP =>
    ⟨(veluW_bounds hp5 ha (hpts P hP).1 (hpts P hP).2).1, (veluW_bounds hp5 ha (hpts P hP).1 (hpts P hP).2).2.1⟩
  rw [C91_isogeny a b p h n l hl, new_eq hp hb']
  generalize (l.map (veluV a p n)).sum = v at *
  generalize (l.map (veluW a p n)).sum = w at *
  have hp0 : 0 < p := by omega
  have v0 : 0 ≤ v / p := Int.ediv_nonneg hV.1 hp0.le
  have w0 : 0 ≤ w / p := Int.ediv_nonneg hW.1 hp0.le
  have v1 : v / p ≤ 6 * l.length := Int.ediv_le_of_le_mul hp0 (by nlinarith)
  have w1 : w / p ≤ 6 * l.length * p := Int.ediv_le_of_le_mul hp0 (by nlinarith)
  have d1 : p * (30 * (l.length : ℤ) / p) ≤ 30 * l.length := Int.mul_ediv_self_le hp0.ne'
  have d2 : 30 * (l.length : ℤ) < p * (30 * (l.length : ℤ) / p) + p := Int.lt_mul_ediv_self_add hp0
  have ha0 : (a - 5 * (v / p)) / p ≤ 0 := Int.lt_add_one_iff.1 (Int.ediv_lt_of_lt_mul hp0 (by omega))
  refine ⟨_, rfl, rfl, ?_, ha0, ?_, ?_, fun hs => ?_⟩
  · change _ ≤ (a - 5 * (v / p)) / p
    rw [Int.le_ediv_iff_mul_le hp0]
    nlinarith
  · change _ ≤ (b - 7 * (w / p)) / p
    rw [Int.le_ediv_iff_mul_le hp0]
    nlinarith
  · exact Int.lt_add_one_iff.1 (Int.ediv_lt_of_lt_mul hp0 (by omega))
  · have : -1 ≤ (a - 5 * (v / p)) / p := by
      rw [Int.le_ediv_iff_mul_le hp0]
      omega
    change (a - 5 * (v / p)) / p = 0 ∨ (a - 5 * (v / p)) / p = -1
    omega

end EllipticCurve

/-- C91 is met: `y^2 = x^3 + 6x + 2` over GF(7) and the three points of `division_points(3)`: `isogeny(3)` has the
coefficients `-2` and `-27`. -/
example : ∃ ec l, EllipticCurve.new 6 2 7 = .ok ec ∧ ec.divisionPoints 3 = .ok l ∧ l.length = 3 ∧
    (6 - 5 * ((l.map (veluV 6 7 3)).sum / 7)) / 7 = -2 ∧ (2 - 7 * ((l.map (veluW 6 7 3)).sum / 7)) / 7 = -27 := by
  have key : (match EllipticCurve.new 6 2 7 with
      | .ok ec => (match ec.divisionPoints 3 with
        | .ok l => decide (l.length = 3 ∧
            (6 - 5 * ((l.map (veluV 6 7 3)).sum / 7)) / 7 = -2 ∧ (2 - 7 * ((l.map (veluW 6 7 3)).sum / 7)) / 7 = -27)
        | _ => false)
      | _ => false) = true := by decide +kernel
  cases h1 : EllipticCurve.new 6 2 7 with
  | panic w => rw [h1] at key; simp at key
  | timeout => rw [h1] at key; simp at key
  | ok ec =>
    rw [h1] at key
    simp only at key
    cases h2 : ec.divisionPoints 3 with
    | panic w => rw [h2] at key; simp at key
    | timeout => rw [h2] at key; simp at key
    | ok l =>
      rw [h2] at key
      exact ⟨ec, l, rfl, h2, of_decide_eq_true key⟩

end EC
