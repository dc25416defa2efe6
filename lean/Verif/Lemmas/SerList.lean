import Verif.Spec.QSeries
import Verif.Lemmas.Laurent

/-! Truncated power series as lists of coefficients: a way to check the low-order terms of `Φ(j(q), j(q^p))` with little
computation. -/

namespace EC.SerList

open PowerSeries

/-- The polynomial with the listed coefficients. -/
noncomputable def ser : List ℤ → ℤ⟦X⟧
  | [] => 0
  | a :: l => C a + X * ser l

theorem coeff_ser : ∀ (l : List ℤ) (n : ℕ), coeff n (ser l) = l.getD n 0
  | [], n => by simp [ser]
  | a :: l, 0 => by simp [ser]
  | a :: l, n + 1 => by
    rw [ser, map_add, coeff_succ_X_mul, coeff_ser l n, coeff_C, if_neg (by omega), zero_add]
    rfl

/-- `f` has the listed coefficients up to `X^(N-1)`. -/
def Rep (N : ℕ) (l : List ℤ) (f : ℤ⟦X⟧) : Prop := (X ^ N : ℤ⟦X⟧) ∣ f - ser l

theorem rep_iff {N : ℕ} {l : List ℤ} {f : ℤ⟦X⟧} : Rep N l f ↔ ∀ n < N, coeff n f = l.getD n 0 := by
  unfold Rep
  rw [X_pow_dvd_iff]
  simp only [map_sub, coeff_ser, sub_eq_zero]

def addL : List ℤ → List ℤ → List ℤ
  | [], m => m
  | l, [] => l
  | a :: l, b :: m => (a + b) :: addL l m

theorem ser_addL : ∀ l m, ser (addL l m) = ser l + ser m
  | [], m => by simp [addL, ser]
  | a :: l, [] => by simp [addL, ser]
  | a :: l, b :: m => by
    rw [addL, ser, ser, ser, ser_addL l m, map_add]; ring

def scale (c : ℤ) (l : List ℤ) : List ℤ := l.map (c * ·)

theorem ser_scale (c : ℤ) : ∀ l, ser (scale c l) = C c * ser l
  | [] => by simp [scale, ser]
  | a :: l => by
    have := ser_scale c l
    unfold scale at this ⊢
    rw [List.map_cons, ser, ser, this, map_mul]; ring

def shift (k : ℕ) (l : List ℤ) : List ℤ := List.replicate k 0 ++ l

theorem ser_shift (l : List ℤ) : ∀ k, ser (shift k l) = X ^ k * ser l
  | 0 => by simp [shift]
  | k + 1 => by
    have := ser_shift l k
    unfold shift at this ⊢
    rw [List.replicate_succ, List.cons_append, ser, this, map_zero]; ring

theorem ser_take (l : List ℤ) (N : ℕ) : (X ^ N : ℤ⟦X⟧) ∣ ser l - ser (l.take N) := by
  rw [X_pow_dvd_iff]
  intro m hm
  rw [map_sub, coeff_ser, coeff_ser, sub_eq_zero]
  simp [List.getD_eq_getElem?_getD, List.getElem?_take, hm]

def mulT : ℕ → List ℤ → List ℤ → List ℤ
  | 0, _, _ => []
  | _ + 1, [], _ => []
  | n + 1, a :: l, m => addL (scale a (m.take (n + 1))) (0 :: mulT n l m)

theorem ser_mulT : ∀ (n : ℕ) (l m : List ℤ), (X ^ n : ℤ⟦X⟧) ∣ ser l * ser m - ser (mulT n l m)
  | 0, _, _ => by simp
  | n + 1, [], m => by simp [mulT, ser]
  | n + 1, a :: l, m => by
    obtain ⟨r, hr⟩ := ser_mulT n l m
    obtain ⟨s, hs⟩ := ser_take m (n + 1)
    rw [mulT, ser_addL, ser_scale, ser, ser, map_zero, zero_add]
    refine ⟨C a * s + r, ?_⟩
    linear_combination C a * hs + X * hr

theorem Rep.add {N : ℕ} {l m : List ℤ} {f g : ℤ⟦X⟧} (h : Rep N l f) (h' : Rep N m g) : Rep N (addL l m) (f + g) := by
  obtain ⟨r, hr⟩ := h
  obtain ⟨s, hs⟩ := h'
  exact ⟨r + s, by rw [ser_addL]; linear_combination hr + hs⟩

theorem Rep.scale {N : ℕ} {l : List ℤ} {f : ℤ⟦X⟧} (c : ℤ) (h : Rep N l f) : Rep N (scale c l) (C c * f) := by
  obtain ⟨r, hr⟩ := h
  exact ⟨C c * r, by rw [ser_scale]; linear_combination C c * hr⟩

theorem Rep.mul {N : ℕ} {l m : List ℤ} {f g : ℤ⟦X⟧} (h : Rep N l f) (h' : Rep N m g) : Rep N (mulT N l m) (f * g) := by
  obtain ⟨r, hr⟩ := h
  obtain ⟨s, hs⟩ := h'
  obtain ⟨t, ht⟩ := ser_mulT N l m
  exact ⟨f * s + r * ser m + t, by linear_combination f * hs + ser m * hr + ht⟩

theorem Rep.shift {N : ℕ} {l : List ℤ} {f : ℤ⟦X⟧} (k : ℕ) (h : Rep N l f) : Rep N (shift k l) (X ^ k * f) := by
  obtain ⟨r, hr⟩ := h
  exact ⟨X ^ k * r, by rw [ser_shift]; linear_combination X ^ k * hr⟩

theorem Rep.take {N : ℕ} {l : List ℤ} {f : ℤ⟦X⟧} (h : Rep N l f) : Rep N (l.take N) f := by
  obtain ⟨r, hr⟩ := h
  obtain ⟨s, hs⟩ := ser_take l N
  exact ⟨r + s, by linear_combination hr + hs⟩

theorem rep_one (N : ℕ) : Rep N [1] 1 := ⟨0, by simp [ser]⟩

/-! ### `∏ (1 - q^k)^24` -/

def subShift (N k : ℕ) (l : List ℤ) : List ℤ := (addL l (scale (-1) (shift k l))).take N

theorem Rep.subShift {N : ℕ} {l : List ℤ} {f : ℤ⟦X⟧} (k : ℕ) (h : Rep N l f) :
    Rep N (subShift N k l) (f * (1 - X ^ k)) := by
  have := (h.add ((h.shift k).scale (-1))).take
  have e : f + C (-1) * (X ^ k * f) = f * (1 - X ^ k) := by simp; ring
  rwa [e] at this

def deltaL (N : ℕ) : ℕ → List ℤ
  | 0 => [1]
  | k + 1 => Nat.iterate (subShift N (k + 1)) 24 (deltaL N k)

theorem Rep.iterate {N : ℕ} (k : ℕ) : ∀ (i : ℕ) {l : List ℤ} {f : ℤ⟦X⟧}, Rep N l f →
    Rep N ((EC.SerList.subShift N k)^[i] l) (f * (1 - X ^ k) ^ i)
  | 0, l, f, h => by simpa using h
  | i + 1, l, f, h => by
    rw [Function.iterate_succ_apply]
    have := Rep.iterate k i (h.subShift k)
    rwa [mul_assoc, ← pow_succ'] at this

theorem rep_prodDelta (N : ℕ) : ∀ k, Rep N (deltaL N k) (prodDelta k)
  | 0 => by simpa [prodDelta, deltaL] using rep_one N
  | k + 1 => by
    rw [prodDelta_succ]
    exact (rep_prodDelta N k).iterate (k + 1) 24

theorem rep_delta (N : ℕ) : Rep N (deltaL N N) seriesDelta := by
  rw [rep_iff]
  intro n hn
  rw [← coeff_prodDelta hn.le]
  exact rep_iff.1 (rep_prodDelta N N) n hn

/-! ### `q j(q)` -/

theorem rep_J1 {N : ℕ} {E L : List ℤ} (hE : ∀ n < N, E.getD n 0 = if n = 0 then 1 else 240 * ((∑ d ∈ n.divisors, d ^ 3 : ℕ) : ℤ))
    (h : mulT N L (deltaL N N) = mulT N (mulT N E E) E) : Rep N L seriesJ1 := by
  have h4 : Rep N E seriesE4 := by
    rw [rep_iff]
    intro n hn
    rw [hE n hn]
    simp [seriesE4, ArithmeticFunction.sigma_apply]
  have hE3 := (h4.mul h4).mul h4
  obtain ⟨r, hr⟩ := hE3
  obtain ⟨s, hs⟩ := rep_delta N
  obtain ⟨t, ht⟩ := ser_mulT N L (deltaL N N)
  rw [h] at ht
  have hu : seriesDelta * invOfUnit seriesDelta 1 = 1 :=
    PowerSeries.mul_invOfUnit seriesDelta 1 (by simp [constantCoeff_seriesDelta])
  refine ⟨(r - t - ser L * s) * invOfUnit seriesDelta 1, ?_⟩
  have hJ := seriesJ1_mul
  linear_combination (seriesJ1 - ser L) * (-hu) + invOfUnit seriesDelta 1 * (hJ + hr - ht - ser L * hs)

/-! ### `j(q)` and `j(q^p)` as Laurent series -/

/-- The substitution `q ↦ q^p` of power series. -/
noncomputable def psPow (p : ℕ) (f : ℤ⟦X⟧) : ℤ⟦X⟧ := mk fun n => if p ∣ n then coeff (n / p) f else 0

def spread (p N : ℕ) (l : List ℤ) : List ℤ := (List.range N).map fun n => if n % p = 0 then l.getD (n / p) 0 else 0

theorem Rep.spread {p N : ℕ} {l : List ℤ} {f : ℤ⟦X⟧} (h : Rep N l f) : Rep N (spread p N l) (psPow p f) := by
  rw [rep_iff] at h ⊢
  intro n hn
  unfold EC.SerList.spread psPow
  rw [coeff_mk]
  simp only [List.getD_eq_getElem?_getD, List.getElem?_map, List.getElem?_range hn, Option.map_some, Option.getD_some,
    Nat.dvd_iff_mod_eq_zero]
  split_ifs
  · rw [h _ (lt_of_le_of_lt (Nat.div_le_self _ _) hn), List.getD_eq_getElem?_getD]
  · rfl

theorem qPow_ofPowerSeries {p : ℕ} (hp : 0 < p) (f : ℤ⟦X⟧) :
    qPow p hp (HahnSeries.ofPowerSeries ℤ ℤ f) = HahnSeries.ofPowerSeries ℤ ℤ (psPow p f) := by
  have hneg : ∀ (g : ℤ⟦X⟧) (n : ℤ), n < 0 → (HahnSeries.ofPowerSeries ℤ ℤ g).coeff n = 0 := by
    intro g n hn
    rw [HahnSeries.ofPowerSeries_apply]
    apply HahnSeries.embDomain_of_notMem_range
    rintro ⟨k, hk⟩
    simp at hk
    omega
  ext n
  by_cases hd : (p : ℤ) ∣ n
  · obtain ⟨k, rfl⟩ := hd
    rw [qPow_coeff_mul]
    by_cases hk : k < 0
    · rw [hneg _ _ hk, hneg]
      exact mul_neg_of_pos_of_neg (by omega) hk
    · obtain ⟨m, rfl⟩ := Int.eq_ofNat_of_zero_le (not_lt.1 hk)
      rw [← Int.natCast_mul]
      rw [HahnSeries.ofPowerSeries_apply_coeff, HahnSeries.ofPowerSeries_apply_coeff]
      unfold psPow
      rw [coeff_mk, if_pos (dvd_mul_right _ _), Nat.mul_div_cancel_left _ hp]
  · rw [qPow_coeff_of_not_dvd hp _ hd]
    by_cases hn : n < 0
    · rw [hneg _ _ hn]
    · obtain ⟨m, rfl⟩ := Int.eq_ofNat_of_zero_le (not_lt.1 hn)
      rw [HahnSeries.ofPowerSeries_apply_coeff]
      unfold psPow
      rw [coeff_mk, if_neg (fun h => hd (Int.natCast_dvd_natCast.2 h))]

theorem Rep.mono {N N' : ℕ} {l : List ℤ} {f : ℤ⟦X⟧} (h : Rep N l f) (hN : N' ≤ N) : Rep N' l f :=
  (pow_dvd_pow _ hN).trans h

theorem Rep.shift' {N : ℕ} {l : List ℤ} {f : ℤ⟦X⟧} (k : ℕ) (h : Rep N l f) : Rep (k + N) (EC.SerList.shift k l) (X ^ k * f) := by
  obtain ⟨r, hr⟩ := h
  exact ⟨r, by rw [ser_shift]; linear_combination X ^ k * hr⟩

/-- The sum of the terms `c X^i Y^j` for `(i, j, c)` in the list, with the given powers of `q j(q)` and `q^p j(q^p)`. -/
def termSum (p M : ℕ) (U W : ℕ → List ℤ) : List (ℕ × ℕ × ℤ) → List ℤ
  | [] => []
  | t :: T => addL (scale t.2.2 (shift (M - (t.1 + p * t.2.1)) (mulT (t.1 + p * t.2.1 + 1) (U t.1) (W t.2.1))))
      (termSum p M U W T)

theorem single_pow (a : ℤ) (n : ℕ) : (HahnSeries.single a (1 : ℤ) : LaurentSeries ℤ) ^ n = HahnSeries.single (n * a) 1 := by
  rw [HahnSeries.single_pow]; simp

theorem rep_termSum {p M : ℕ} (hp : 0 < p) {U W : ℕ → List ℤ} : ∀ (T : List (ℕ × ℕ × ℤ)),
    (∀ t ∈ T, t.1 + p * t.2.1 ≤ M ∧ Rep (M + 1) (U t.1) (seriesJ1 ^ t.1) ∧ Rep (M + 1) (W t.2.1) (psPow p seriesJ1 ^ t.2.1)) →
    ∃ G : ℤ⟦X⟧, Rep (M + 1) (termSum p M U W T) G ∧
      (T.map fun t => t.2.2 • (jLaurent ^ t.1 * qPow p hp jLaurent ^ t.2.1)).sum =
        HahnSeries.single (-(M : ℤ)) 1 * HahnSeries.ofPowerSeries ℤ ℤ G
  | [], _ => ⟨0, by simp [termSum, Rep, ser], by simp⟩
  | t :: T, h => by
    obtain ⟨G, h1, h2⟩ := rep_termSum hp T fun t ht => h t (List.mem_cons_of_mem _ ht)
    obtain ⟨hM, hU, hW⟩ := h t List.mem_cons_self
    obtain ⟨i, j, c⟩ := t
    simp only at hM hU hW
    refine ⟨C c * (X ^ (M - (i + p * j)) * (seriesJ1 ^ i * psPow p seriesJ1 ^ j)) + G, ?_, ?_⟩
    · rw [termSum]
      refine Rep.add ?_ h1
      have := ((hU.mono (N' := i + p * j + 1) (by omega)).mul (hW.mono (N' := i + p * j + 1) (by omega))).shift' (M - (i + p * j))
      have e : M - (i + p * j) + (i + p * j + 1) = M + 1 := by omega
      rw [e] at this
      exact this.scale c
    · rw [List.map_cons, List.sum_cons, h2, map_add, mul_add]
      congr 1
      unfold jLaurent
      rw [map_mul, qPow_single, qPow_ofPowerSeries, mul_pow, mul_pow, single_pow, single_pow, map_mul, map_mul, map_mul,
        map_pow, map_pow, map_pow, HahnSeries.ofPowerSeries_X, HahnSeries.ofPowerSeries_C, single_pow]
      rw [show -(M : ℤ) = i * -1 + j * (p * -1) + -((M - (i + p * j) : ℕ) : ℤ) by
        push_cast [Nat.cast_sub hM]; ring]
      have hs : ∀ a b : ℤ, (HahnSeries.single (a + b) (1 : ℤ) : LaurentSeries ℤ) = HahnSeries.single a 1 * HahnSeries.single b 1 := by
        intro a b; rw [HahnSeries.single_mul_single, mul_one]
      have hc : (HahnSeries.single (-((M - (i + p * j) : ℕ) : ℤ)) (1 : ℤ) : LaurentSeries ℤ) *
          HahnSeries.single (((M - (i + p * j) : ℕ) : ℤ) * 1) 1 = 1 := by
        rw [HahnSeries.single_mul_single, mul_one, mul_one, neg_add_cancel]; rfl
      have hC : (HahnSeries.C c : LaurentSeries ℤ) = (c : LaurentSeries ℤ) := by
        simpa using map_intCast (HahnSeries.C : ℤ →+* LaurentSeries ℤ) c
      rw [hs, hs, zsmul_eq_mul, hC]
      simp only
      linear_combination -(c : LaurentSeries ℤ) * HahnSeries.single ((i : ℤ) * -1) 1 * HahnSeries.single ((j : ℤ) * (p * -1)) 1 *
        HahnSeries.ofPowerSeries ℤ ℤ seriesJ1 ^ i * HahnSeries.ofPowerSeries ℤ ℤ (psPow p seriesJ1) ^ j * hc

/-- If the computed sum is 0 up to `q^M`, the series has no terms of order `≤ 0`. -/
theorem lowOrder_of_termSum {p M : ℕ} (hp : 0 < p) {U W : ℕ → List ℤ} (T : List (ℕ × ℕ × ℤ))
    (hT : ∀ t ∈ T, t.1 + p * t.2.1 ≤ M ∧ Rep (M + 1) (U t.1) (seriesJ1 ^ t.1) ∧
      Rep (M + 1) (W t.2.1) (psPow p seriesJ1 ^ t.2.1))
    (h : (termSum p M U W T).all (· == 0) = true) {f : LaurentSeries ℤ}
    (hf : f = (T.map fun t => t.2.2 • (jLaurent ^ t.1 * qPow p hp jLaurent ^ t.2.1)).sum) : ∀ n ≤ 0, f.coeff n = 0 := by
  obtain ⟨G, h1, h2⟩ := rep_termSum hp T hT
  intro n hn
  rw [hf, h2, HahnSeries.coeff_single_mul, one_mul, sub_neg_eq_add]
  by_cases hm : n + M < 0
  · rw [HahnSeries.ofPowerSeries_apply]
    apply HahnSeries.embDomain_of_notMem_range
    rintro ⟨k, hk⟩
    simp at hk
    omega
  · obtain ⟨m, hm'⟩ := Int.eq_ofNat_of_zero_le (not_lt.1 hm)
    rw [hm', HahnSeries.ofPowerSeries_apply_coeff, rep_iff.1 h1 m (by omega), List.getD_eq_getElem?_getD]
    cases hg : (termSum p M U W T)[m]? with
    | none => rfl
    | some x =>
      have := List.all_eq_true.1 h x (List.mem_of_getElem? hg)
      simpa using this

end EC.SerList
