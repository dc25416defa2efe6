import Verif.Lemmas.JSeries
import Verif.Lemmas.Laurent

/-! The modular polynomial of prime level exists and has integer coefficients. -/

namespace EC
open HahnSeries Finset

/-! ### Laurent series -/

theorem ofPS_expand {p : ℕ} (hp : 0 < p) (f : PowerSeries ℤ) :
    qPow p hp (ofPowerSeries ℤ ℤ f) = ofPowerSeries ℤ ℤ (PowerSeries.expand p hp.ne' f) := by
  have neg : ∀ (g : PowerSeries ℤ) (n : ℤ), n < 0 → (ofPowerSeries ℤ ℤ g).coeff n = 0 := by
    intro g n hn
    rw [HahnSeries.ofPowerSeries_apply]
    apply HahnSeries.embDomain_of_notMem_range
    rintro ⟨k, hk⟩
    simp at hk
    omega
  ext n
  by_cases hn : n < 0
  · rw [neg _ n hn]
    exact qPow_ol hp (m := 0) (fun m hm => neg f m hm) n (by simpa using hn)
  · obtain ⟨k, rfl⟩ := Int.eq_ofNat_of_zero_le (not_lt.1 hn)
    rw [ofPowerSeries_apply_coeff]
    by_cases hd : p ∣ k
    · obtain ⟨m, rfl⟩ := hd
      rw [PowerSeries.coeff_expand_mul]
      push_cast
      rw [qPow_coeff_mul, ofPowerSeries_apply_coeff]
    · rw [PowerSeries.coeff_expand_of_not_dvd _ _ _ hd, qPow_coeff_of_not_dvd]
      exact_mod_cast hd

section
variable {p : ℕ} (hp : 0 < p)

/-- `j(q^p)^m j(q)^i`. -/
noncomputable def wL (m i : ℕ) : LaurentSeries ℤ := qPow p hp jLaurent ^ m * jLaurent ^ i

theorem wL_lead (m i : ℕ) : Lead (-((p : ℤ) * m + i)) (wL hp m i) := by
  have h := ((qPow_lead hp jLaurent_lead).pow m).mul (jLaurent_lead.pow i)
  have e : (m : ℤ) * (p * (-1)) + i * (-1) = -((p : ℤ) * m + i) := by ring
  rwa [e] at h

theorem wL_zero {m i : ℕ} {n : ℤ} (h : n < -((p : ℤ) * m + i)) : (wL hp m i).coeff n = 0 := (wL_lead hp m i).2 n h

theorem wL_eq {m i N : ℕ} (hm : m ≤ N) (hi : i ≤ N) : wL hp m i = single (-((p : ℤ) * N + N)) 1 *
    ofPowerSeries ℤ ℤ (PowerSeries.expand p hp.ne' seriesJ1 ^ m * seriesJ1 ^ i * PowerSeries.X ^ (p * (N - m) + (N - i))) := by
  have hv : qPow p hp jLaurent = single (-(p : ℤ)) 1 * ofPowerSeries ℤ ℤ (PowerSeries.expand p hp.ne' seriesJ1) := by
    unfold jLaurent
    rw [map_mul, ofPS_expand, qPow_single]; simp
  have hs : ∀ (a : ℤ) (k : ℕ), (single a (1 : ℤ)) ^ k = single (k * a) (1 : ℤ) := by
    intro a k; rw [single_pow]; simp
  unfold wL
  rw [hv, mul_pow, hs, map_mul, map_mul, map_pow, map_pow, ofPowerSeries_X_pow]
  conv_lhs => rw [jLaurent, mul_pow, hs]
  have e : (single (-((p : ℤ) * N + N)) (1 : ℤ) : LaurentSeries ℤ) * single (((p * (N - m) + (N - i) : ℕ) : ℤ)) 1 =
      single ((m : ℤ) * -p) 1 * single ((i : ℤ) * -1) 1 := by
    rw [single_mul_single, single_mul_single]
    congr 1
    obtain ⟨a, rfl⟩ := Nat.exists_eq_add_of_le hm
    obtain ⟨b, hb⟩ := Nat.exists_eq_add_of_le hi
    rw [show m + a - m = a by omega, show m + a - i = b by omega]
    have hb' : (m : ℤ) + a = i + b := by exact_mod_cast hb
    push_cast
    rw [show -((p : ℤ) * (m + a) + (m + a)) = -((p : ℤ) * (m + a) + (i + b)) by rw [← hb']]
    ring
  calc _ = single ((m : ℤ) * -p) 1 * single ((i : ℤ) * -1) 1 *
        ((ofPowerSeries ℤ ℤ) (PowerSeries.expand p hp.ne' seriesJ1) ^ m * (ofPowerSeries ℤ ℤ) seriesJ1 ^ i) := by ring
    _ = _ := by rw [← e]; ring

theorem relation_of_formal {N : ℕ} {d : ℕ → ℕ → ℂ}
    (h : ∀ τ, ∑ m ∈ range (N + 1), ∑ i ∈ range (N + 1), d m i * (Jf (mulP p hp τ) ^ m * Jf τ ^ i) = 0) (n : ℤ) :
    ∑ m ∈ range (N + 1), ∑ i ∈ range (N + 1), d m i * (((wL hp m i).coeff n : ℤ) : ℂ) = 0 := by
  have hf := formal_equation hp d N h
  by_cases hn : n < -((p : ℤ) * N + N)
  · refine sum_eq_zero fun m hm => sum_eq_zero fun i hi => ?_
    have h1 : (m : ℤ) ≤ N := by have := mem_range.1 hm; omega
    have h2 : (i : ℤ) ≤ N := by have := mem_range.1 hi; omega
    have h3 : (p : ℤ) * m ≤ p * N := by gcongr
    rw [wL_zero hp (by omega), Int.cast_zero, mul_zero]
  · obtain ⟨k, hk⟩ := Int.eq_ofNat_of_zero_le (show 0 ≤ n + ((p : ℤ) * N + N) by omega)
    have hc := congrArg (PowerSeries.coeff k) hf
    rw [map_sum, map_zero] at hc
    rw [← hc]
    refine sum_congr rfl fun m hm => ?_
    rw [map_sum]
    refine sum_congr rfl fun i hi => ?_
    rw [PowerSeries.coeff_C_mul]
    congr 1
    rw [wL_eq hp (N := N) (by have := mem_range.1 hm; omega) (by have := mem_range.1 hi; omega), coeff_single_mul, one_mul,
      show n - -((p : ℤ) * N + N) = (k : ℤ) by omega, ofPowerSeries_apply_coeff]
    have e : toC (PowerSeries.expand p hp.ne' seriesJ1) ^ m * toC seriesJ1 ^ i * PowerSeries.X ^ (p * (N - m) + (N - i)) =
        toC (PowerSeries.expand p hp.ne' seriesJ1 ^ m * seriesJ1 ^ i * PowerSeries.X ^ (p * (N - m) + (N - i))) := by
      rw [map_mul toC, map_mul toC, map_pow toC, map_pow toC, map_pow toC, PowerSeries.map_X]
    rw [e, PowerSeries.coeff_map]
    rfl

end

/-! ### Triangular systems -/

theorem triangularZ {ι A : Type*} [AddCommGroup A] (S : Finset ι) (a : ι → A) (n : ι → ℤ) (W : ι → ℤ → ℤ) (R : AddSubgroup A)
    (hinj : ∀ s ∈ S, ∀ t ∈ S, n s = n t → s = t)
    (h0 : ∀ t ∈ S, ∀ m < n t, W t m = 0) (h1 : ∀ t ∈ S, W t (n t) = 1)
    (h : ∀ s ∈ S, ∑ t ∈ S, W t (n s) • a t ∈ R) : ∀ s ∈ S, a s ∈ R := by
  classical
  intro s hs
  induction hk : (S.filter fun t => n t < n s).card using Nat.strong_induction_on generalizing s with
  | _ k ih =>
    have hlow : ∀ t ∈ S, n t < n s → a t ∈ R := by
      intro t ht hlt
      refine ih _ ?_ t ht rfl
      rw [← hk]
      refine Finset.card_lt_card ⟨fun r hr => ?_, fun hc => ?_⟩
      · rw [mem_filter] at hr ⊢; exact ⟨hr.1, hr.2.trans hlt⟩
      · have := hc (mem_filter.2 ⟨ht, hlt⟩)
        exact lt_irrefl _ (mem_filter.1 this).2
    have hsum := h s hs
    rw [← Finset.add_sum_erase _ _ hs, h1 s hs, one_zsmul] at hsum
    refine (R.add_mem_cancel_right ?_).1 hsum
    refine R.sum_mem fun t ht => ?_
    obtain ⟨hne, ht⟩ := mem_erase.1 ht
    rcases lt_trichotomy (n t) (n s) with hlt | heq | hgt
    · exact R.zsmul_mem (hlow t ht hlt) (W t (n s))
    · exact absurd (hinj t ht s hs heq) hne
    · rw [h0 t ht _ hgt, zero_zsmul]; exact R.zero_mem

theorem triangular {ι : Type*} (S : Finset ι) (a : ι → ℂ) (n : ι → ℤ) (W : ι → ℤ → ℤ) (R : AddSubgroup ℂ)
    (hinj : ∀ s ∈ S, ∀ t ∈ S, n s = n t → s = t)
    (h0 : ∀ t ∈ S, ∀ m < n t, W t m = 0) (h1 : ∀ t ∈ S, W t (n t) = 1)
    (h : ∀ s ∈ S, ∑ t ∈ S, (W t (n s) : ℂ) * a t ∈ R) : ∀ s ∈ S, a s ∈ R :=
  triangularZ S a n W R hinj h0 h1 fun s hs => by
    have := h s hs
    simpa only [zsmul_eq_mul] using this

/-! ### Sums over squares -/

theorem sum_square {A : Type*} [AddCommGroup A] (N : ℕ) (G : ℕ → ℕ → A) : ∑ m ∈ range N, ∑ i ∈ range N, G m i =
    ∑ i ∈ range N, G i i + ∑ i ∈ range N, ∑ j ∈ Ico (i + 1) N, (G i j + G j i) := by
  induction N with
  | zero => simp
  | succ N ih =>
    have e1 : ∑ i ∈ range (N + 1), ∑ j ∈ Ico (i + 1) (N + 1), (G i j + G j i) =
        ∑ i ∈ range N, ∑ j ∈ Ico (i + 1) N, (G i j + G j i) + ∑ i ∈ range N, (G i N + G N i) := by
      rw [sum_range_succ, Ico_self, sum_empty, add_zero, ← sum_add_distrib]
      refine sum_congr rfl fun i hi => ?_
      rw [sum_Ico_succ_top (by have := mem_range.1 hi; omega)]
    have e2 : ∑ m ∈ range (N + 1), ∑ i ∈ range (N + 1), G m i =
        ∑ m ∈ range N, ∑ i ∈ range N, G m i + ∑ m ∈ range N, G m N + (∑ i ∈ range N, G N i + G N N) := by
      rw [sum_range_succ, sum_range_succ _ N, ← sum_add_distrib]
      congr 1
      exact sum_congr rfl fun m _ => sum_range_succ _ _
    rw [e1, e2, ih, sum_range_succ, sum_add_distrib]
    abel

theorem sum_triangle {A : Type*} [AddCommGroup A] (N : ℕ) (f : ℕ × ℕ → A) :
    ∑ t ∈ (range N ×ˢ range N).filter (fun t => t.1 ≤ t.2), f t =
    ∑ i ∈ range N, f (i, i) + ∑ i ∈ range N, ∑ j ∈ Ico (i + 1) N, f (i, j) := by
  rw [sum_filter, sum_product, ← sum_add_distrib]
  refine sum_congr rfl fun i hi => ?_
  simp only
  rw [← sum_filter]
  have e : (range N).filter (fun j => i ≤ j) = insert i (Ico (i + 1) N) := by
    ext j
    have := mem_range.1 hi
    simp only [mem_filter, mem_range, mem_insert, mem_Ico]
    omega
  rw [e, sum_insert (by simp)]

/-- The index set `0 ≤ i ≤ j ≤ p`. -/
def triSet (p : ℕ) : Finset (ℕ × ℕ) := (range (p + 1) ×ˢ range (p + 1)).filter (fun t => t.1 ≤ t.2)

theorem mem_triSet {p : ℕ} {t : ℕ × ℕ} : t ∈ triSet p ↔ t.1 ≤ t.2 ∧ t.2 ≤ p := by
  unfold triSet
  rw [mem_filter, mem_product, mem_range, mem_range]
  omega

/-- The coefficients of the symmetric monomials `x^i y^j + x^j y^i` and `x^i y^i` at `(j(q), j(q^p))`. -/
noncomputable def triW {p : ℕ} (hp : 0 < p) (t : ℕ × ℕ) (n : ℤ) : ℤ :=
  if t.1 = t.2 then (wL hp t.1 t.1).coeff n else (wL hp t.2 t.1).coeff n + (wL hp t.1 t.2).coeff n

theorem tri_inj {p : ℕ} (hp : 0 < p) : ∀ s ∈ triSet p, ∀ t ∈ triSet p,
    -((p : ℤ) * s.2 + s.1) = -((p : ℤ) * t.2 + t.1) → s = t := by
  rintro ⟨a, b⟩ hs ⟨a', b'⟩ ht h
  obtain ⟨h3, h4⟩ := mem_triSet.1 hs
  obtain ⟨h5, h6⟩ := mem_triSet.1 ht
  simp only at h h3 h4 h5 h6
  have hb : b = b' := by
    by_contra hne
    rcases Nat.lt_or_gt_of_ne hne with hlt | hlt
    · have : (b : ℤ) + 1 ≤ b' := by omega
      have h7 : (p : ℤ) * (b + 1) ≤ p * b' := by gcongr
      have h8 : (a : ℤ) < p := by omega
      nlinarith
    · have : (b' : ℤ) + 1 ≤ b := by omega
      have h7 : (p : ℤ) * (b' + 1) ≤ p * b := by gcongr
      have h8 : (a' : ℤ) < p := by omega
      nlinarith
  subst hb
  have : a = a' := by omega
  rw [this]

theorem tri_zero {p : ℕ} (hp : 2 ≤ p) : ∀ t ∈ triSet p, ∀ m < -((p : ℤ) * t.2 + t.1), triW (by omega : 0 < p) t m = 0 := by
  rintro ⟨a, b⟩ ht m hm
  obtain ⟨h3, h4⟩ := mem_triSet.1 ht
  simp only at hm h3 h4
  unfold triW
  simp only
  split_ifs with hab
  · subst hab; exact wL_zero _ hm
  · have h5 : (0 : ℤ) ≤ (p - 1) * (b - a) := mul_nonneg (by omega) (by omega)
    rw [wL_zero _ hm, wL_zero _ (by nlinarith), add_zero]

theorem tri_one {p : ℕ} (hp : 2 ≤ p) : ∀ t ∈ triSet p, triW (by omega : 0 < p) t (-((p : ℤ) * t.2 + t.1)) = 1 := by
  rintro ⟨a, b⟩ ht
  obtain ⟨h3, h4⟩ := mem_triSet.1 ht
  simp only at h3 h4
  unfold triW
  simp only
  split_ifs with hab
  · subst hab; exact (wL_lead _ _ _).1
  · have h5 : (0 : ℤ) < (p - 1) * (b - a) := mul_pos (by omega) (by omega)
    rw [(wL_lead _ _ _).1, wL_zero _ (by nlinarith), add_zero]

theorem modularAt_coeff {p : ℕ} (hp : 0 < p) (c : ℕ → ℕ → ℤ) (n : ℤ) :
    (modularAt p c jLaurent (qPow p hp jLaurent)).coeff n = (wL hp 0 (p + 1)).coeff n + (wL hp (p + 1) 0).coeff n +
      ∑ i ∈ range (p + 1), c i i * (wL hp i i).coeff n +
      ∑ i ∈ range (p + 1), ∑ j ∈ Ico (i + 1) (p + 1), c i j * ((wL hp j i).coeff n + (wL hp i j).coeff n) := by
  have hX : ∀ i, jLaurent ^ i = wL hp 0 i := fun i => by rw [wL, pow_zero, one_mul]
  have hY : ∀ i, qPow p hp jLaurent ^ i = wL hp i 0 := fun i => by rw [wL, pow_zero, mul_one]
  have hXY : ∀ i j, jLaurent ^ i * qPow p hp jLaurent ^ j = wL hp j i := fun i j => by rw [wL, mul_comm]
  unfold modularAt
  simp only [hXY]
  rw [hX, hY, HahnSeries.coeff_add, HahnSeries.coeff_add, HahnSeries.coeff_add, HahnSeries.coeff_sum, HahnSeries.coeff_sum]
  simp only [HahnSeries.coeff_sum, HahnSeries.coeff_smul, HahnSeries.coeff_add, smul_eq_mul]

theorem modularAt_coeff_tri {p : ℕ} (hp : 0 < p) (c : ℕ → ℕ → ℤ) (n : ℤ) :
    (modularAt p c jLaurent (qPow p hp jLaurent)).coeff n = (wL hp 0 (p + 1)).coeff n + (wL hp (p + 1) 0).coeff n +
      ∑ t ∈ triSet p, triW hp t n * c t.1 t.2 := by
  unfold triSet triW
  rw [modularAt_coeff, sum_triangle, add_assoc]
  congr 2
  · exact sum_congr rfl fun i _ => by simp [mul_comm]
  · exact sum_congr rfl fun i _ => sum_congr rfl fun j hj => by
      rw [if_neg (by have := mem_Ico.1 hj; simp only; omega), mul_comm]

/-- **The modular polynomial of prime level exists.** -/
theorem exists_modular_polynomial (p : ℕ) (hp : p.Prime) :
    ∃ c : ℕ → ℕ → ℤ, modularAt p c jLaurent (qPow p hp.pos jLaurent) = 0 := by
  haveI : Fact p.Prime := ⟨hp⟩
  have h2 : (2 : ℤ) ≤ p := by exact_mod_cast hp.two_le
  obtain ⟨d, hd, hR1, hR2⟩ := exists_modular_equation p
  have R1 := relation_of_formal hp.pos (N := p + 1) (d := d) hR1
  have R2' := relation_of_formal hp.pos (N := p + 1) (d := fun m i => d i m) (fun τ => by
    rw [← hR2 τ, sum_comm]
    exact sum_congr rfl fun m _ => sum_congr rfl fun i _ => by ring)
  have R2 : ∀ n, ∑ i ∈ range (p + 2), ∑ m ∈ range (p + 2), d m i * (((wL hp.pos i m).coeff n : ℤ) : ℂ) = 0 := R2'
  set w := wL hp.pos with hw
  have hpp : (p : ℤ) * p ≥ 2 * p := by nlinarith
  -- the coefficients `x^m y^(p+1)` vanish
  have hz : ∀ m ∈ Icc 1 p, d m (p + 1) ∈ (⊥ : AddSubgroup ℂ) := by
    refine triangular (Icc 1 p) (fun m => d m (p + 1)) (fun m => -((p : ℤ) * (p + 1 : ℕ) + m)) (fun m => (w (p + 1) m).coeff) ⊥
      (fun s _ t _ h => by omega) (fun t _ m hm => wL_zero _ hm) (fun t _ => (wL_lead _ _ _).1) fun s hs => ?_
    rw [AddSubgroup.mem_bot]
    obtain ⟨hs1, hs2⟩ := mem_Icc.1 hs
    have h := R2 (-((p : ℤ) * (p + 1 : ℕ) + s))
    rw [sum_eq_single (p + 1)] at h
    · rw [← h]
      have hsub : Icc 1 p ⊆ range (p + 2) := fun m hm => by
        rw [mem_Icc] at hm; rw [mem_range]; omega
      rw [← sum_subset hsub]
      · exact sum_congr rfl fun m _ => mul_comm _ _
      · intro m hm hm'
        rw [mem_range] at hm; rw [mem_Icc] at hm'
        rcases Nat.eq_zero_or_pos m with h0 | h0
        · subst h0
          rw [wL_zero _ (by push_cast; omega), Int.cast_zero, mul_zero]
        · have : m = p + 1 := by omega
          subst this
          rw [hd, if_neg (by omega), zero_mul]
    · intro i hi hne
      have hi' : i ≤ p := by have := mem_range.1 hi; omega
      refine sum_eq_zero fun m hm => ?_
      rcases Nat.lt_or_ge m (p + 1) with hmp | hmp
      · have h3 : (p : ℤ) * i ≤ p * p := by gcongr
        rw [wL_zero _ (by push_cast; nlinarith), Int.cast_zero, mul_zero]
      · have : m = p + 1 := by have := mem_range.1 hm; omega
        subst this
        rw [hd]
        split_ifs with h0
        · subst h0
          rw [wL_zero _ (by push_cast; nlinarith), Int.cast_zero, mul_zero]
        · rw [zero_mul]
    · intro hc; exact absurd (mem_range.2 (by omega)) hc
  have hz' : ∀ m, 1 ≤ m → m ≤ p + 1 → d m (p + 1) = 0 := by
    intro m h1 h3
    rcases Nat.lt_or_ge m (p + 1) with h | h
    · have := hz m (mem_Icc.2 ⟨h1, by omega⟩)
      rwa [AddSubgroup.mem_bot] at this
    · have : m = p + 1 := by omega
      subst this; rw [hd, if_neg (by omega)]
  -- a term below the diagonal has a smaller pole
  have hsmall : ∀ m i : ℕ, m ≤ p → i ≤ p → (m, i) ≠ (p, p) → (w m i).coeff (-((p : ℤ) * p + p)) = 0 := by
    intro m i hm hi hne
    refine wL_zero _ ?_
    have hm' : (m : ℤ) ≤ p := by omega
    have hi' : (i : ℤ) ≤ p := by omega
    rcases Nat.lt_or_ge m p with h | h
    · have : (m : ℤ) + 1 ≤ p := by omega
      nlinarith
    · have : m = p := by omega
      subst this
      have : i ≠ m := fun hc => hne (by rw [hc])
      omega
  have hone : d p p + 1 = 0 := by
    have h := R1 (-((p : ℤ) * p + p))
    rw [← sum_product' (f := fun m i => d m i * (((w m i).coeff (-((p : ℤ) * p + p)) : ℤ) : ℂ)),
      sum_eq_add (p, p) (p + 1, 0)] at h
    · have e1 : (w p p).coeff (-((p : ℤ) * p + p)) = 1 := (wL_lead _ _ _).1
      have e2 : (w (p + 1) 0).coeff (-((p : ℤ) * p + p)) = 1 := by
        have := (wL_lead hp.pos (p + 1) 0).1
        rwa [show -((p : ℤ) * (p + 1 : ℕ) + (0 : ℕ)) = -((p : ℤ) * p + p) by push_cast; ring] at this
      rw [e1, e2, hd, if_pos rfl] at h
      simpa using h
    · simp
    · rintro ⟨m, i⟩ hmi ⟨hne1, hne2⟩
      rw [mem_product, mem_range, mem_range] at hmi
      simp only at hmi ⊢
      rcases Nat.lt_or_ge m (p + 1) with hm | hm
      · rcases Nat.lt_or_ge i (p + 1) with hi | hi
        · rw [hsmall m i (by omega) (by omega) hne1, Int.cast_zero, mul_zero]
        · have : i = p + 1 := by omega
          subst this
          rcases Nat.eq_zero_or_pos m with h0 | h0
          · subst h0
            rw [wL_zero _ (by push_cast; nlinarith), Int.cast_zero, mul_zero]
          · rw [hz' m h0 (by omega), zero_mul]
      · have : m = p + 1 := by omega
        subst this
        rw [hd, if_neg (fun hc => hne2 (by rw [hc])), zero_mul]
    · intro hc; exact absurd (mem_product.2 ⟨mem_range.2 (by omega), mem_range.2 (by omega)⟩) hc
    · intro hc; exact absurd (mem_product.2 ⟨mem_range.2 (by omega), mem_range.2 (by omega)⟩) hc
  have htwo : d p p + d 0 (p + 1) = 0 := by
    have h := R2 (-((p : ℤ) * p + p))
    rw [← sum_product' (f := fun i m => d m i * (((w i m).coeff (-((p : ℤ) * p + p)) : ℤ) : ℂ)),
      sum_eq_add (p, p) (p + 1, 0)] at h
    · have e1 : (w p p).coeff (-((p : ℤ) * p + p)) = 1 := (wL_lead _ _ _).1
      have e2 : (w (p + 1) 0).coeff (-((p : ℤ) * p + p)) = 1 := by
        have := (wL_lead hp.pos (p + 1) 0).1
        rwa [show -((p : ℤ) * (p + 1 : ℕ) + (0 : ℕ)) = -((p : ℤ) * p + p) by push_cast; ring] at this
      rw [e1, e2] at h
      simpa using h
    · simp
    · rintro ⟨i, m⟩ hmi ⟨hne1, hne2⟩
      rw [mem_product, mem_range, mem_range] at hmi
      simp only at hmi ⊢
      rcases Nat.lt_or_ge m (p + 1) with hm | hm
      · rcases Nat.lt_or_ge i (p + 1) with hi | hi
        · rw [hsmall i m (by omega) (by omega) hne1, Int.cast_zero, mul_zero]
        · have : i = p + 1 := by omega
          subst this
          rw [hz' m (Nat.pos_of_ne_zero fun hc => hne2 (by rw [hc])) (by omega), zero_mul]
      · have : m = p + 1 := by omega
        subst this
        rw [hd]
        split_ifs with h0
        · subst h0
          rw [wL_zero _ (by push_cast; nlinarith), Int.cast_zero, mul_zero]
        · rw [zero_mul]
    · intro hc; exact absurd (mem_product.2 ⟨mem_range.2 (by omega), mem_range.2 (by omega)⟩) hc
    · intro hc; exact absurd (mem_product.2 ⟨mem_range.2 (by omega), mem_range.2 (by omega)⟩) hc
  have hd0 : d 0 (p + 1) = 1 := by linear_combination htwo - hone
  -- symmetrise
  obtain ⟨e, he⟩ : ∃ e : ℕ → ℕ → ℂ, ∀ m i, e m i = (d m i + d i m) / 2 := ⟨_, fun _ _ => rfl⟩
  have hsym : ∀ m i, e m i = e i m := fun m i => by rw [he, he, add_comm]
  have hetop : ∀ i, i ≤ p + 1 → e (p + 1) i = if i = 0 then 1 else 0 := by
    intro i hi
    rw [he, hd]
    split_ifs with h0
    · subst h0; rw [hd0]; norm_num
    · rw [hz' i (by omega) hi]; norm_num
  have RE : ∀ n, ∑ m ∈ range (p + 2), ∑ i ∈ range (p + 2), e m i * (((w m i).coeff n : ℤ) : ℂ) = 0 := by
    intro n
    have h1 := R1 n
    have h3 := R2 n
    have : ∑ m ∈ range (p + 2), ∑ i ∈ range (p + 2), e m i * (((w m i).coeff n : ℤ) : ℂ) =
        (1 / 2) * (∑ m ∈ range (p + 2), ∑ i ∈ range (p + 2), d m i * (((w m i).coeff n : ℤ) : ℂ)) +
        (1 / 2) * ∑ m ∈ range (p + 2), ∑ i ∈ range (p + 2), d i m * (((w m i).coeff n : ℤ) : ℂ) := by
      rw [← mul_add, ← sum_add_distrib, mul_sum]
      refine sum_congr rfl fun m _ => ?_
      rw [← sum_add_distrib, mul_sum]
      exact sum_congr rfl fun i _ => by rw [he]; ring
    rw [this, h3]
    have h1' : ∑ m ∈ range (p + 2), ∑ i ∈ range (p + 2), d m i * (((w m i).coeff n : ℤ) : ℂ) = 0 := h1
    rw [h1']; ring
  -- separate the top terms
  have hform : ∀ n, (((w 0 (p + 1)).coeff n : ℤ) : ℂ) + (((w (p + 1) 0).coeff n : ℤ) : ℂ) +
      ∑ i ∈ range (p + 1), e i i * (((w i i).coeff n : ℤ) : ℂ) +
      ∑ i ∈ range (p + 1), ∑ j ∈ Ico (i + 1) (p + 1), e i j * ((((w j i).coeff n : ℤ) : ℂ) + (((w i j).coeff n : ℤ) : ℂ)) = 0 := by
    intro n
    rw [← RE n, sum_range_succ _ (p + 1)]
    have t1 : ∑ i ∈ range (p + 2), e (p + 1) i * (((w (p + 1) i).coeff n : ℤ) : ℂ) = (((w (p + 1) 0).coeff n : ℤ) : ℂ) := by
      rw [sum_eq_single 0]
      · rw [hetop 0 (by omega), if_pos rfl, one_mul]
      · intro i hi h0
        rw [hetop i (by have := mem_range.1 hi; omega), if_neg h0, zero_mul]
      · intro hc; exact absurd (mem_range.2 (by omega)) hc
    have t2 : ∑ m ∈ range (p + 1), ∑ i ∈ range (p + 2), e m i * (((w m i).coeff n : ℤ) : ℂ) =
        ∑ m ∈ range (p + 1), ∑ i ∈ range (p + 1), e m i * (((w m i).coeff n : ℤ) : ℂ) + (((w 0 (p + 1)).coeff n : ℤ) : ℂ) := by
      simp only [sum_range_succ _ (p + 1)]
      rw [sum_add_distrib]
      congr 1
      rw [sum_eq_single 0]
      · rw [hsym, hetop 0 (by omega), if_pos rfl, one_mul]
      · intro i hi h0
        rw [hsym, hetop i (by have := mem_range.1 hi; omega), if_neg h0, zero_mul]
      · intro hc; exact absurd (mem_range.2 (by omega)) hc
    rw [t1, t2, sum_square]
    have t3 : ∑ i ∈ range (p + 1), ∑ j ∈ Ico (i + 1) (p + 1), e i j * ((((w j i).coeff n : ℤ) : ℂ) + (((w i j).coeff n : ℤ) : ℂ)) =
        ∑ i ∈ range (p + 1), ∑ j ∈ Ico (i + 1) (p + 1), (e i j * (((w i j).coeff n : ℤ) : ℂ) + e j i * (((w j i).coeff n : ℤ) : ℂ)) :=
      sum_congr rfl fun i _ => sum_congr rfl fun j _ => by rw [hsym j i]; ring
    rw [t3]; ring
  -- integrality
  have hint : ∀ t ∈ triSet p, e t.1 t.2 ∈ (Int.castAddHom ℂ).range := by
    refine triangular (triSet p) (fun t : ℕ × ℕ => e t.1 t.2) (fun t => -((p : ℤ) * t.2 + t.1))
      (triW hp.pos) _ (tri_inj hp.pos) (tri_zero hp.two_le) (tri_one hp.two_le) ?_
    · intro s hs
      unfold triSet triW
      rw [sum_triangle]
      have h := hform (-((p : ℤ) * s.2 + s.1))
      refine ⟨-((w 0 (p + 1)).coeff (-((p : ℤ) * s.2 + s.1))) - (w (p + 1) 0).coeff (-((p : ℤ) * s.2 + s.1)), ?_⟩
      rw [Int.coe_castAddHom]
      beta_reduce
      rw [Int.cast_sub, Int.cast_neg]
      simp only [if_true]
      have t1 : ∑ i ∈ range (p + 1), (((w i i).coeff (-((p : ℤ) * s.2 + s.1)) : ℤ) : ℂ) * e i i =
          ∑ i ∈ range (p + 1), e i i * (((w i i).coeff (-((p : ℤ) * s.2 + s.1)) : ℤ) : ℂ) :=
        sum_congr rfl fun i _ => mul_comm _ _
      have t2 : ∑ i ∈ range (p + 1), ∑ j ∈ Ico (i + 1) (p + 1), (((if i = j then (w i i).coeff (-((p : ℤ) * s.2 + s.1)) else
          (w j i).coeff (-((p : ℤ) * s.2 + s.1)) + (w i j).coeff (-((p : ℤ) * s.2 + s.1)) : ℤ)) : ℂ) * e i j =
          ∑ i ∈ range (p + 1), ∑ j ∈ Ico (i + 1) (p + 1), e i j *
            ((((w j i).coeff (-((p : ℤ) * s.2 + s.1)) : ℤ) : ℂ) + (((w i j).coeff (-((p : ℤ) * s.2 + s.1)) : ℤ) : ℂ)) :=
        sum_congr rfl fun i _ => sum_congr rfl fun j hj => by
          rw [if_neg (by have := mem_Ico.1 hj; omega), mul_comm]; push_cast; rfl
      rw [t1, t2]
      linear_combination -h
  have hch : ∀ i j : ℕ, ∃ c : ℤ, i ≤ j → j ≤ p → (c : ℂ) = e i j := by
    intro i j
    by_cases hij : i ≤ j ∧ j ≤ p
    · obtain ⟨c, hc⟩ := hint (i, j) (mem_triSet.2 hij)
      exact ⟨c, fun _ _ => hc⟩
    · exact ⟨0, fun h1 h3 => absurd ⟨h1, h3⟩ hij⟩
  choose c hc using hch
  refine ⟨c, ?_⟩
  ext n
  rw [modularAt_coeff, HahnSeries.coeff_zero]
  have : ((((w 0 (p + 1)).coeff n + (w (p + 1) 0).coeff n + ∑ i ∈ range (p + 1), c i i * (w i i).coeff n +
      ∑ i ∈ range (p + 1), ∑ j ∈ Ico (i + 1) (p + 1), c i j * ((w j i).coeff n + (w i j).coeff n) : ℤ)) : ℂ) = 0 := by
    push_cast
    rw [← hform n]
    congr 1
    · congr 1
      exact sum_congr rfl fun i hi => by rw [hc i i le_rfl (by have := mem_range.1 hi; omega)]
    · exact sum_congr rfl fun i hi => sum_congr rfl fun j hj => by
        rw [hc i j (by have := mem_Ico.1 hj; omega) (by have := mem_Ico.1 hj; omega)]
  exact_mod_cast this

end EC
