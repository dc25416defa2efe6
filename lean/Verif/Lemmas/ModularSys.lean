import Verif.Lemmas.ModularQ
import Verif.Props.Solve
import Verif.Props.Order
import Verif.Props.PolyMaps

/-! The linear system of `modular_polynomial`. -/

namespace EC
open Poly Finset

/-- The variables in the order of their indices. -/
def vis (p : ℕ) : List (ℤ × ℤ) := ({ p := (p : ℤ) } : Converter).visits

theorem sum_vis {M : Type} [AddCommMonoid M] (p : ℕ) (F : ℤ × ℤ → M) :
    ((vis p).map F).sum = ∑ i ∈ range (p + 1), F (i, i) +
      ∑ i ∈ range (p + 1), ∑ j ∈ Ico (i + 1) (p + 1), F (i, j) := by
  have e0 : irange 0 ((p : ℤ) + 1) = irange ((0 : ℕ) : ℤ) ((p + 1 : ℕ) : ℤ) := by push_cast; rfl
  unfold vis Converter.visits
  rw [List.map_append, List.sum_append, List.map_flatMap, List.map_map, add_comm]
  congr 1
  · rw [e0, sum_irange, Nat.Ico_zero_eq_range]; rfl
  · rw [List.flatMap_def, List.sum_flatten, List.map_map, e0, sum_irange, Nat.Ico_zero_eq_range]
    refine Finset.sum_congr rfl fun i _ => ?_
    have e1 : irange ((i : ℤ) + 1) ((p : ℤ) + 1) = irange ((i + 1 : ℕ) : ℤ) ((p + 1 : ℕ) : ℤ) := by push_cast; rfl
    simp only [Function.comp, List.map_map]
    rw [e1, sum_irange]
    rfl

theorem sum_range_vis {M : Type} [AddCommMonoid M] (p : ℕ) (F : ℤ × ℤ → M) :
    ∑ k ∈ range (vis p).length, F ((vis p).getD k (0, 0)) = ((vis p).map F).sum := by
  rw [Finset.sum_range]
  rw [← List.sum_ofFn]
  congr 1
  apply List.ext_getElem
  · simp
  · intro i h1 h2
    simp only [List.length_map] at h2
    simp

theorem getD_vis_mem {p k : ℕ} (h : k < (vis p).length) : (vis p).getD k (0, 0) ∈ vis p := by
  rw [List.getD_eq_getElem _ _ h]; exact List.getElem_mem h

theorem mem_vis {p : ℕ} {v : ℤ × ℤ} : v ∈ vis p ↔ ∃ a b : ℕ, a ≤ b ∧ b ≤ p ∧ v = ((a : ℤ), (b : ℤ)) := by
  rcases v with ⟨i, j⟩
  unfold vis
  rw [Converter.mem_visits]
  constructor
  · rintro ⟨h1, h2, h3⟩
    change j ≤ (p : ℤ) at h3
    exact ⟨i.toNat, j.toNat, by omega, by omega, by rw [Prod.mk.injEq]; omega⟩
  · rintro ⟨a, b, h1, h2, h3⟩
    rw [Prod.mk.injEq] at h3
    obtain ⟨rfl, rfl⟩ := h3
    exact ⟨by omega, by omega, by change (b : ℤ) ≤ p; omega⟩

theorem nodup_vis (p : ℕ) : (vis p).Nodup := Converter.nodup_visits _

/-! ### Columns -/

/-- The series of the variable `c_a_b`. -/
noncomputable def colSeries (X Y : LaurentSeries ℤ) (a b : ℕ) : LaurentSeries ℤ :=
  if a = b then X ^ a * Y ^ a else X ^ a * Y ^ b + X ^ b * Y ^ a

theorem genericCoef_none (p : ℕ) (X Y : LaurentSeries ℤ) : genericCoef p X Y none = X ^ (p + 1) + Y ^ (p + 1) := by
  simp [genericCoef]

theorem genericCoef_some {p : ℕ} (X Y : LaurentSeries ℤ) {a b : ℕ} (hab : a ≤ b) (hb : b ≤ p) :
    genericCoef p X Y (some ((a : ℤ), (b : ℤ))) = colSeries X Y a b := by
  unfold genericCoef colSeries
  simp only [reduceCtorEq, if_false, zero_add, Option.some.injEq, Prod.mk.injEq, Nat.cast_inj]
  split_ifs with h
  · subst h
    rw [Finset.sum_eq_single a]
    · simp only [and_self, if_true]
      rw [Finset.sum_eq_zero, add_zero]
      intro i _
      refine Finset.sum_eq_zero fun j hj => ?_
      have := Finset.mem_Ico.1 hj
      rw [if_neg (by omega), if_neg (by omega), add_zero]
    · intro i _ hi
      rw [if_neg (by tauto)]
    · intro hh
      exact absurd (Finset.mem_range.2 (by omega)) hh
  · rw [Finset.sum_eq_zero, zero_add, Finset.sum_eq_single a, Finset.sum_eq_single b]
    · simp
    · intro j _ hj
      rw [if_neg (by tauto), if_neg (by tauto), add_zero]
    · intro hh
      exact absurd (Finset.mem_Ico.2 ⟨by omega, by omega⟩) hh
    · intro i _ hi
      refine Finset.sum_eq_zero fun j _ => ?_
      rw [if_neg (by tauto), if_neg (by tauto), add_zero]
    · intro hh
      exact absurd (Finset.mem_range.2 (by omega)) hh
    · intro i _
      rw [if_neg (by omega)]

theorem colSeries_lead {p : ℕ} (hp : 2 ≤ p) {X : LaurentSeries ℤ} {Y : LaurentSeries ℤ} (hX : Lead (-1) X)
    (hY : Lead (p * (-1)) Y) {a b : ℕ} (hab : a ≤ b) : Lead (-((a : ℤ) + p * b)) (colSeries X Y a b) := by
  have h1 : ∀ a b : ℕ, Lead (-((a : ℤ) + p * b)) (X ^ a * Y ^ b) := by
    intro a b
    have := (hX.pow a).mul (hY.pow b)
    have e : (a : ℤ) * -1 + b * (p * -1) = -((a : ℤ) + p * b) := by ring
    rwa [e] at this
  unfold colSeries
  split_ifs with h
  · subst h; exact h1 a a
  · refine (h1 a b).add ((h1 b a).2.mono ?_)
    have h2 : (a : ℤ) + 1 ≤ b := by omega
    have h3 : (2 : ℤ) ≤ p := by omega
    nlinarith

theorem expo_inj {p a b a' b' : ℕ} (hp : 0 < p) (hab : a ≤ b) (hb : b ≤ p) (hab' : a' ≤ b') (hb' : b' ≤ p)
    (h : (a : ℤ) + p * b = a' + p * b') : a = a' ∧ b = b' := by
  have h' : a + p * b = a' + p * b' := by exact_mod_cast h
  rcases lt_trichotomy b b' with h1 | h1 | h1
  · have : p * (b + 1) ≤ p * b' := Nat.mul_le_mul_left _ h1
    rw [mul_add, mul_one] at this
    omega
  · subst h1; omega
  · have : p * (b' + 1) ≤ p * b := Nat.mul_le_mul_left _ h1
    rw [mul_add, mul_one] at this
    omega

/-- One row of the matrix. -/
noncomputable def sysRow (p : ℕ) (X Y : LaurentSeries ℤ) (i : ℤ) : List ℤ :=
  (vis p).map (fun v => (genericCoef p X Y (some v)).coeff i) ++ [(genericCoef p X Y none).coeff i]

/-- The matrix. -/
noncomputable def sysMat (p : ℕ) (X Y : LaurentSeries ℤ) : Mat :=
  (irange (-((p : ℤ) * p) - p) 1).map (sysRow p X Y)

theorem sysRow_getD {p : ℕ} {X Y : LaurentSeries ℤ} {i : ℤ} {k : ℕ} (hk : k < (vis p).length) :
    (sysRow p X Y i).getD k 0 = (genericCoef p X Y (some ((vis p).getD k (0, 0)))).coeff i := by
  unfold sysRow
  rw [List.getD_append _ _ _ _ (by simpa using hk), List.getD_eq_getElem _ _ (by simpa using hk), List.getElem_map,
    List.getD_eq_getElem _ _ hk]

theorem sysRow_last {p : ℕ} {X Y : LaurentSeries ℤ} {i : ℤ} :
    (sysRow p X Y i).getD (vis p).length 0 = (genericCoef p X Y none).coeff i := by
  unfold sysRow
  rw [List.getD_append_right _ _ _ _ (by simp)]
  simp

theorem sysMat_augmented (p : ℕ) (X Y : LaurentSeries ℤ) : Augmented (sysMat p X Y) (vis p).length := by
  have h : -((p : ℤ) * p) - p < 1 := by nlinarith
  unfold sysMat
  rw [irange_cons h, List.map_cons]
  refine ⟨_, _, rfl, by simp [sysRow], ?_⟩
  intro r hr
  rw [← List.map_cons] at hr
  obtain ⟨i, _, rfl⟩ := List.mem_map.1 hr
  simp [sysRow]

theorem sysMat_independent {p : ℕ} (hp : 2 ≤ p) {X Y : LaurentSeries ℤ} (hX : Lead (-1) X)
    (hY : Lead (p * (-1)) Y) : ColumnsIndependent (sysMat p X Y) (vis p).length := by
  intro y hy
  set n := (vis p).length with hn
  -- the weight of a column
  set w : ℕ → ℤ := fun k => ((vis p).getD k (0, 0)).1 + p * ((vis p).getD k (0, 0)).2 with hw
  have hcol : ∀ k < n, Lead (-(w k)) (genericCoef p X Y (some ((vis p).getD k (0, 0)))) ∧ 0 ≤ w k ∧ w k ≤ p + p * p := by
    intro k hk
    obtain ⟨a, b, hab, hb, hv⟩ := mem_vis.1 (getD_vis_mem hk)
    simp only [hw, hv]
    rw [genericCoef_some X Y hab hb]
    refine ⟨colSeries_lead hp hX hY hab, by positivity, ?_⟩
    have h1 : (a : ℤ) ≤ p := by omega
    have h2 : (b : ℤ) ≤ p := by omega
    nlinarith
  have hinj : ∀ k < n, ∀ l < n, w k = w l → k = l := by
    intro k hk l hl h
    obtain ⟨a, b, hab, hb, hv⟩ := mem_vis.1 (getD_vis_mem hk)
    obtain ⟨a', b', hab', hb', hv'⟩ := mem_vis.1 (getD_vis_mem hl)
    simp only [hw, hv, hv'] at h
    obtain ⟨rfl, rfl⟩ := expo_inj (by omega) hab hb hab' hb' h
    rw [← hv', List.getD_eq_getElem _ _ hk, List.getD_eq_getElem _ _ hl] at hv
    exact (nodup_vis p).getElem_inj_iff.1 hv
  by_contra hcon
  push Not at hcon
  obtain ⟨k0, hk0, hy0⟩ := hcon
  obtain ⟨k, hkm, hmax⟩ := Finset.exists_max_image ((range n).filter fun k => y k ≠ 0) w
    ⟨k0, by simp [hk0, hy0]⟩
  rw [Finset.mem_filter, Finset.mem_range] at hkm
  obtain ⟨hk, hyk⟩ := hkm
  obtain ⟨hl, h0, h1⟩ := hcol k hk
  have hrow := hy (sysRow p X Y (-(w k))) (by
    unfold sysMat
    refine List.mem_map.2 ⟨_, mem_irange.2 ⟨by linarith, by linarith⟩, rfl⟩)
  rw [Finset.sum_eq_single k] at hrow
  · rw [sysRow_getD hk, hl.1, one_mul] at hrow
    exact hyk hrow
  · intro l hlm hlk
    have hln := Finset.mem_range.1 hlm
    by_cases hyl : y l = 0
    · rw [hyl, mul_zero]
    · have h2 := hmax l (by simp [hln, hyl])
      have h3 : w l ≠ w k := fun h => hlk (hinj l hln k hk h)
      rw [sysRow_getD hln, (hcol l hln).1.2 _ (by omega), zero_mul]
  · intro h
    exact absurd (Finset.mem_range.2 hk) h

/-! ### Truncation -/

/-- The product terms of the truncated series have the right coefficients up to `q^0`. -/
theorem trunc_coeff {p : ℕ} (hp : 2 ≤ p) {X : LaurentSeries ℤ} (hX : JTrunc ((p : ℤ) * p + p) X) (hp0 : 0 < p)
    {a b : ℕ} (hab : (a ≤ p ∧ b ≤ p) ∨ (a ≤ p + 1 ∧ b = 0) ∨ (a = 0 ∧ b ≤ p + 1)) {i : ℤ} (hi : i ≤ 0) :
    (X ^ a * qPow p hp0 X ^ b).coeff i = (jLaurent ^ a * qPow p hp0 jLaurent ^ b).coeff i := by
  have hX1 := hX.lead.2
  have hJ1 := jLaurent_lead.2
  have hY1 := qPow_ol hp0 hX1
  have hK1 := qPow_ol hp0 hJ1
  have hd := hX.diff
  have hdY : OL (p * ((p : ℤ) * p + p + 1)) (qPow p hp0 X - qPow p hp0 jLaurent) := by
    rw [← map_sub]; exact qPow_ol hp0 hd
  have h2 : (2 : ℤ) ≤ p := by omega
  have h4 : (4 : ℤ) ≤ p * p := by nlinarith
  have key : OL 1 (X ^ a * qPow p hp0 X ^ b - jLaurent ^ a * qPow p hp0 jLaurent ^ b) := by
    rcases Nat.eq_zero_or_pos a with ha | ha
    · subst ha
      have := OL.pow_sub hY1 hK1 hdY b
      simp only [pow_zero, one_mul]
      refine this.mono ?_
      have hb : (b : ℤ) ≤ p + 1 := by omega
      have : (b : ℤ) * p ≤ (p + 1) * p := by nlinarith
      nlinarith
    · rcases Nat.eq_zero_or_pos b with hb | hb
      · subst hb
        have := OL.pow_sub hX1 hJ1 hd a
        simp only [pow_zero, mul_one]
        refine this.mono ?_
        have ha : (a : ℤ) ≤ p + 1 := by omega
        nlinarith
      · have ha' : (a : ℤ) ≤ p := by omega
        have hb' : (b : ℤ) ≤ p := by omega
        have hbp : (b : ℤ) * p ≤ p * p := by nlinarith
        refine OL.mul_sub (hX1.pow a) (hK1.pow b) (OL.pow_sub hX1 hJ1 hd a) (OL.pow_sub hY1 hK1 hdY b) ?_ ?_
        · nlinarith
        · nlinarith
  have := key i (by omega)
  rw [HahnSeries.coeff_sub] at this
  linarith

theorem genericCoef_trunc {p : ℕ} (hp : 2 ≤ p) {X : LaurentSeries ℤ} (hX : JTrunc ((p : ℤ) * p + p) X) (hp0 : 0 < p)
    (v : Option (ℤ × ℤ)) {i : ℤ} (hi : i ≤ 0) :
    (genericCoef p X (qPow p hp0 X) v).coeff i = (genericCoef p jLaurent (qPow p hp0 jLaurent) v).coeff i := by
  have hite : ∀ (c : Prop) [Decidable c] (A : LaurentSeries ℤ), (if c then A else 0).coeff i = if c then A.coeff i else 0 := by
    intro c _ A; split_ifs <;> rfl
  unfold genericCoef
  simp only [HahnSeries.coeff_add, HahnSeries.coeff_sum, hite]
  have t1 := trunc_coeff hp hX hp0 (a := p + 1) (b := 0) (by omega) hi
  have t2 := trunc_coeff hp hX hp0 (a := 0) (b := p + 1) (by omega) hi
  simp only [pow_zero, one_mul, mul_one] at t1 t2
  rw [t1, t2]
  congr 1
  · congr 1
    refine Finset.sum_congr rfl fun a ha => ?_
    have := Finset.mem_range.1 ha
    rw [trunc_coeff hp hX hp0 (by omega) hi]
  · refine Finset.sum_congr rfl fun a ha => Finset.sum_congr rfl fun b hb => ?_
    have := Finset.mem_range.1 ha
    have := Finset.mem_Ico.1 hb
    rw [trunc_coeff hp hX hp0 (by omega) hi, trunc_coeff hp hX hp0 (by omega) hi]

theorem modularAt_eq {p : ℕ} (c : ℕ → ℕ → ℤ) (X Y : LaurentSeries ℤ) :
    modularAt p c X Y = genericCoef p X Y none +
      ((vis p).map fun v => c v.1.toNat v.2.toNat • genericCoef p X Y (some v)).sum := by
  rw [sum_vis, genericCoef_none]
  unfold modularAt
  rw [add_assoc]
  congr 2
  · refine Finset.sum_congr rfl fun a ha => ?_
    have := Finset.mem_range.1 ha
    rw [genericCoef_some X Y le_rfl (by omega)]
    simp [colSeries]
  · refine Finset.sum_congr rfl fun a ha => Finset.sum_congr rfl fun b hb => ?_
    have := Finset.mem_range.1 ha
    have := Finset.mem_Ico.1 hb
    rw [genericCoef_some X Y (by omega) (by omega)]
    simp [colSeries, show a ≠ b by omega]

/-- A solution gives a solution of the system. -/
theorem sysMat_solves {p : ℕ} (hp : 2 ≤ p) {X : LaurentSeries ℤ} (hX : JTrunc ((p : ℤ) * p + p) X) (hp0 : 0 < p)
    {c : ℕ → ℕ → ℤ} (hc : ∀ n ≤ 0, (modularAt p c jLaurent (qPow p hp0 jLaurent)).coeff n = 0) :
    Solves (sysMat p X (qPow p hp0 X)) (vis p).length
      (fun k => -c ((vis p).getD k (0, 0)).1.toNat ((vis p).getD k (0, 0)).2.toNat) := by
  intro r hr
  unfold sysMat at hr
  obtain ⟨i, hi, rfl⟩ := List.mem_map.1 hr
  have hi0 : i ≤ 0 := by have := (mem_irange.1 hi).2; omega
  have h1 := hc i hi0
  rw [modularAt_eq, HahnSeries.coeff_add, ← sum_range_vis, HahnSeries.coeff_sum] at h1
  rw [sysRow_last, genericCoef_trunc hp hX hp0 _ hi0]
  have h2 : ∑ k ∈ range (vis p).length, (sysRow p X (qPow p hp0 X) i).getD k 0 *
      -c ((vis p).getD k (0, 0)).1.toNat ((vis p).getD k (0, 0)).2.toNat =
      -∑ k ∈ range (vis p).length, (c ((vis p).getD k (0, 0)).1.toNat ((vis p).getD k (0, 0)).2.toNat •
        genericCoef p jLaurent (qPow p hp0 jLaurent) (some ((vis p).getD k (0, 0)))).coeff i := by
    rw [← Finset.sum_neg_distrib]
    refine Finset.sum_congr rfl fun k hk => ?_
    rw [sysRow_getD (Finset.mem_range.1 hk), genericCoef_trunc hp hX hp0 _ hi0, HahnSeries.coeff_smul, smul_eq_mul]
    ring
  rw [h2]; linarith

end EC
