import Verif.Spec.QSeries
import Mathlib.Analysis.Normed.Ring.InfiniteSum
import Mathlib.Analysis.Normed.Group.Tannery
import Mathlib.Analysis.SpecificLimits.Normed
import Mathlib.Analysis.Complex.Basic
import Mathlib.Analysis.SpecialFunctions.Exp
import Mathlib.RingTheory.PowerSeries.Expand

/-! Values of power series, and the infinite product. -/

namespace EC
open PowerSeries Filter Topology

section HE
variable {𝕜 : Type*} [NormedField 𝕜] [CompleteSpace 𝕜]

/-- `f` converges absolutely at `q` and its sum is `v`. -/
structure HE (f : PowerSeries 𝕜) (q v : 𝕜) : Prop where
  sm : Summable fun n => ‖coeff n f * q ^ n‖
  hs : HasSum (fun n => coeff n f * q ^ n) v

variable {f g : PowerSeries 𝕜} {q v w : 𝕜}

theorem HE.add (h : HE f q v) (h' : HE g q w) : HE (f + g) q (v + w) := by
  have e : (fun n => coeff n (f + g) * q ^ n) = fun n => coeff n f * q ^ n + coeff n g * q ^ n := by
    funext n; rw [map_add, add_mul]
  constructor
  · refine Summable.of_nonneg_of_le (fun n => norm_nonneg _) (fun n => ?_) (h.sm.add h'.sm)
    rw [map_add, add_mul]; exact norm_add_le _ _
  · rw [e]; exact h.hs.add h'.hs

theorem HE.mul (h : HE f q v) (h' : HE g q w) : HE (f * g) q (v * w) := by
  have e : (fun n => coeff n (f * g) * q ^ n) =
      fun n => ∑ kl ∈ Finset.antidiagonal n, (coeff kl.1 f * q ^ kl.1) * (coeff kl.2 g * q ^ kl.2) := by
    funext n
    rw [coeff_mul, Finset.sum_mul]
    refine Finset.sum_congr rfl fun kl hkl => ?_
    rw [← Finset.mem_antidiagonal.1 hkl, pow_add]; ring
  have s := summable_norm_sum_mul_antidiagonal_of_summable_norm h.sm h'.sm
  have hs : Summable fun n => coeff n (f * g) * q ^ n := by rw [e]; exact s.of_norm
  constructor
  · have e' := congrArg (fun F : ℕ → 𝕜 => fun n => ‖F n‖) e
    rw [e']; exact s
  · have := tsum_mul_tsum_eq_tsum_sum_antidiagonal_of_summable_norm h.sm h'.sm
    rw [h.hs.tsum_eq, h'.hs.tsum_eq, ← e] at this
    rw [this]; exact hs.hasSum

theorem HE.C (c : 𝕜) : HE (PowerSeries.C c) q c := by
  have e : ∀ n, n ≠ 0 → coeff n (PowerSeries.C c) * q ^ n = 0 := fun n hn => by
    rw [coeff_C, if_neg hn, zero_mul]
  constructor
  · exact summable_of_ne_finset_zero (s := {0}) fun n hn => by
      rw [e n (by simpa using hn), norm_zero]
  · have := hasSum_single (f := fun n => coeff n (PowerSeries.C c) * q ^ n) 0 e
    simpa using this

theorem HE.one : HE (1 : PowerSeries 𝕜) q 1 := by
  have := HE.C (q := q) (1 : 𝕜)
  rwa [map_one] at this

theorem HE.zero : HE (0 : PowerSeries 𝕜) q 0 := by
  have := HE.C (q := q) (0 : 𝕜)
  rwa [map_zero] at this

theorem HE.X : HE (PowerSeries.X : PowerSeries 𝕜) q q := by
  have e : ∀ n, n ≠ 1 → coeff n (PowerSeries.X : PowerSeries 𝕜) * q ^ n = 0 := fun n hn => by
    rw [coeff_X, if_neg hn, zero_mul]
  constructor
  · exact summable_of_ne_finset_zero (s := {1}) fun n hn => by
      rw [e n (by simpa using hn), norm_zero]
  · have := hasSum_single (f := fun n => coeff n (PowerSeries.X : PowerSeries 𝕜) * q ^ n) 1 e
    simpa using this

theorem HE.pow (h : HE f q v) (n : ℕ) : HE (f ^ n) q (v ^ n) := by
  induction n with
  | zero => simpa using HE.one
  | succ n ih => rw [pow_succ, pow_succ]; exact ih.mul h

theorem HE.sum {ι : Type*} (s : Finset ι) (F : ι → PowerSeries 𝕜) (V : ι → 𝕜) (h : ∀ i ∈ s, HE (F i) q (V i)) :
    HE (∑ i ∈ s, F i) q (∑ i ∈ s, V i) := by
  classical
  induction s using Finset.induction_on with
  | empty => simpa using HE.zero
  | insert i s hi ih =>
    rw [Finset.sum_insert hi, Finset.sum_insert hi]
    exact (h i (Finset.mem_insert_self i s)).add (ih fun j hj => h j (Finset.mem_insert_of_mem hj))

theorem HE.prod {ι : Type*} (s : Finset ι) (F : ι → PowerSeries 𝕜) (V : ι → 𝕜) (h : ∀ i ∈ s, HE (F i) q (V i)) :
    HE (∏ i ∈ s, F i) q (∏ i ∈ s, V i) := by
  classical
  induction s using Finset.induction_on with
  | empty => simpa using HE.one
  | insert i s hi ih =>
    rw [Finset.prod_insert hi, Finset.prod_insert hi]
    exact (h i (Finset.mem_insert_self i s)).mul (ih fun j hj => h j (Finset.mem_insert_of_mem hj))

theorem HE.expand {p : ℕ} (hp : p ≠ 0) (h : HE f (q ^ p) v) : HE (PowerSeries.expand p hp f) q v := by
  have hinj : Function.Injective fun n : ℕ => p * n := fun a b hab => Nat.eq_of_mul_eq_mul_left (by omega) hab
  have e0 : ∀ n, n ∉ Set.range (fun n : ℕ => p * n) → coeff n (PowerSeries.expand p hp f) * q ^ n = 0 := by
    intro n hn
    rw [coeff_expand_of_not_dvd, zero_mul]
    rintro ⟨k, rfl⟩
    exact hn ⟨k, rfl⟩
  have e1 : (fun n => coeff n (PowerSeries.expand p hp f) * q ^ n) ∘ (fun n : ℕ => p * n) =
      fun n => coeff n f * (q ^ p) ^ n := by
    funext n
    simp only [Function.comp, coeff_expand_mul, pow_mul]
  constructor
  · refine (hinj.summable_iff fun n hn => by rw [e0 n hn, norm_zero]).1 ?_
    have := congrArg (fun F : ℕ → 𝕜 => fun n => ‖F n‖) e1
    show Summable (fun n => ‖((fun n => coeff n (PowerSeries.expand p hp f) * q ^ n) ∘ (fun n : ℕ => p * n)) n‖)
    rw [e1]; exact h.sm
  · refine (hinj.hasSum_iff e0).1 ?_
    rw [e1]; exact h.hs

end HE

/-! ### The product `∏ (1 - q^k)^24` -/

/-- The majorant `∏_{1 ≤ k ≤ M} (1 + q^k)^24`. -/
noncomputable def prodPlus (M : ℕ) : PowerSeries ℝ :=
  ∏ k ∈ Finset.Icc 1 M, (1 + (PowerSeries.X : PowerSeries ℝ) ^ k) ^ 24

/-- The coefficients of `F` bound those of `f`. -/
def Maj (f : PowerSeries ℤ) (F : PowerSeries ℝ) : Prop := ∀ n, |((coeff n f : ℤ) : ℝ)| ≤ coeff n F

theorem Maj.mul {f g : PowerSeries ℤ} {F G : PowerSeries ℝ} (h : Maj f F) (h' : Maj g G) : Maj (f * g) (F * G) := by
  intro n
  rw [coeff_mul, coeff_mul]
  push_cast
  refine (Finset.abs_sum_le_sum_abs _ _).trans (Finset.sum_le_sum fun kl _ => ?_)
  rw [abs_mul]
  exact mul_le_mul (h _) (h' _) (abs_nonneg _) ((abs_nonneg _).trans (h _))

theorem Maj.one : Maj 1 1 := by
  intro n
  rw [coeff_one, coeff_one]
  split_ifs <;> simp

theorem Maj.pow {f : PowerSeries ℤ} {F : PowerSeries ℝ} (h : Maj f F) (n : ℕ) : Maj (f ^ n) (F ^ n) := by
  induction n with
  | zero => simpa using Maj.one
  | succ n ih => rw [pow_succ, pow_succ]; exact ih.mul h

theorem maj_factor (k : ℕ) : Maj (1 - PowerSeries.X ^ k) (1 + PowerSeries.X ^ k) := by
  intro n
  rw [map_sub, map_add, coeff_one, coeff_one, coeff_X_pow, coeff_X_pow]
  split_ifs <;> norm_num

theorem maj_prod (M : ℕ) : Maj (prodDelta M) (prodPlus M) := by
  unfold prodDelta prodPlus
  induction M with
  | zero => simpa using Maj.one
  | succ M ih =>
    rw [Finset.prod_Icc_succ_top (by omega), Finset.prod_Icc_succ_top (by omega)]
    exact ih.mul ((maj_factor _).pow 24)

theorem prodPlus_nonneg (M n : ℕ) : 0 ≤ coeff n (prodPlus M) := (abs_nonneg _).trans (maj_prod M n)

theorem prodPlus_succ (M : ℕ) : prodPlus (M + 1) = prodPlus M * (1 + PowerSeries.X ^ (M + 1)) ^ 24 := by
  unfold prodPlus
  rw [Finset.prod_Icc_succ_top (by omega)]

theorem prodPlus_factor (M : ℕ) : ∃ r : PowerSeries ℝ,
    (1 + (PowerSeries.X : PowerSeries ℝ) ^ (M + 1)) ^ 24 = 1 + PowerSeries.X ^ (M + 1) * r := by
  have h : (1 + (PowerSeries.X : PowerSeries ℝ) ^ (M + 1)) - 1 ∣ (1 + (PowerSeries.X : PowerSeries ℝ) ^ (M + 1)) ^ 24 - 1 ^ 24 :=
    sub_dvd_pow_sub_pow _ _ 24
  rw [add_sub_cancel_left, one_pow] at h
  obtain ⟨r, hr⟩ := h
  exact ⟨r, by rw [← hr]; ring⟩

theorem prodPlus_stable {n M : ℕ} (h : n ≤ M) : coeff n (prodPlus M) = coeff n (prodPlus n) := by
  induction M, h using Nat.le_induction with
  | base => rfl
  | succ M hM ih =>
    obtain ⟨r, hr⟩ := prodPlus_factor M
    rw [prodPlus_succ, hr, mul_add, mul_one, map_add, ih, mul_left_comm, coeff_X_pow_mul', if_neg (by omega), add_zero]

theorem prodPlus_mono_succ (M n : ℕ) : coeff n (prodPlus M) ≤ coeff n (prodPlus (M + 1)) := by
  rw [prodPlus_succ, coeff_mul]
  have hnn : ∀ m, 0 ≤ coeff m ((1 + (PowerSeries.X : PowerSeries ℝ) ^ (M + 1)) ^ 24) :=
    fun m => (abs_nonneg _).trans (((maj_factor (M + 1)).pow 24) m)
  have h0 : coeff 0 ((1 + (PowerSeries.X : PowerSeries ℝ) ^ (M + 1)) ^ 24) = 1 := by simp
  have := Finset.single_le_sum (f := fun kl : ℕ × ℕ => coeff kl.1 (prodPlus M) *
    coeff kl.2 ((1 + (PowerSeries.X : PowerSeries ℝ) ^ (M + 1)) ^ 24)) (s := Finset.antidiagonal n)
    (fun kl _ => mul_nonneg (prodPlus_nonneg _ _) (hnn _)) (a := (n, 0)) (by simp)
  simpa [h0] using this

theorem prodPlus_le (M n : ℕ) : coeff n (prodPlus M) ≤ coeff n (prodPlus n) := by
  rcases le_total n M with h | h
  · exact (prodPlus_stable h).le
  · exact monotone_nat_of_le_succ (f := fun M => coeff n (prodPlus M)) (fun M => prodPlus_mono_succ M n) h

theorem prodPlus_value (M : ℕ) (r : ℝ) : HE (prodPlus M) r (∏ k ∈ Finset.Icc 1 M, (1 + r ^ k) ^ 24) :=
  HE.prod _ _ _ fun k _ => (HE.one.add (HE.X.pow k)).pow 24

theorem prodPlus_bound {r : ℝ} (hr : 0 ≤ r) (hr1 : r < 1) (M : ℕ) :
    ∏ k ∈ Finset.Icc 1 M, (1 + r ^ k) ^ 24 ≤ Real.exp (24 * (1 - r)⁻¹) := by
  have h1 : ∏ k ∈ Finset.Icc 1 M, (1 + r ^ k) ^ 24 ≤ ∏ k ∈ Finset.Icc 1 M, Real.exp (24 * r ^ k) := by
    refine Finset.prod_le_prod (fun k _ => by positivity) fun k _ => ?_
    have := Real.add_one_le_exp (r ^ k)
    calc (1 + r ^ k) ^ 24 ≤ (Real.exp (r ^ k)) ^ 24 := pow_le_pow_left₀ (by positivity) (by linarith) 24
      _ = Real.exp (24 * r ^ k) := by rw [← Real.exp_nat_mul]; norm_num
  refine h1.trans ?_
  rw [← Real.exp_sum]
  refine Real.exp_le_exp.2 ?_
  rw [← Finset.mul_sum]
  refine mul_le_mul_of_nonneg_left ?_ (by norm_num)
  rw [← tsum_geometric_of_lt_one hr hr1]
  exact (summable_geometric_of_lt_one hr hr1).sum_le_tsum _ fun k _ => by positivity

theorem prodPlus_summable {r : ℝ} (hr : 0 ≤ r) (hr1 : r < 1) : Summable fun n => coeff n (prodPlus n) * r ^ n := by
  refine summable_of_sum_range_le (c := Real.exp (24 * (1 - r)⁻¹)) (fun n => mul_nonneg (prodPlus_nonneg _ _) (by positivity))
    fun N => ?_
  have e : ∑ n ∈ Finset.range N, coeff n (prodPlus n) * r ^ n = ∑ n ∈ Finset.range N, coeff n (prodPlus N) * r ^ n :=
    Finset.sum_congr rfl fun n hn => by rw [prodPlus_stable (Finset.mem_range.1 hn).le]
  rw [e]
  refine le_trans ?_ (prodPlus_bound hr hr1 N)
  exact sum_le_hasSum _ (fun n _ => mul_nonneg (prodPlus_nonneg _ _) (by positivity)) (prodPlus_value N r).hs

theorem prodDelta_value (M : ℕ) (q : ℂ) :
    HE (PowerSeries.map (Int.castRingHom ℂ) (prodDelta M)) q (∏ k ∈ Finset.Icc 1 M, (1 - q ^ k) ^ 24) := by
  unfold prodDelta
  rw [map_prod]
  refine HE.prod _ _ _ fun k _ => ?_
  rw [map_pow, map_sub, map_one, map_pow, PowerSeries.map_X, sub_eq_add_neg, sub_eq_add_neg]
  refine HE.pow (HE.one.add ?_) 24
  have e : -(PowerSeries.X : PowerSeries ℂ) ^ k = PowerSeries.C (-1) * PowerSeries.X ^ k := by
    rw [map_neg, map_one]; ring
  rw [e, show -q ^ k = -1 * q ^ k by ring]
  exact (HE.C _).mul (HE.X.pow k)

theorem seriesDelta_value {q : ℂ} (hq : ‖q‖ < 1) {v : ℂ}
    (h : Tendsto (fun M => ∏ k ∈ Finset.Icc 1 M, (1 - q ^ k) ^ 24) atTop (𝓝 v)) :
    HE (PowerSeries.map (Int.castRingHom ℂ) seriesDelta) q v := by
  have hb : ∀ M n, ‖coeff n (PowerSeries.map (Int.castRingHom ℂ) (prodDelta M)) * q ^ n‖ ≤ coeff n (prodPlus n) * ‖q‖ ^ n := by
    intro M n
    rw [norm_mul, norm_pow]
    refine mul_le_mul_of_nonneg_right ?_ (by positivity)
    rw [coeff_map]
    have h1 := (maj_prod M n).trans (prodPlus_le M n)
    have h2 : ‖(Int.castRingHom ℂ) ((coeff n) (prodDelta M))‖ = |((coeff n (prodDelta M) : ℤ) : ℝ)| := by
      show ‖(((coeff n) (prodDelta M) : ℤ) : ℂ)‖ = _
      rw [Complex.norm_intCast]
    rw [h2]; exact h1
  have hsum := prodPlus_summable (norm_nonneg q) hq
  have hlim : ∀ n, Tendsto (fun M => coeff n (PowerSeries.map (Int.castRingHom ℂ) (prodDelta M)) * q ^ n) atTop
      (𝓝 (coeff n (PowerSeries.map (Int.castRingHom ℂ) seriesDelta) * q ^ n)) := by
    intro n
    refine tendsto_const_nhds.congr' ?_
    filter_upwards [eventually_ge_atTop n] with M hM
    rw [coeff_map, coeff_map, coeff_prodDelta hM]
  have ht := tendsto_tsum_of_dominated_convergence hsum hlim (Eventually.of_forall hb)
  have hb' : ∀ n, ‖coeff n (PowerSeries.map (Int.castRingHom ℂ) seriesDelta) * q ^ n‖ ≤ coeff n (prodPlus n) * ‖q‖ ^ n := by
    intro n
    have := hb n n
    rwa [coeff_map, coeff_prodDelta le_rfl, ← coeff_map] at this
  have hsm : Summable fun n => ‖coeff n (PowerSeries.map (Int.castRingHom ℂ) seriesDelta) * q ^ n‖ :=
    Summable.of_nonneg_of_le (fun n => norm_nonneg _) hb' hsum
  refine ⟨hsm, ?_⟩
  have e : (fun M => ∑' n, coeff n (PowerSeries.map (Int.castRingHom ℂ) (prodDelta M)) * q ^ n) =
      fun M => ∏ k ∈ Finset.Icc 1 M, (1 - q ^ k) ^ 24 := funext fun M => (prodDelta_value M q).hs.tsum_eq
  rw [e] at ht
  rw [tendsto_nhds_unique h ht]
  exact hsm.of_norm.hasSum

end EC
