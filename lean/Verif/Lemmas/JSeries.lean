import Verif.Lemmas.JPhi
import Verif.Lemmas.SeriesEval

/-! From the modular equation for functions to the one for formal power series. -/

namespace EC
open UpperHalfPlane ModularForm ModularFormClass MatrixGroups EisensteinSeries PowerSeries Filter Topology
open Function (Periodic)

/-- `e^(2πiτ)`. -/
noncomputable def qq (τ : ℍ) : ℂ := Function.Periodic.qParam 1 τ

theorem qq_norm (τ : ℍ) : ‖qq τ‖ < 1 := by
  have := τ.norm_qParam_lt_one 1
  simpa [qq] using this

theorem qq_ne (τ : ℍ) : qq τ ≠ 0 := by
  unfold qq Function.Periodic.qParam
  exact Complex.exp_ne_zero _

theorem qq_mulP {p : ℕ} (hp : 0 < p) (τ : ℍ) : qq (mulP p hp τ) = qq τ ^ p := by
  unfold qq Function.Periodic.qParam
  rw [← Complex.exp_nat_mul, coe_mulP]
  congr 1
  ring

/-- The integer series as a complex one. -/
noncomputable abbrev toC : PowerSeries ℤ →+* PowerSeries ℂ := PowerSeries.map (Int.castRingHom ℂ)

theorem E4_value (τ : ℍ) : HE (toC seriesE4) (qq τ) (E₄ τ) := by
  have h := ModularForm.hasSum_qExpansion E₄ one_pos one_mem_strictPeriods_SL τ
  have e : ∀ n, (qExpansion 1 E₄).coeff n = coeff n (toC seriesE4) := by
    intro n
    rw [E_qExpansion_coeff _ ⟨2, rfl⟩, coeff_map, seriesE4, coeff_mk]
    split_ifs
    · simp
    · rw [show bernoulli 4 = -1 / 30 by decide +kernel]
      norm_num
  simp only [e] at h
  exact ⟨h.summable.norm, h⟩

theorem Delta_value (τ : ℍ) : HE (PowerSeries.X * toC seriesDelta) (qq τ) (ModularForm.discriminant τ) := by
  rw [ModularForm.discriminant_eq_q_prod]
  refine HE.X.mul (seriesDelta_value (qq_norm τ) ?_)
  have hm : Multipliable fun n : ℕ => (1 - eta_q n (τ : ℂ)) ^ 24 :=
    (multipliableLocallyUniformlyOn_eta.multipliable τ.2).pow 24
  have ht := hm.hasProd.tendsto_prod_nat
  refine ht.congr fun M => ?_
  rw [Finset.range_eq_Ico, Finset.prod_Ico_eq_prod_range]
  have e : Finset.Icc 1 M = Finset.Ico (0 + 1) (M + 1) := by ext; simp
  rw [e, Finset.prod_Ico_eq_prod_range]
  refine Finset.prod_congr (by congr 1) fun k _ => ?_
  rw [eta_q, qq]
  congr 3
  omega

theorem series_eq_zero {f : PowerSeries ℂ} (h : ∀ τ : ℍ, HE f (qq τ) 0) : f = 0 := by
  ext n
  have := ModularFormClass.qExpansion_coeff_unique (f := (0 : ModularForm 𝒮ℒ 0)) (c := fun n => coeff n f) one_pos
    one_mem_strictPeriods_SL (fun τ => (h τ).hs) n
  have e : (⇑(0 : ModularForm 𝒮ℒ 0) : ℍ → ℂ) = 0 := rfl
  rw [this, e, qExpansion_zero]

/-- The formal modular equation. `J = q j(q)`, `J' = q^p j(q^p)`. -/
theorem formal_equation {p : ℕ} (hp : 0 < p) (d : ℕ → ℕ → ℂ) (N : ℕ)
    (h : ∀ τ, ∑ m ∈ Finset.range (N + 1), ∑ i ∈ Finset.range (N + 1), d m i * (Jf (mulP p hp τ) ^ m * Jf τ ^ i) = 0) :
    ∑ m ∈ Finset.range (N + 1), ∑ i ∈ Finset.range (N + 1), PowerSeries.C (d m i) *
      (toC (expand p hp.ne' seriesJ1) ^ m * toC seriesJ1 ^ i * PowerSeries.X ^ (p * (N - m) + (N - i))) = 0 := by
  have hjD : toC seriesJ1 * toC seriesDelta = toC seriesE4 ^ 3 := by rw [← map_mul, seriesJ1_mul, map_pow]
  have hjD' : toC (expand p hp.ne' seriesJ1) * toC (expand p hp.ne' seriesDelta) = toC (expand p hp.ne' seriesE4) ^ 3 := by
    rw [← map_mul, ← map_mul, seriesJ1_mul, map_pow, map_pow]
  set A := toC seriesE4
  set A' := toC (expand p hp.ne' seriesE4) with hA'
  set D := toC seriesDelta with hD
  set D' := toC (expand p hp.ne' seriesDelta) with hD'
  set J := toC seriesJ1
  set J' := toC (expand p hp.ne' seriesJ1)
  have hA'v : ∀ τ, HE A' (qq τ) (E₄ (mulP p hp τ)) := by
    intro τ
    have := E4_value (mulP p hp τ)
    rw [qq_mulP] at this
    have h2 := this.expand hp.ne'
    rwa [← map_expand] at h2
  have hD'v : ∀ τ, HE (PowerSeries.X ^ p * D') (qq τ) (ModularForm.discriminant (mulP p hp τ)) := by
    intro τ
    have := Delta_value (mulP p hp τ)
    rw [qq_mulP] at this
    have h2 := this.expand hp.ne'
    rwa [map_mul, expand_X, ← map_expand] at h2
  have hv : ∀ τ, HE (∑ m ∈ Finset.range (N + 1), ∑ i ∈ Finset.range (N + 1), PowerSeries.C (d m i) *
      ((A' ^ 3) ^ m * (PowerSeries.X ^ p * D') ^ (N - m) * ((A ^ 3) ^ i * (PowerSeries.X * D) ^ (N - i)))) (qq τ)
      (∑ m ∈ Finset.range (N + 1), ∑ i ∈ Finset.range (N + 1), d m i *
      ((E₄ (mulP p hp τ) ^ 3) ^ m * ModularForm.discriminant (mulP p hp τ) ^ (N - m) *
        ((E₄ τ ^ 3) ^ i * ModularForm.discriminant τ ^ (N - i)))) := by
    intro τ
    refine HE.sum _ _ _ fun m _ => HE.sum _ _ _ fun i _ => (HE.C _).mul ?_
    exact ((((hA'v τ).pow 3).pow m).mul ((hD'v τ).pow _)).mul ((((E4_value τ).pow 3).pow i).mul ((Delta_value τ).pow _))
  have hz : ∀ τ, (∑ m ∈ Finset.range (N + 1), ∑ i ∈ Finset.range (N + 1), d m i *
      ((E₄ (mulP p hp τ) ^ 3) ^ m * ModularForm.discriminant (mulP p hp τ) ^ (N - m) *
        ((E₄ τ ^ 3) ^ i * ModularForm.discriminant τ ^ (N - i)))) = 0 := by
    intro τ
    have h1 : ∀ σ : ℍ, ∀ i ≤ N, (E₄ σ ^ 3) ^ i * ModularForm.discriminant σ ^ (N - i) =
        Jf σ ^ i * ModularForm.discriminant σ ^ N := by
      intro σ i hi
      have hd := ModularForm.discriminant_ne_zero σ
      have e : E₄ σ ^ 3 = Jf σ * ModularForm.discriminant σ := by unfold Jf; field_simp
      rw [e, mul_pow, mul_assoc, ← pow_add, show i + (N - i) = N by omega]
    have h2 := congrArg (· * (ModularForm.discriminant (mulP p hp τ) ^ N * ModularForm.discriminant τ ^ N)) (h τ)
    simp only [zero_mul] at h2
    rw [← h2, Finset.sum_mul]
    refine Finset.sum_congr rfl fun m hm => ?_
    rw [Finset.sum_mul]
    refine Finset.sum_congr rfl fun i hi => ?_
    rw [h1 _ m (by have := Finset.mem_range.1 hm; omega), h1 _ i (by have := Finset.mem_range.1 hi; omega)]
    ring
  have hs := series_eq_zero fun τ => (hz τ) ▸ hv τ
  have hDne : D ≠ 0 := by
    intro hc
    have := congrArg (coeff 0) hc
    rw [hD, coeff_map, coeff_zero_eq_constantCoeff_apply, constantCoeff_seriesDelta] at this
    simp at this
  have hDne' : D' ≠ 0 := by
    intro hc
    have := congrArg (coeff 0) hc
    rw [hD', coeff_map, coeff_zero_eq_constantCoeff_apply, constantCoeff_expand, constantCoeff_seriesDelta] at this
    simp at this
  refine mul_right_cancel₀ (mul_ne_zero (pow_ne_zero N hDne') (pow_ne_zero N hDne)) ?_
  rw [zero_mul, ← hs, Finset.sum_mul]
  refine Finset.sum_congr rfl fun m hm => ?_
  rw [Finset.sum_mul]
  refine Finset.sum_congr rfl fun i hi => ?_
  have hm' : m ≤ N := by have := Finset.mem_range.1 hm; omega
  have hi' : i ≤ N := by have := Finset.mem_range.1 hi; omega
  rw [← hjD, ← hjD']
  obtain ⟨a, rfl⟩ := Nat.exists_eq_add_of_le hm'
  obtain ⟨b, hb⟩ := Nat.exists_eq_add_of_le hi'
  rw [show m + a - m = a by omega]
  have e1 : D ^ (m + a) = D ^ i * D ^ b := by rw [hb, pow_add]
  rw [show m + a - i = b by omega, e1]
  ring

end EC
