import Mathlib.NumberTheory.ModularForms.LevelOne.GradedRing

/-! The modular function `j = E₄³ / Δ` on the upper half plane. -/

namespace EC
open UpperHalfPlane ModularForm ModularFormClass MatrixGroups EisensteinSeries Polynomial

/-- `j(τ) = E₄(τ)³ / Δ(τ)`. -/
noncomputable def Jf (τ : ℍ) : ℂ := E₄ τ ^ 3 / ModularForm.discriminant τ

theorem exists_poly_of_form (n : ℕ) (f : ModularForm 𝒮ℒ (12 * n)) :
    ∃ P : ℂ[X], P.natDegree ≤ n ∧ ∀ τ, f τ = ModularForm.discriminant τ ^ n * P.eval (Jf τ) := by
  induction n with
  | zero =>
    obtain ⟨c, hc⟩ := ModularFormClass.levelOne_weight_zero_const (ModularForm.mcast (b := 0) (by simp) f)
    refine ⟨C c, by simp, fun τ => ?_⟩
    have := congrFun hc τ
    simpa using this
  | succ n ih =>
    have hw : (3 * (n + 1) : ℕ) * (4 : ℤ) = 12 * ((n + 1 : ℕ) : ℤ) := by push_cast; ring
    set g : ModularForm 𝒮ℒ (12 * ((n + 1 : ℕ) : ℤ)) := ModularForm.mcast hw (E₄.pow (3 * (n + 1))) with hg
    have hg0 : (qExpansion 1 g).coeff 0 = 1 := by
      rw [hg, ModularForm.qExpansion_mcast, ModularForm.qExpansion_pow one_pos one_mem_strictPeriods_SL]
      rw [PowerSeries.coeff_zero_eq_constantCoeff, map_pow, ← PowerSeries.coeff_zero_eq_constantCoeff_apply,
        E_qExpansion_coeff_zero _ ⟨2, rfl⟩, one_pow]
    set c := (qExpansion 1 f).coeff 0
    have hcusp := sub_smul_isCuspForm f g hg0
    rw [isCuspForm_iff_coeffZero_eq_zero] at hcusp
    set h := CuspForm.discriminantEquiv (toCuspForm _ hcusp) with hh
    obtain ⟨P, hP, hPe⟩ := ih (ModularForm.mcast (by push_cast; ring) h)
    refine ⟨P + C c * X ^ (n + 1), ?_, fun τ => ?_⟩
    · refine natDegree_add_le_of_degree_le (hP.trans (by omega)) (natDegree_C_mul_X_pow_le _ _)
    · have h1 := ModularForm.discriminant_mul_discriminantEquiv_apply (toCuspForm _ hcusp) τ
      have h2 := hPe τ
      rw [ModularForm.coe_mcast] at h2
      rw [← hh, h2, toCuspForm_apply] at h1
      have h3 : f τ = (f - c • g) τ + c * g τ := by
        show f τ = (f τ - c * g τ) + c * g τ
        ring
      have h4 : g τ = E₄ τ ^ (3 * (n + 1)) := by
        rw [hg, ModularForm.coe_mcast, ModularForm.coe_pow]; rfl
      have hd := ModularForm.discriminant_ne_zero τ
      have h5 : E₄ τ ^ (3 * (n + 1)) = ModularForm.discriminant τ ^ (n + 1) * Jf τ ^ (n + 1) := by
        unfold Jf; rw [← mul_pow, mul_div_cancel₀ _ hd, pow_mul]
      rw [h3, ← h1, h4, h5]
      simp only [eval_add, eval_mul, eval_C, eval_pow, eval_X]
      ring

theorem Jf_smul (γ : SL(2, ℤ)) (τ : ℍ) : Jf (γ • τ) = Jf τ := by
  have hγ : (γ : GL (Fin 2) ℝ) ∈ 𝒮ℒ := ⟨γ, rfl⟩
  have h1 := SlashInvariantForm.slash_action_eqn'' E₄ hγ τ
  have h2 := SlashInvariantForm.slash_action_eqn'' CuspForm.discriminant hγ τ
  have hd := denom_ne_zero (γ : GL (Fin 2) ℝ) τ
  unfold Jf
  rw [CuspForm.coe_discriminant] at h2
  rw [ModularGroup.sl_moeb, h1, h2, mul_pow, ← zpow_natCast (_ ^ (4 : ℤ)), ← zpow_mul]
  norm_num
  exact mul_div_mul_left _ _ (pow_ne_zero _ hd)

/-- The point `pτ`. -/
noncomputable def mulP (p : ℕ) (hp : 0 < p) (τ : ℍ) : ℍ :=
  ⟨p * τ, by
    have : (0 : ℝ) < p := by exact_mod_cast hp
    simpa using mul_pos this τ.im_pos⟩

/-- The point `(τ + k) / p`. -/
noncomputable def divP (p : ℕ) (hp : 0 < p) (k : ℤ) (τ : ℍ) : ℍ :=
  ⟨(τ + k) / p, by
    have : (0 : ℝ) < p := by exact_mod_cast hp
    rw [← Complex.ofReal_natCast, Complex.div_ofReal_im]
    simpa using div_pos τ.im_pos this⟩

variable {p : ℕ} (hp : 0 < p)

theorem coe_mulP (τ : ℍ) : ((mulP p hp τ : ℍ) : ℂ) = p * τ := rfl
theorem coe_divP (k : ℤ) (τ : ℍ) : ((divP p hp k τ : ℍ) : ℂ) = (τ + k) / p := rfl

theorem coe_T_zpow_smul (τ : ℍ) (n : ℤ) : ((ModularGroup.T ^ n • τ : ℍ) : ℂ) = τ + n := by
  rw [modular_T_zpow_smul, coe_vadd]; push_cast; ring

theorem coe_T_smul (τ : ℍ) : ((ModularGroup.T • τ : ℍ) : ℂ) = τ + 1 := by
  have := coe_T_zpow_smul τ 1
  simpa using this

theorem coe_S_smul (τ : ℍ) : ((ModularGroup.S • τ : ℍ) : ℂ) = -1 / τ := by
  rw [modular_S_smul]; show (-(τ : ℂ))⁻¹ = _; rw [inv_neg, neg_div, one_div]

theorem Jf_divP_congr {k l : ℤ} (h : (p : ℤ) ∣ l - k) (τ : ℍ) : Jf (divP p hp k τ) = Jf (divP p hp l τ) := by
  obtain ⟨m, hm⟩ := h
  have hp' : (p : ℂ) ≠ 0 := by exact_mod_cast hp.ne'
  have e : divP p hp l τ = ModularGroup.T ^ m • divP p hp k τ := by
    apply UpperHalfPlane.ext
    rw [coe_T_zpow_smul, coe_divP, coe_divP, show l = k + p * m by omega]
    push_cast; field_simp; ring
  rw [e, Jf_smul]

theorem Jf_mulP_T (τ : ℍ) : Jf (mulP p hp (ModularGroup.T • τ)) = Jf (mulP p hp τ) := by
  have e : mulP p hp (ModularGroup.T • τ) = ModularGroup.T ^ (p : ℤ) • mulP p hp τ := by
    apply UpperHalfPlane.ext
    rw [coe_T_zpow_smul, coe_mulP, coe_mulP, coe_T_smul]
    push_cast; ring
  rw [e, Jf_smul]

theorem divP_T (k : ℤ) (τ : ℍ) : divP p hp k (ModularGroup.T • τ) = divP p hp (k + 1) τ := by
  apply UpperHalfPlane.ext
  rw [coe_divP, coe_divP, coe_T_smul]
  push_cast; ring

theorem Jf_mulP_S (τ : ℍ) : Jf (mulP p hp (ModularGroup.S • τ)) = Jf (divP p hp 0 τ) := by
  have hp' : (p : ℂ) ≠ 0 := by exact_mod_cast hp.ne'
  have e : mulP p hp (ModularGroup.S • τ) = ModularGroup.S • divP p hp 0 τ := by
    apply UpperHalfPlane.ext
    rw [coe_S_smul, coe_mulP, coe_divP, coe_S_smul, Int.cast_zero, add_zero]
    have := τ.ne_zero
    field_simp
  rw [e, Jf_smul]

theorem Jf_divP_S_zero (τ : ℍ) : Jf (divP p hp 0 (ModularGroup.S • τ)) = Jf (mulP p hp τ) := by
  have hp' : (p : ℂ) ≠ 0 := by exact_mod_cast hp.ne'
  have e : divP p hp 0 (ModularGroup.S • τ) = ModularGroup.S • mulP p hp τ := by
    apply UpperHalfPlane.ext
    rw [coe_S_smul, coe_divP, coe_mulP, coe_S_smul, Int.cast_zero, add_zero, div_div, mul_comm]
  rw [e, Jf_smul]

theorem Jf_divP_S {k l : ℤ} (h : (p : ℤ) ∣ k * l + 1) (τ : ℍ) :
    Jf (divP p hp k (ModularGroup.S • τ)) = Jf (divP p hp l τ) := by
  obtain ⟨m, hm⟩ := h
  have hp' : (p : ℂ) ≠ 0 := by exact_mod_cast hp.ne'
  set γ : SL(2, ℤ) := ⟨!![k, -m; p, -l], by rw [Matrix.det_fin_two_of]; linarith⟩ with hγ
  have e : divP p hp k (ModularGroup.S • τ) = γ • divP p hp l τ := by
    apply UpperHalfPlane.ext
    rw [coe_specialLinearGroup_apply, coe_divP, coe_divP, coe_S_smul]
    have h0 := τ.ne_zero
    have hm' : (k : ℂ) * l + 1 = p * m := by exact_mod_cast hm
    simp only [hγ, Matrix.of_apply, Matrix.cons_val', Matrix.cons_val_zero, Matrix.cons_val_one,
      Matrix.cons_val_fin_one]
    simp
    have e2 : (p : ℂ) * ((τ + l) / p) + -l = τ := by field_simp; ring
    rw [e2]
    field_simp
    linear_combination -hm'
  rw [e, Jf_smul]

end EC
