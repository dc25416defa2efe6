import Verif.Lemmas.JInv
import Mathlib.Data.ZMod.Basic
import Mathlib.Algebra.Field.ZMod

/-! The modular equation of prime level over `ℂ(j)`: the polynomial whose roots are the functions
`j(pτ)` and `j((τ + k)/p)` has coefficients in `ℂ[j]`. -/

namespace EC
open UpperHalfPlane ModularForm ModularFormClass MatrixGroups EisensteinSeries Polynomial Asymptotics Filter

/-- Holomorphy on the upper half plane. -/
def Hol (f : ℍ → ℂ) : Prop := DifferentiableOn ℂ (f ∘ ofComplex) {z | 0 < z.im}

theorem Hol.mul {f g : ℍ → ℂ} (hf : Hol f) (hg : Hol g) : Hol (fun τ => f τ * g τ) := DifferentiableOn.mul hf hg
theorem Hol.sub {f g : ℍ → ℂ} (hf : Hol f) (hg : Hol g) : Hol (fun τ => f τ - g τ) := DifferentiableOn.sub hf hg
theorem Hol.pow {f : ℍ → ℂ} (hf : Hol f) (n : ℕ) : Hol (fun τ => f τ ^ n) := DifferentiableOn.pow hf n
theorem Hol.const (c : ℂ) : Hol (fun _ => c) := differentiableOn_const c
theorem Hol.neg {f : ℍ → ℂ} (hf : Hol f) : Hol (fun τ => - f τ) := DifferentiableOn.neg hf

theorem Hol.Jf : Hol Jf := by
  have h1 := UpperHalfPlane.mdifferentiable_iff.1 (ModularFormClass.holo E₄)
  have h2 := UpperHalfPlane.mdifferentiable_iff.1 (ModularFormClass.holo CuspForm.discriminant)
  exact DifferentiableOn.div (h1.pow 3) h2 fun z _ => ModularForm.discriminant_ne_zero _

theorem Hol.comp {f : ℍ → ℂ} (hf : Hol f) (g : ℍ → ℍ) (G : ℂ → ℂ) (hG : Differentiable ℂ G)
    (h : ∀ τ : ℍ, ((g τ : ℍ) : ℂ) = G τ) : Hol (fun τ => f (g τ)) := by
  have h1 : DifferentiableOn ℂ ((f ∘ ofComplex) ∘ G) {z | 0 < z.im} := by
    refine DifferentiableOn.comp hf hG.differentiableOn fun z hz => ?_
    show 0 < (G z).im
    rw [← h ⟨z, hz⟩]; exact (g ⟨z, hz⟩).im_pos
  refine h1.congr fun z hz => ?_
  have e : ofComplex z = ⟨z, hz⟩ := ofComplex_apply_of_im_pos hz
  show f (g (ofComplex z)) = f (ofComplex (G z))
  rw [e, ← h ⟨z, hz⟩, ofComplex_apply]

section prod
variable {ι : Type*} [DecidableEq ι]

theorem prod_coeff_succ (a : ℂ) (Q : ℂ[X]) (m : ℕ) :
    ((X - C a) * Q).coeff m = (if m = 0 then 0 else Q.coeff (m - 1)) - a * Q.coeff m := by
  cases m with
  | zero => simp [mul_coeff_zero]
  | succ m => rw [coeff_X_sub_C_mul]; simp [mul_comm]

theorem Hol.prod_coeff (s : Finset ι) (f : ι → ℍ → ℂ) (hf : ∀ i ∈ s, Hol (f i)) (m : ℕ) :
    Hol (fun τ => (∏ i ∈ s, (X - C (f i τ))).coeff m) := by
  induction s using Finset.induction_on generalizing m with
  | empty => simpa using Hol.const _
  | insert i s hi ih =>
    simp only [Finset.prod_insert hi, prod_coeff_succ]
    have ih' := fun m => ih (fun i hi => hf i (Finset.mem_insert_of_mem hi)) m
    refine Hol.sub ?_ ((hf i (Finset.mem_insert_self i s)).mul (ih' m))
    split_ifs
    · exact Hol.const 0
    · exact ih' _

theorem bigO_prod_coeff (s : Finset ι) (f : ι → ℍ → ℂ) (e : ι → ℍ → ℝ)
    (h1 : ∀ i ∈ s, (fun _ => (1 : ℝ)) =O[atImInfty] e i) (hf : ∀ i ∈ s, f i =O[atImInfty] e i) (m : ℕ) :
    (fun τ => (∏ i ∈ s, (X - C (f i τ))).coeff m) =O[atImInfty] fun τ => ∏ i ∈ s, e i τ := by
  induction s using Finset.induction_on generalizing m with
  | empty =>
    simp only [Finset.prod_empty]
    exact isBigO_const_const _ one_ne_zero _
  | insert i s hi ih =>
    simp only [Finset.prod_insert hi, prod_coeff_succ]
    have ih' := fun m => ih (fun i hi => h1 i (Finset.mem_insert_of_mem hi))
      (fun i hi => hf i (Finset.mem_insert_of_mem hi)) m
    refine IsBigO.sub ?_ ((hf i (Finset.mem_insert_self i s)).mul (ih' m))
    split_ifs
    · exact isBigO_zero _ _
    · have := (h1 i (Finset.mem_insert_self i s)).mul (ih' (m - 1)).norm_left
      simp only [one_mul] at this
      exact this.of_norm_left

end prod

theorem Jf_bigO : Jf =O[atImInfty] fun τ => Real.exp (2 * Real.pi * τ.im) := by
  have h1 : (fun τ => E₄ τ ^ 3) =O[atImInfty] fun _ => (1 : ℝ) := by
    have : (fun τ => E₄ τ) =O[atImInfty] fun _ => (1 : ℝ) := ModularFormClass.bdd_at_infty E₄
    simpa using this.pow 3
  have h2 := ModularForm.exp_isBigO_discriminant
  have h3 : (fun τ => (ModularForm.discriminant τ)⁻¹) =O[atImInfty] fun τ => (Real.exp (-2 * Real.pi * τ.im))⁻¹ :=
    h2.inv_rev (Eventually.of_forall fun τ h => absurd h (Real.exp_pos _).ne')
  have h4 := h1.mul h3
  refine h4.congr (fun τ => ?_) fun τ => ?_
  · rw [Jf, div_eq_mul_inv]
  · rw [one_mul, ← Real.exp_neg]; ring_nf

theorem discriminant_bigO :
    ModularForm.discriminant =O[atImInfty] fun τ => Real.exp (-2 * Real.pi * τ.im) := by
  have := CuspFormClass.exp_decay_atImInfty CuspForm.discriminant one_pos one_mem_strictPeriods_SL
  simpa using this

theorem im_mulP {p : ℕ} (hp : 0 < p) (τ : ℍ) : (mulP p hp τ).im = p * τ.im := by
  have : ((mulP p hp τ : ℍ) : ℂ).im = p * τ.im := by rw [coe_mulP]; simp
  exact this

theorem im_divP {p : ℕ} (hp : 0 < p) (k : ℤ) (τ : ℍ) : (divP p hp k τ).im = τ.im / p := by
  have : ((divP p hp k τ : ℍ) : ℂ).im = τ.im / p := by
    rw [coe_divP, ← Complex.ofReal_natCast, Complex.div_ofReal_im]; simp
  exact this

theorem tendsto_atImInfty_of_im {g : ℍ → ℍ} {c : ℝ} (hc : 0 < c) (h : ∀ τ, (g τ).im = c * τ.im) :
    Tendsto g atImInfty atImInfty := by
  unfold atImInfty
  rw [tendsto_comap_iff]
  have : (UpperHalfPlane.im ∘ g) = fun τ => c * τ.im := funext h
  rw [this]
  exact tendsto_comap.const_mul_atTop hc

variable (p : ℕ) [hp : Fact p.Prime]

theorem ppos : 0 < p := hp.out.pos

/-- The functions `j(pτ)`, `j((τ + k)/p)`. -/
noncomputable def conj : Option (ZMod p) → ℍ → ℂ
  | none, τ => Jf (mulP p (ppos p) τ)
  | some k, τ => Jf (divP p (ppos p) k.val τ)

/-- The polynomial with these roots. -/
noncomputable def FP (τ : ℍ) : ℂ[X] := ∏ i : Option (ZMod p), (X - C (conj p i τ))

theorem conj_some_int (k : ℤ) (τ : ℍ) : conj p (some (k : ZMod p)) τ = Jf (divP p (ppos p) k τ) := by
  refine Jf_divP_congr (ppos p) ?_ τ
  rw [← ZMod.intCast_eq_intCast_iff_dvd_sub]
  simp

theorem FP_T (τ : ℍ) : FP p (ModularGroup.T • τ) = FP p τ := by
  refine Fintype.prod_equiv (Equiv.optionCongr (Equiv.addRight (1 : ZMod p))) _ _ fun i => ?_
  congr 2
  cases i with
  | none => exact Jf_mulP_T _ τ
  | some k =>
    have e : (some (k + 1) : Option (ZMod p)) = some (((k.val : ℤ) + 1 : ℤ) : ZMod p) := by
      push_cast; simp
    show Jf (divP p (ppos p) k.val _) = conj p (some (k + 1)) τ
    rw [e, conj_some_int, divP_T]

/-- The permutation of the roots induced by `τ ↦ -1/τ`. -/
noncomputable def sPerm : Option (ZMod p) → Option (ZMod p)
  | none => some 0
  | some k => if k = 0 then none else some (-k⁻¹)

theorem sPerm_invol : Function.Involutive (sPerm p) := by
  intro i
  cases i with
  | none => simp [sPerm]
  | some k =>
    by_cases h : k = 0
    · simp [sPerm, h]
    · have h' : -k⁻¹ ≠ 0 := neg_ne_zero.2 (inv_ne_zero h)
      simp [sPerm, h, inv_neg]

theorem FP_S (τ : ℍ) : FP p (ModularGroup.S • τ) = FP p τ := by
  refine Fintype.prod_equiv (sPerm_invol p).toPerm _ _ fun i => ?_
  congr 2
  cases i with
  | none =>
    show Jf _ = conj p (some 0) τ
    have := conj_some_int p 0 τ
    rw [Int.cast_zero] at this
    rw [this]; exact Jf_mulP_S _ τ
  | some k =>
    show _ = conj p (sPerm p (some k)) τ
    by_cases h : k = 0
    · subst h
      simp only [sPerm, if_pos]
      have := conj_some_int p 0 (ModularGroup.S • τ)
      rw [Int.cast_zero] at this
      rw [this]; exact Jf_divP_S_zero _ τ
    · simp only [sPerm, if_neg h]
      refine Jf_divP_S _ ?_ τ
      rw [← ZMod.intCast_zmod_eq_zero_iff_dvd]
      push_cast
      simp [h]

/-- The weight `12 (p + 1)` form `Δ^(p+1)` times a coefficient. -/
noncomputable def coeffFun (m : ℕ) (τ : ℍ) : ℂ := ModularForm.discriminant τ ^ (p + 1) * (FP p τ).coeff m

theorem coeffFun_slash (m : ℕ) (γ : SL(2, ℤ)) : coeffFun p m ∣[(12 * ((p + 1 : ℕ) : ℤ))] γ = coeffFun p m := by
  have key : ∀ γ : SL(2, ℤ), (∀ τ, FP p (γ • τ) = FP p τ) →
      coeffFun p m ∣[(12 * ((p + 1 : ℕ) : ℤ))] γ = coeffFun p m := by
    intro γ h
    ext τ
    have hγ : (γ : GL (Fin 2) ℝ) ∈ 𝒮ℒ := ⟨γ, rfl⟩
    have h2 := SlashInvariantForm.slash_action_eqn'' CuspForm.discriminant hγ τ
    rw [CuspForm.coe_discriminant, ← ModularGroup.sl_moeb] at h2
    have hd := denom_ne_zero (γ : GL (Fin 2) ℝ) τ
    rw [SL_slash_apply]
    unfold coeffFun
    rw [h, h2, mul_pow, ← zpow_natCast (_ ^ (12 : ℤ)), ← zpow_mul, zpow_neg]
    have hz := zpow_ne_zero (12 * ((p + 1 : ℕ) : ℤ)) hd
    field_simp
  exact SlashInvariantForm.slash_action_generators_SL2Z (key _ (FP_S p)) (key _ (FP_T p)) γ

theorem Hol.conj (i : Option (ZMod p)) : Hol (conj p i) := by
  cases i with
  | none => exact Hol.Jf.comp _ (fun z => p * z) (by fun_prop) fun τ => rfl
  | some k => exact Hol.Jf.comp _ (fun z => (z + ((k.val : ℤ) : ℂ)) / p) (by fun_prop) fun τ => rfl

theorem coeffFun_hol (m : ℕ) : Hol (coeffFun p m) := by
  refine Hol.mul (Hol.pow ?_ _) (Hol.prod_coeff _ _ (fun i _ => Hol.conj p i) m)
  exact UpperHalfPlane.mdifferentiable_iff.1 (ModularFormClass.holo CuspForm.discriminant)

/-- Growth of the roots at the cusp. -/
noncomputable def conjBound : Option (ZMod p) → ℍ → ℝ
  | none, τ => Real.exp (2 * Real.pi * (p * τ.im))
  | some _, τ => Real.exp (2 * Real.pi * (τ.im / p))

theorem conj_bigO (i : Option (ZMod p)) : conj p i =O[atImInfty] conjBound p i := by
  have hp0 : (0 : ℝ) < p := by exact_mod_cast ppos p
  cases i with
  | none =>
    have := Jf_bigO.comp_tendsto (tendsto_atImInfty_of_im hp0 (im_mulP (ppos p)))
    refine this.congr (fun τ => rfl) fun τ => ?_
    simp only [Function.comp, im_mulP, conjBound]
  | some k =>
    have := Jf_bigO.comp_tendsto (tendsto_atImInfty_of_im (c := (p : ℝ)⁻¹) (by positivity)
      (fun τ => by rw [im_divP (ppos p) k.val]; ring))
    refine this.congr (fun τ => rfl) fun τ => ?_
    simp only [Function.comp, im_divP, conjBound]

theorem conjBound_one (i : Option (ZMod p)) : (fun _ => (1 : ℝ)) =O[atImInfty] conjBound p i := by
  refine IsBigO.of_bound 1 (Eventually.of_forall fun τ => ?_)
  have hp0 : (0 : ℝ) < p := by exact_mod_cast ppos p
  have := τ.im_pos
  have hpi := Real.pi_pos
  rw [one_mul, norm_one, Real.norm_eq_abs]
  cases i with
  | none => exact (Real.one_le_exp (by positivity)).trans (le_abs_self _)
  | some k => exact (Real.one_le_exp (by positivity)).trans (le_abs_self _)

theorem conjBound_prod (τ : ℍ) : ∏ i, conjBound p i τ = Real.exp (2 * Real.pi * ((p + 1) * τ.im)) := by
  have hp0 : (p : ℝ) ≠ 0 := by exact_mod_cast (ppos p).ne'
  rw [Fintype.prod_option]
  simp only [conjBound, Finset.prod_const, Finset.card_univ, ZMod.card]
  rw [← Real.exp_nat_mul, ← Real.exp_add]
  congr 1
  field_simp

theorem coeffFun_bdd (m : ℕ) : IsBoundedAtImInfty (coeffFun p m) := by
  have h1 := bigO_prod_coeff Finset.univ (conj p) (conjBound p) (fun i _ => conjBound_one p i)
    (fun i _ => conj_bigO p i) m
  have h2 := (discriminant_bigO.pow (p + 1)).mul h1
  show coeffFun p m =O[atImInfty] (fun _ => (1 : ℝ))
  refine h2.congr (fun τ => rfl) fun τ => ?_
  rw [conjBound_prod, ← Real.exp_nat_mul, ← Real.exp_add]
  refine Real.exp_eq_one_iff _ |>.2 ?_
  push_cast; ring

/-- Each coefficient times `Δ^(p+1)` is a modular form. -/
noncomputable def coeffForm (m : ℕ) : ModularForm 𝒮ℒ (12 * ((p + 1 : ℕ) : ℤ)) where
  toFun := coeffFun p m
  slash_action_eq' := fun _ ⟨γ, hγ⟩ ↦ hγ ▸ coeffFun_slash p m γ
  holo' := UpperHalfPlane.mdifferentiable_iff.2 (coeffFun_hol p m)
  bdd_at_cusps' {c} hc := by
    rw [Subgroup.IsArithmetic.isCusp_iff_isCusp_SL2Z] at hc
    rw [OnePoint.isBoundedAt_iff_forall_SL2Z hc]
    intro γ _
    rw [coeffFun_slash]
    exact coeffFun_bdd p m

theorem exists_coeff_poly (m : ℕ) :
    ∃ P : ℂ[X], P.natDegree ≤ p + 1 ∧ ∀ τ, (FP p τ).coeff m = P.eval (Jf τ) := by
  obtain ⟨P, hP, h⟩ := exists_poly_of_form (p + 1) (coeffForm p m)
  refine ⟨P, hP, fun τ => ?_⟩
  have h' : coeffFun p m τ = _ := h τ
  unfold coeffFun at h'
  exact mul_left_cancel₀ (pow_ne_zero _ (ModularForm.discriminant_ne_zero τ)) h'

theorem FP_natDegree (τ : ℍ) : (FP p τ).natDegree = p + 1 := by
  unfold FP
  rw [natDegree_prod_of_monic _ _ fun i _ => monic_X_sub_C _]
  simp [ZMod.card]

theorem FP_monic (τ : ℍ) : (FP p τ).Monic := monic_prod_of_monic _ _ fun i _ => monic_X_sub_C _

theorem FP_root (i : Option (ZMod p)) (τ : ℍ) : (FP p τ).eval (conj p i τ) = 0 := by
  unfold FP
  rw [eval_prod]
  exact Finset.prod_eq_zero (Finset.mem_univ i) (by simp)

/-- The modular equation: `d m i` is the coefficient of `X^m Y^i`; it is monic in `X` of degree
`p + 1`, has degree at most `p + 1` in `Y` and vanishes at `(j(pτ), j(τ))` and `(j(τ), j(pτ))`. -/
theorem exists_modular_equation : ∃ d : ℕ → ℕ → ℂ,
    (∀ i, d (p + 1) i = if i = 0 then 1 else 0) ∧
    (∀ τ, ∑ m ∈ Finset.range (p + 2), ∑ i ∈ Finset.range (p + 2), d m i * (Jf (mulP p (ppos p) τ) ^ m * Jf τ ^ i) = 0) ∧
    (∀ τ, ∑ m ∈ Finset.range (p + 2), ∑ i ∈ Finset.range (p + 2), d m i * (Jf τ ^ m * Jf (mulP p (ppos p) τ) ^ i) = 0) := by
  choose P hP hPe using exists_coeff_poly p
  have hroot : ∀ (x : ℂ) (τ : ℍ), (FP p τ).eval x = 0 →
      (x ^ (p + 1) + ∑ m ∈ Finset.range (p + 1), ∑ i ∈ Finset.range (p + 2), (P m).coeff i * (x ^ m * Jf τ ^ i)) = 0 := by
    intro x τ hx
    rw [eval_eq_sum_range, FP_natDegree, Finset.sum_range_succ] at hx
    have hl : (FP p τ).coeff (p + 1) = 1 := by
      have := FP_monic p τ
      rwa [Monic, leadingCoeff, FP_natDegree] at this
    rw [hl, one_mul] at hx
    rw [add_comm, ← hx]
    congr 1
    refine Finset.sum_congr rfl fun m _ => ?_
    rw [hPe, eval_eq_sum_range' (n := p + 2) (by have := hP m; omega), Finset.sum_mul]
    exact Finset.sum_congr rfl fun i _ => by ring
  have conv : ∀ x y : ℂ, (∑ m ∈ Finset.range (p + 2), ∑ i ∈ Finset.range (p + 2),
      (if m = p + 1 then (if i = 0 then (1 : ℂ) else 0) else (P m).coeff i) * (x ^ m * y ^ i)) =
      x ^ (p + 1) + ∑ m ∈ Finset.range (p + 1), ∑ i ∈ Finset.range (p + 2), (P m).coeff i * (x ^ m * y ^ i) := by
    intro x y
    rw [Finset.sum_range_succ, add_comm]
    congr 1
    · rw [Finset.sum_eq_single 0]
      · simp
      · intro i _ hi; simp [hi]
      · simp
    · refine Finset.sum_congr rfl fun m hm => Finset.sum_congr rfl fun i _ => ?_
      rw [if_neg (by have := Finset.mem_range.1 hm; omega)]
  refine ⟨fun m i => if m = p + 1 then (if i = 0 then 1 else 0) else (P m).coeff i, fun i => by simp,
    fun τ => ?_, fun τ => ?_⟩
  · rw [conv]; exact hroot _ τ (FP_root p none τ)
  · rw [conv]
    refine hroot _ (mulP p (ppos p) τ) ?_
    have h := FP_root p (some ((0 : ℤ) : ZMod p)) (mulP p (ppos p) τ)
    rw [conj_some_int] at h
    have e : divP p (ppos p) 0 (mulP p (ppos p) τ) = τ := by
      apply UpperHalfPlane.ext
      have hp' : (p : ℂ) ≠ 0 := by exact_mod_cast (ppos p).ne'
      rw [coe_divP, coe_mulP, Int.cast_zero, add_zero]
      field_simp
    rwa [e] at h

end EC
