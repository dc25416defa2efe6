import Verif.Lemmas.ThreeFrob

/-! Pure mathematics: the three quotients by points of order 2 do not have the same j-invariant. -/

namespace EC
open WeierstrassCurve EDS Polynomial

section
variable {K : Type*} [Field K]

/-- The parameter of a root of the cubic. -/
theorem two_param {a b e x : K} (h2 : (2 : K) ≠ 0) (h0 : e ≠ 0) (he : e ^ 3 + a * e + b = 0)
    (hD : 4 * a ^ 3 + 27 * b ^ 2 ≠ 0) (hx : x = jOf (velu2A a e) (velu2B a b e)) :
    jOf a b * ((4 * a / e ^ 2 + 3) * (4 * a / e ^ 2 + 12) ^ 2) = 1728 * (4 * a / e ^ 2) ^ 3 ∧
    x * ((4 * a / e ^ 2 + 3) ^ 2 * (4 * a / e ^ 2 + 12)) = 1728 * (15 + 4 * a / e ^ 2) ^ 3 := by
  obtain rfl : b = -(e ^ 3 + a * e) := by linear_combination he
  obtain ⟨v, hv⟩ : ∃ v, v = 4 * a / e ^ 2 := ⟨_, rfl⟩
  rw [← hv]
  have h4 : (4 : K) ≠ 0 := by
    have : (4 : K) = 2 ^ 2 := by norm_num
    rw [this]; exact pow_ne_zero _ h2
  have ha : a = v * e ^ 2 / 4 := by rw [hv]; field_simp
  clear hv
  subst ha
  have h16 : (16 : K) ≠ 0 := by
    have : (16 : K) = 2 ^ 4 := by norm_num
    rw [this]; exact pow_ne_zero _ h2
  have d1 : 4 * (v * e ^ 2 / 4) ^ 3 + 27 * (-(e ^ 3 + v * e ^ 2 / 4 * e)) ^ 2 = e ^ 6 / 16 * ((v + 3) * (v + 12) ^ 2) := by
    field_simp
    ring
  have d2 : 4 * velu2A (v * e ^ 2 / 4) e ^ 3 + 27 * velu2B (v * e ^ 2 / 4) (-(e ^ 3 + v * e ^ 2 / 4 * e)) e ^ 2 =
      -4 * e ^ 6 * ((v + 3) ^ 2 * (v + 12)) := by
    unfold velu2A velu2B
    field_simp
    ring
  rw [d1] at hD
  have hu : (v + 3) * (v + 12) ^ 2 ≠ 0 := right_ne_zero_of_mul hD
  have hv3 : v + 3 ≠ 0 := left_ne_zero_of_mul hu
  have hv12 : v + 12 ≠ 0 := fun h => hu (by rw [h]; ring)
  constructor
  · unfold jOf
    rw [d1, div_mul_eq_mul_div, div_eq_iff hD]
    field_simp
    ring
  · rw [hx]
    unfold jOf
    rw [d2, div_mul_eq_mul_div, div_eq_iff (mul_ne_zero (mul_ne_zero (neg_ne_zero.2 h4) (pow_ne_zero _ h0))
      (mul_ne_zero (pow_ne_zero _ hv3) hv12))]
    unfold velu2A
    field_simp
    ring

/-- Three different roots of the cubic, no two with the same square, do not lead to the same j-invariant, unless in
characteristic 13 one of them has square `-4 a`. -/
theorem three_collide {a b x : K} (h2 : (2 : K) ≠ 0) (h3 : (3 : K) ≠ 0) (hD : 4 * a ^ 3 + 27 * b ^ 2 ≠ 0) (ha : a ≠ 0) (hb : b ≠ 0)
    (f : Fin 3 → K) (hf : ∀ i k, f i ^ 2 = f k ^ 2 → i = k) (he : ∀ i, f i ^ 3 + a * f i + b = 0)
    (hx : ∀ i, x = jOf (velu2A a (f i)) (velu2B a b (f i))) : ∃ i, f i ^ 2 = -4 * a := by
  have h0 : ∀ i, f i ≠ 0 := fun i h0 => by
    have := he i
    rw [h0] at this
    exact hb (by linear_combination this)
  have h4 : (4 : K) ≠ 0 := by
    have : (4 : K) = 2 ^ 2 := by norm_num
    rw [this]; exact pow_ne_zero _ h2
  have hp := fun i => two_param h2 (h0 i) (he i) hD (hx i)
  obtain ⟨v, hv⟩ : ∃ v : Fin 3 → K, v = fun i => 4 * a / f i ^ 2 := ⟨_, rfl⟩
  have hv' : ∀ i, v i * f i ^ 2 = 4 * a := fun i => by
    rw [hv]; exact div_mul_cancel₀ _ (pow_ne_zero 2 (h0 i))
  have vinj : Function.Injective v := by
    intro i k hik
    apply hf
    have e1 := hv' i
    rw [hik, ← hv' k] at e1
    refine mul_left_cancel₀ ?_ e1
    intro hz
    have := hv' k
    rw [hz, zero_mul] at this
    exact mul_ne_zero h4 ha this.symm
  obtain ⟨j, hj⟩ : ∃ j, j = jOf a b := ⟨_, rfl⟩
  have s1 : ∀ i, j * ((v i + 3) * (v i + 12) ^ 2) = 1728 * v i ^ 3 := fun i => by rw [hj, hv]; exact (hp i).1
  have s2 : ∀ i, x * ((v i + 3) ^ 2 * (v i + 12)) = 1728 * (15 + v i) ^ 3 := fun i => by rw [hv]; exact (hp i).2
  have hj0 : j ≠ 0 := by
    rw [hj]; unfold jOf
    refine div_ne_zero ?_ hD
    have : (1728 : K) = 2 ^ 6 * 3 ^ 3 := by norm_num
    rw [this]
    exact mul_ne_zero (mul_ne_zero (pow_ne_zero _ h2) (pow_ne_zero _ h3)) (mul_ne_zero h4 (pow_ne_zero _ ha))
  have hj1 : 1728 - j ≠ 0 := by
    intro h
    have h5 : j * (4 * a ^ 3 + 27 * b ^ 2) = 1728 * (4 * a ^ 3) := by rw [hj]; unfold jOf; exact div_mul_cancel₀ _ hD
    have h6 : (2 ^ 6 * 3 ^ 6 : K) * b ^ 2 = 0 := by linear_combination (4 * a ^ 3 + 27 * b ^ 2) * h + h5
    exact mul_ne_zero (mul_ne_zero (pow_ne_zero _ h2) (pow_ne_zero _ h3)) (pow_ne_zero _ hb) h6
  -- a quadratic polynomial with three roots
  obtain ⟨d0, hd0⟩ : ∃ d, d = (1728 - j) * (5832000 - 108 * x) - (1728 - x) * (-432 * j) := ⟨_, rfl⟩
  obtain ⟨d1, hd1⟩ : ∃ d, d = (1728 - j) * (1166400 - 81 * x) - (1728 - x) * (-216 * j) := ⟨_, rfl⟩
  obtain ⟨d2, hd2⟩ : ∃ d, d = (1728 - j) * (77760 - 18 * x) - (1728 - x) * (-27 * j) := ⟨_, rfl⟩
  have hz : (C d0 + C d1 * X + C d2 * X ^ 2 : K[X]) = 0 := by
    refine eq_zero_of_natDegree_lt_card_of_eval_eq_zero _ vinj (fun i => ?_) ?_
    · simp only [eval_add, eval_mul, eval_C, eval_pow, eval_X]
      rw [hd0, hd1, hd2]
      linear_combination (1728 - x) * s1 i - (1728 - j) * s2 i
    · rw [Fintype.card_fin]
      refine Nat.lt_succ_of_le ?_
      compute_degree
  have c0 := congrArg (fun g => coeff g 0) hz
  have c1 := congrArg (fun g => coeff g 1) hz
  have c2 := congrArg (fun g => coeff g 2) hz
  simp only [coeff_add, coeff_C_mul, coeff_X_pow, coeff_X, coeff_C, coeff_zero] at c0 c1 c2
  norm_num at c0 c1 c2
  rw [hd0] at c0
  rw [hd1] at c1
  rw [hd2] at c2
  have k1 : 63 * (x + 8640) = 0 := by
    refine (mul_eq_zero.1 (?_ : (1728 - j) * (63 * (x + 8640)) = 0)).resolve_left hj1
    linear_combination c1 - 8 * c2
  have k2 : 180 * (x + 25488) = 0 := by
    refine (mul_eq_zero.1 (?_ : (1728 - j) * (180 * (x + 25488)) = 0)).resolve_left hj1
    linear_combination c0 - 16 * c2
  have k3 : (7 : K) * (x + 8640) = 0 := by
    refine (mul_eq_zero.1 (?_ : (3 : K) ^ 2 * (7 * (x + 8640)) = 0)).resolve_left (pow_ne_zero 2 h3)
    linear_combination k1
  have k4 : (5 : K) * (x + 25488) = 0 := by
    refine (mul_eq_zero.1 (?_ : (2 ^ 2 * 3 ^ 2 : K) * (5 * (x + 25488)) = 0)).resolve_left
      (mul_ne_zero (pow_ne_zero 2 h2) (pow_ne_zero 2 h3))
    linear_combination k2
  by_cases h7 : (7 : K) = 0
  · exfalso
    have h5 : (5 : K) ≠ 0 := fun h5 => one_ne_zero (α := K) (by linear_combination 3 * h5 - 2 * h7)
    have hx' := (mul_eq_zero.1 k4).resolve_left h5
    have e1 : x = 6 := by linear_combination hx' - 3642 * h7
    rw [e1] at c2
    apply hj1
    linear_combination c2 - ((1728 - j) * 11093 + 246 * 27 * j) * h7
  · have hx' := (mul_eq_zero.1 k3).resolve_left h7
    have e1 : x = -8640 := by linear_combination hx'
    rw [e1] at k4 c2 c1 c0
    have h13 : (5 : K) * 13 = 0 := by
      refine (mul_eq_zero.1 (?_ : (2 ^ 4 * 3 ^ 4 : K) * (5 * 13) = 0)).resolve_left
        (mul_ne_zero (pow_ne_zero _ h2) (pow_ne_zero _ h3))
      linear_combination k4
    rcases mul_eq_zero.1 h13 with h5 | h13
    · exfalso
      apply hj0
      linear_combination c2 - ((1728 - j) * 46656 + 55987 * j) * h5
    · have hj8 : j = -8640 := by
        have : (2 ^ 6 * 3 ^ 6 : K) * (j + 8640) = 0 := by linear_combination c2
        have := (mul_eq_zero.1 this).resolve_left (mul_ne_zero (pow_ne_zero _ h2) (pow_ne_zero _ h3))
        linear_combination this
      have hq : ∀ i, v i + 1 = 0 ∨ 5 + 4 * v i + 2 * v i ^ 2 = 0 := by
        intro i
        have g := s1 i
        rw [hj8] at g
        have : (2 ^ 6 * 3 ^ 4 : K) * ((v i + 1) * (5 + 4 * v i + 2 * v i ^ 2)) = 0 := by
          linear_combination -g - 5184 * (3 * v i ^ 2 + 27 * v i + 55) * h13
        have := (mul_eq_zero.1 this).resolve_left (mul_ne_zero (pow_ne_zero _ h2) (pow_ne_zero _ h3))
        exact mul_eq_zero.1 this
      by_contra hno
      push Not at hno
      have hq' : ∀ i, 5 + 4 * v i + 2 * v i ^ 2 = 0 := fun i => (hq i).resolve_left fun h1 => hno i (by
        have := hv' i
        linear_combination f i ^ 2 * h1 - this)
      have hz : (C 5 + C 4 * X + C 2 * X ^ 2 : K[X]) = 0 := by
        refine eq_zero_of_natDegree_lt_card_of_eval_eq_zero _ vinj (fun i => ?_) ?_
        · simp only [eval_add, eval_mul, eval_C, eval_pow, eval_X]
          exact hq' i
        · rw [Fintype.card_fin]
          refine Nat.lt_succ_of_le ?_
          compute_degree
      have c2 := congrArg (fun g => coeff g 2) hz
      simp only [coeff_add, coeff_C_mul, coeff_X_pow, coeff_X, coeff_C, coeff_zero] at c2
      norm_num at c2
      exact h2 c2

end

section
variable {F : Type} [Field F] [DecidableEq F] [Fintype F] {a b : F}
variable {K : Type} [Field K] [Algebra F K]

local notation "q" => Fintype.card F

/-- If the quotient by a point of order 2 over an extension has its j-invariant in the field, the cubic has a root there,
unless `a = 0`. -/
theorem exists_root_of_two (h2 : (2 : F) ≠ 0) (h3 : (3 : F) ≠ 0) (hd : 4 * a ^ 3 + 27 * b ^ 2 ≠ 0) (ha : a ≠ 0) (x : F) (e : K)
    (he : e ^ 3 + algebraMap F K a * e + algebraMap F K b = 0)
    (hx : algebraMap F K x = jOf (velu2A (algebraMap F K a) e) (velu2B (algebraMap F K a) (algebraMap F K b) e)) :
    ∃ z : F, z ^ 3 + a * z + b = 0 := by
  by_contra hno
  push Not at hno
  have hnoK : ∀ z : K, z ^ q = z → z ^ 3 + algebraMap F K a * z + algebraMap F K b ≠ 0 := by
    intro z hz h
    obtain ⟨w, rfl⟩ := exists_of_pow_card hz
    apply hno w
    apply (algebraMap F K).injective
    rw [map_zero, ← h]
    simp only [map_add, map_mul, map_pow]
  have hb : b ≠ 0 := fun hb => hno 0 (by rw [hb]; ring)
  have h2K : (2 : K) ≠ 0 := two_ne_ext h2 K
  have h3K : (3 : K) ≠ 0 := by
    rw [← map_ofNat (algebraMap F K) 3]
    exact (_root_.map_ne_zero _).2 h3
  set φ := FiniteField.frobeniusAlgHom F K with hφ
  have hfr : ∀ z : K, φ z = z ^ q := fun z => rfl
  have hroot : ∀ z : K, z ^ 3 + algebraMap F K a * z + algebraMap F K b = 0 →
      φ z ^ 3 + algebraMap F K a * φ z + algebraMap F K b = 0 := by
    intro z hz
    have := congrArg φ hz
    simpa only [map_add, map_mul, map_pow, map_zero, AlgHom.commutes] using this
  have hjx : ∀ z : K, algebraMap F K x = jOf (velu2A (algebraMap F K a) z) (velu2B (algebraMap F K a) (algebraMap F K b) z) →
      algebraMap F K x = jOf (velu2A (algebraMap F K a) (φ z)) (velu2B (algebraMap F K a) (algebraMap F K b) (φ z)) := by
    intro z hz
    have h := congrArg φ hz
    rw [AlgHom.commutes] at h
    rw [h]
    unfold jOf velu2A velu2B
    simp only [map_div₀, map_sub, map_add, map_mul, map_pow, map_ofNat, AlgHom.commutes]
  have hφinj : Function.Injective φ := φ.toRingHom.injective
  -- no root is fixed by the square of Frobenius
  have hfix1 : ∀ z : K, z ^ 3 + algebraMap F K a * z + algebraMap F K b = 0 → φ z ≠ z := fun z hz h => hnoK z h hz
  have hfix2 : ∀ z : K, z ^ 3 + algebraMap F K a * z + algebraMap F K b = 0 → φ (φ z) ≠ z := by
    intro z hz h
    have h1 := hroot z hz
    have hne := hfix1 z hz
    have h4 : z ^ 2 + z * φ z + φ z ^ 2 + algebraMap F K a = 0 := by
      refine (mul_eq_zero.1 (?_ : (φ z - z) * (z ^ 2 + z * φ z + φ z ^ 2 + algebraMap F K a) = 0)).resolve_left (sub_ne_zero.2 hne)
      linear_combination h1 - hz
    refine hnoK (-(z + φ z)) ?_ ?_
    · rw [← hfr, map_neg, map_add, h, add_comm]
    · linear_combination hz - (φ z + 2 * z) * h4
  have hsq : ∀ z : K, z ^ 3 + algebraMap F K a * z + algebraMap F K b = 0 → φ z ^ 2 ≠ z ^ 2 := by
    intro z hz h
    rcases sq_eq_sq_iff_eq_or_eq_neg.1 h with h | h
    · exact hfix1 z hz h
    · apply hfix2 z hz
      rw [h, map_neg, h, neg_neg]
  have hsq2 : ∀ z : K, z ^ 3 + algebraMap F K a * z + algebraMap F K b = 0 → φ (φ z) ^ 2 ≠ z ^ 2 := by
    intro z hz h
    rcases sq_eq_sq_iff_eq_or_eq_neg.1 h with h | h
    · exact hfix2 z hz h
    · have h5 := hroot _ (hroot z hz)
      rw [h] at h5
      have hbK : algebraMap F K b = 0 := by
        refine (mul_eq_zero.1 (?_ : 2 * algebraMap F K b = 0)).resolve_left h2K
        linear_combination h5 + hz
      exact hb ((algebraMap F K).injective (by rw [hbK, map_zero]))
  obtain ⟨i, hi⟩ := three_collide h2K h3K (disc_ext hd K) ((_root_.map_ne_zero _).2 ha) ((_root_.map_ne_zero _).2 hb)
    ![e, φ e, φ (φ e)] (by
      intro i k h
      fin_cases i <;> fin_cases k <;> simp at h ⊢
      · exact hsq e he h.symm
      · exact hsq2 e he h.symm
      · exact hsq e he h
      · exact hsq (φ e) (hroot e he) h.symm
      · exact hsq2 e he h
      · exact hsq (φ e) (hroot e he) h) (by
      intro i
      fin_cases i
      · exact he
      · exact hroot e he
      · exact hroot _ (hroot e he)) (by
      intro i
      fin_cases i
      · exact hx
      · exact hjx e hx
      · exact hjx _ (hjx e hx))
  have hgen : ∀ z : K, z ^ 3 + algebraMap F K a * z + algebraMap F K b = 0 → z ^ 2 ≠ -4 * algebraMap F K a := by
    intro z hz h
    apply hsq z hz
    have := congrArg φ h
    rw [map_pow] at this
    rw [this, h]
    simp only [map_mul, map_neg, map_ofNat, AlgHom.commutes]
  fin_cases i
  · exact hgen _ he hi
  · exact hgen _ (hroot e he) hi
  · exact hgen _ (hroot _ (hroot e he)) hi

end
end EC
