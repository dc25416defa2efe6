import Verif.Lemmas.Twist
import Mathlib.AlgebraicGeometry.EllipticCurve.DivisionPolynomial.Degree
import Mathlib.FieldTheory.IsAlgClosed.Basic

/-! Pure mathematics: over an algebraically closed field in which `n ≠ 0`, `y^2 = x^3 + a x + b` has at least `n^2`
points `P` with `n P = 0`. -/

namespace EC
open WeierstrassCurve EDS Polynomial

section
variable {K : Type} [Field K] [DecidableEq K] {a b : K}

theorem eval_Ψ₂Sq {x y : K} (h : y ^ 2 = x ^ 3 + a * x + b) : ((cv a b).Ψ₂Sq).eval x = (2 * y) ^ 2 := by
  simp only [Ψ₂Sq, WeierstrassCurve.b₂, WeierstrassCurve.b₄, WeierstrassCurve.b₆, eval_add, eval_mul, eval_pow, eval_C,
    eval_X]
  linear_combination -4 * h

theorem eval_Ψ₃ (x : K) : ((cv a b).Ψ₃).eval x = psi3 a b x := by
  simp only [Ψ₃, WeierstrassCurve.b₂, WeierstrassCurve.b₄, WeierstrassCurve.b₆, WeierstrassCurve.b₈, eval_add, eval_mul,
    eval_pow, eval_C, eval_X, eval_ofNat, psi3]
  ring

theorem eval_preΨ₄ (x : K) : ((cv a b).preΨ₄).eval x = psi4 a b x := by
  simp only [preΨ₄, WeierstrassCurve.b₂, WeierstrassCurve.b₄, WeierstrassCurve.b₆, WeierstrassCurve.b₈, eval_add, eval_mul,
    eval_pow, eval_C, eval_X, eval_ofNat, psi4]
  ring

theorem eval_preΨ {x y : K} (h : y ^ 2 = x ^ 3 + a * x + b) (n : ℤ) :
    ps a b x y n = ((cv a b).preΨ n).eval x * if Even n then 2 * y else 1 := by
  have := map_preNormEDS (evalRingHom x) ((cv a b).Ψ₂Sq ^ 2) (cv a b).Ψ₃ (cv a b).preΨ₄ n
  simp only [map_pow, coe_evalRingHom, eval_Ψ₂Sq h, eval_Ψ₃, eval_preΨ₄] at this
  rw [ps, normEDS, preΨ, this, ← pow_mul]

theorem eval_ΨSq {x y : K} (h : y ^ 2 = x ^ 3 + a * x + b) (n : ℤ) :
    ((cv a b).ΨSq n).eval x = ps a b x y n ^ 2 := by
  rw [eval_preΨ h, ΨSq, eval_mul, eval_pow]
  split_ifs
  · rw [eval_Ψ₂Sq h]; ring
  · rw [eval_one]; ring

theorem eval_Φ {x y : K} (h : y ^ 2 = x ^ 3 + a * x + b) (n : ℤ) :
    ((cv a b).Φ n).eval x = x * ps a b x y n ^ 2 - ps a b x y (n + 1) * ps a b x y (n - 1) := by
  rw [WeierstrassCurve.Φ, eval_sub, eval_mul, eval_X, eval_ΨSq h, eval_mul, eval_mul, eval_preΨ h (n + 1), eval_preΨ h (n - 1)]
  by_cases hn : Even n
  · have h1 : ¬ Even (n + 1) := by rw [Int.even_add_one]; exact not_not.2 hn
    have h2 : ¬ Even (n - 1) := by rw [Int.even_sub_one]; exact not_not.2 hn
    rw [if_pos hn, if_neg h1, if_neg h2, eval_one]; ring
  · have h1 : Even (n + 1) := by rw [Int.even_add_one]; exact hn
    have h2 : Even (n - 1) := by rw [Int.even_sub_one]; exact hn
    rw [if_neg hn, if_pos h1, if_pos h2, eval_Ψ₂Sq h]; ring

/-- The derivative of `Φ / ΨSq` is not zero. -/
theorem wronskian_ne {n : ℕ} (hn : (n : K) ≠ 0) :
    derivative ((cv a b).Φ n) * (cv a b).ΨSq n - (cv a b).Φ n * derivative ((cv a b).ΨSq n) ≠ 0 := by
  have n0 : n ≠ 0 := by rintro rfl; simp at hn
  rcases (by omega : n = 1 ∨ 2 ≤ n) with rfl | h2
  · simp
  have h4 : 4 ≤ n ^ 2 := by nlinarith
  obtain ⟨D, hD⟩ : ∃ D, n ^ 2 = D + 2 := ⟨n ^ 2 - 2, by omega⟩
  have d1 := (cv a b).natDegree_Φ_le n
  have d2 := (cv a b).natDegree_ΨSq_le n
  have c1 := (cv a b).coeff_Φ n
  have c2 := (cv a b).coeff_ΨSq n
  rw [Int.natAbs_natCast, hD] at d1 d2 c1 c2
  rw [show D + 2 - 1 = D + 1 by omega] at d2 c2
  have e1 := coeff_mul_add_eq_of_natDegree_le (f := derivative ((cv a b).Φ n)) (g := (cv a b).ΨSq n) (df := D + 1) (dg := D + 1)
    ((natDegree_derivative_le _).trans (by omega)) d2
  have e2 := coeff_mul_add_eq_of_natDegree_le (f := (cv a b).Φ n) (g := derivative ((cv a b).ΨSq n)) (df := D + 2) (dg := D)
    d1 ((natDegree_derivative_le _).trans (by omega))
  rw [coeff_derivative, c1, c2] at e1
  rw [coeff_derivative, c1, c2] at e2
  rw [show D + 2 + D = D + 1 + (D + 1) by omega] at e2
  have hD' : (n : K) ^ 2 = D + 2 := by exact_mod_cast congrArg (Nat.cast : ℕ → K) hD
  intro h0
  have h5 := congrArg (fun f => coeff f (D + 1 + (D + 1))) h0
  simp only [coeff_sub, coeff_zero] at h5
  rw [e1, e2] at h5
  apply pow_ne_zero 2 hn
  push_cast at h5
  linear_combination h5

theorem xc_nsmul_iff (h2 : (2 : K) ≠ 0) {P : Pt a b} (hP : P ≠ 0) {n : ℕ} (hn : n ≠ 0) :
    (((cv a b).ΨSq n).eval (xc P) = 0 ↔ n • P = 0) ∧
    (n • P ≠ 0 → xc (n • P) * ((cv a b).ΨSq n).eval (xc P) = ((cv a b).Φ n).eval (xc P)) ∧
    (n • P = 0 → ((cv a b).Φ n).eval (xc P) ≠ 0) := by
  have e := eqn hP
  rw [eval_ΨSq e, eval_Φ e]
  have f1 : ps a b (xc P) (yc P) n = F P n := rfl
  have f2 : ps a b (xc P) (yc P) (n + 1) = F P (n + 1) := by rw [F]; push_cast; rfl
  have f3 : ps a b (xc P) (yc P) (n - 1) = F P (n - 1) := by rw [F, Nat.cast_sub (by omega)]; push_cast; rfl
  rw [f1, f2, f3]
  refine ⟨?_, F_x h2 hP n hn, fun h => ?_⟩
  · rw [pow_eq_zero_iff two_ne_zero, F_eq_zero_iff h2 hP n hn]
  · rw [(F_eq_zero_iff h2 hP n hn).2 h]
    have := F_phi_ne h2 hP n hn h
    simpa using this

theorem exists_point [IsAlgClosed K] (h2 : (2 : K) ≠ 0) (hd : 4 * a ^ 3 + 27 * b ^ 2 ≠ 0) (x : K) :
    ∃ P : Pt a b, P ≠ 0 ∧ xc P = x := by
  obtain ⟨y, hy⟩ := IsAlgClosed.exists_pow_nat_eq (x ^ 3 + a * x + b) (n := 2) (by norm_num)
  exact ⟨.some x y (nonsing_of h2 hd hy), Affine.Point.some_ne_zero _, rfl⟩

/-- At least `n^2` points are killed by `n`. -/
theorem card_torsion [IsAlgClosed K] (h2 : (2 : K) ≠ 0) (hd : 4 * a ^ 3 + 27 * b ^ 2 ≠ 0) {n : ℕ} (hn : (n : K) ≠ 0) :
    ∃ s : Finset (Pt a b), s.card = n ^ 2 ∧ ∀ P ∈ s, n • P = 0 := by
  have n0 : n ≠ 0 := by rintro rfl; simp at hn
  have : Infinite K := IsAlgClosed.instInfinite
  set Φ := (cv a b).Φ n with hΦ
  set Ψ := (cv a b).ΨSq n with hΨ
  set W := derivative Φ * Ψ - Φ * derivative Ψ with hW
  have hW0 : W ≠ 0 := wronskian_ne hn
  obtain ⟨r, hr⟩ := Infinite.exists_notMem_finset (W.roots.toFinset.image fun x => Φ.eval x / Ψ.eval x)
  set G := Φ - C r * Ψ with hG
  have hΨd : Ψ.natDegree < n ^ 2 := by
    have := (cv a b).natDegree_ΨSq_le n
    rw [Int.natAbs_natCast, ← hΨ] at this
    have h1 : 1 ≤ n ^ 2 := Nat.one_le_pow _ _ (by omega)
    omega
  have hΦd : Φ.natDegree = n ^ 2 := by
    have := (cv a b).natDegree_Φ n
    rwa [Int.natAbs_natCast] at this
  have hGd : G.natDegree = n ^ 2 := by
    rw [hG, natDegree_sub_eq_left_of_natDegree_lt, hΦd]
    rw [hΦd]
    exact (natDegree_C_mul_le _ _).trans_lt hΨd
  have h1 : 1 ≤ n ^ 2 := Nat.one_le_pow _ _ (by omega)
  have hG0 : G ≠ 0 := by rintro h0; rw [h0, natDegree_zero] at hGd; omega
  -- the roots of `G` are not zeros of `Ψ`
  have hroot : ∀ x, G.eval x = 0 → Φ.eval x = r * Ψ.eval x ∧ Ψ.eval x ≠ 0 := by
    intro x hx
    have e1 : Φ.eval x = r * Ψ.eval x := by
      rw [hG, eval_sub, eval_mul, eval_C] at hx; exact sub_eq_zero.1 hx
    refine ⟨e1, fun h0 => ?_⟩
    obtain ⟨P, hP, rfl⟩ := exists_point h2 hd x
    obtain ⟨k1, -, k3⟩ := xc_nsmul_iff h2 hP n0
    exact k3 (k1.1 h0) (by rw [← hΦ, e1, h0, mul_zero])
  have hsep : G.roots.Nodup := by
    rw [Multiset.nodup_iff_count_le_one]
    intro x
    rw [count_roots]
    by_contra hlt
    obtain ⟨g1, g2⟩ := (one_lt_rootMultiplicity_iff_isRoot hG0).1 (not_le.1 hlt)
    obtain ⟨e1, e2⟩ := hroot x g1
    have e3 : (derivative Φ).eval x = r * (derivative Ψ).eval x := by
      rw [IsRoot.def, hG, derivative_sub, derivative_C_mul, eval_sub, eval_mul, eval_C] at g2; exact sub_eq_zero.1 g2
    apply hr
    rw [Finset.mem_image]
    refine ⟨x, ?_, ?_⟩
    · rw [Multiset.mem_toFinset, mem_roots hW0, IsRoot.def, hW, eval_sub, eval_mul, eval_mul, e1, e3]
      ring
    · rw [e1]; field_simp
  have hcard : G.roots.toFinset.card = n ^ 2 := by
    rw [Multiset.toFinset_card_of_nodup hsep, ← hGd]
    exact (splits_iff_card_roots.1 (IsAlgClosed.splits G))
  obtain ⟨R, hR, hRr⟩ := exists_point (a := a) (b := b) h2 hd r
  have hpt : ∀ x, G.eval x = 0 → ∃ P : Pt a b, xc P = x ∧ n • P = R := by
    intro x hx
    obtain ⟨e1, e2⟩ := hroot x hx
    obtain ⟨P, hP, rfl⟩ := exists_point (a := a) (b := b) h2 hd x
    obtain ⟨k1, k2, -⟩ := xc_nsmul_iff h2 hP n0
    have hnP : n • P ≠ 0 := fun h0 => e2 (k1.2 h0)
    have e3 := k2 hnP
    rw [← hΦ, ← hΨ, e1] at e3
    have e4 : xc (n • P) = xc R := by rw [hRr]; exact mul_right_cancel₀ e2 e3
    rcases (xc_eq_iff hnP hR).1 e4 with h | h
    · exact ⟨P, rfl, h⟩
    · exact ⟨-P, xc_neg P, by rw [smul_neg, h, neg_neg]⟩
  choose! f hf using hpt
  have hmem : ∀ x ∈ G.roots.toFinset, G.eval x = 0 := fun x hx => by
    rw [Multiset.mem_toFinset, mem_roots hG0] at hx; exact hx
  have hinj : Set.InjOn f G.roots.toFinset := by
    intro x hx y hy hxy
    rw [← (hf x (hmem x hx)).1, ← (hf y (hmem y hy)).1, hxy]
  obtain ⟨x0, hx0⟩ : G.roots.toFinset.Nonempty := by rw [← Finset.card_pos, hcard]; omega
  refine ⟨(G.roots.toFinset.image f).image (fun P => P - f x0), ?_, ?_⟩
  · rw [Finset.card_image_of_injective _ (fun P Q h => sub_left_injective h), Finset.card_image_of_injOn hinj, hcard]
  · intro P hP
    simp only [Finset.mem_image] at hP
    obtain ⟨_, ⟨x, hx, rfl⟩, rfl⟩ := hP
    rw [smul_sub, (hf x (hmem x hx)).2, (hf x0 (hmem x0 hx0)).2, sub_self]

/-- At least `(n^2 - 1) / 2` elements are `x`-coordinates of points other than 0 killed by `n`. -/
theorem card_torsion_x [IsAlgClosed K] (h2 : (2 : K) ≠ 0) (hd : 4 * a ^ 3 + 27 * b ^ 2 ≠ 0) {n : ℕ} (hn : (n : K) ≠ 0) :
    ∃ t : Finset K, n ^ 2 ≤ 2 * t.card + 1 ∧ ∀ x ∈ t, ∃ P : Pt a b, P ≠ 0 ∧ n • P = 0 ∧ xc P = x := by
  obtain ⟨s, h1, hs⟩ := card_torsion h2 hd hn
  refine ⟨(s.erase 0).image xc, ?_, ?_⟩
  · have h3 : (s.erase 0).card ≤ 2 * ((s.erase 0).image xc).card := by
      apply Finset.card_le_mul_card_image
      intro x hx
      obtain ⟨P, hP, rfl⟩ := Finset.mem_image.1 hx
      refine (Finset.card_le_card (t := {P, -P}) ?_).trans Finset.card_le_two
      intro Q hQ
      rw [Finset.mem_filter] at hQ
      rw [Finset.mem_insert, Finset.mem_singleton]
      exact (xc_eq_iff (Finset.mem_erase.1 hQ.1).1 (Finset.mem_erase.1 hP).1).1 hQ.2
    have h4 := Finset.pred_card_le_card_erase (s := s) (a := 0)
    omega
  · intro x hx
    obtain ⟨P, hP, rfl⟩ := Finset.mem_image.1 hx
    rw [Finset.mem_erase] at hP
    exact ⟨P, hP.1, hs P hP.2, rfl⟩

end
end EC
