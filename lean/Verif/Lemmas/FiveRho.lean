import Verif.Lemmas.FiveTors
import Verif.Spec.Five

/-! The curve `y^2 = x^3 + b` and its automorphism `(x, y) -> (w x, y)`, `w^2 + w + 1 = 0`, on the points of order 5;
the fifth division polynomial. -/

namespace EC
open Poly Polynomial WeierstrassCurve EDS

section
variable {K : Type} [Field K] [DecidableEq K] {a b : K}

theorem F_five {P : Pt a b} (hP : P ≠ 0) : F P 5 = (psi5 a b).eval (xc P) := by
  have h := normEDS_odd (2 * yc P) (psi3 a b (xc P)) (psi4 a b (xc P)) 2
  have e := eqn hP
  rw [show (2 : ℤ) * 2 + 1 = 5 by norm_num, show (2 : ℤ) + 2 = 4 by norm_num, show (2 : ℤ) - 1 = 1 by norm_num,
    show (2 : ℤ) + 1 = 3 by norm_num, normEDS_four, normEDS_two, normEDS_one, normEDS_three] at h
  rw [F, ps, show ((5 : ℕ) : ℤ) = 5 from rfl, h]
  have e4 : yc P ^ 4 = (xc P ^ 3 + a * xc P + b) ^ 2 := by rw [← e]; ring
  simp only [psi5, psi3, psi4, eval_add, eval_sub, eval_mul, eval_pow, eval_C, eval_X]
  linear_combination (32 * (xc P ^ 6 + 5 * a * xc P ^ 4 + 20 * b * xc P ^ 3 - 5 * a ^ 2 * xc P ^ 2 - 4 * a * b * xc P -
    8 * b ^ 2 - a ^ 3)) * e4

omit [DecidableEq K] in
theorem psi5_natDegree (h5 : (5 : K) ≠ 0) : (psi5 a b).natDegree = 12 := by
  unfold psi5; compute_degree!

theorem psi5_root (h2 : (2 : K) ≠ 0) {P : Pt a b} (hP : P ≠ 0) (h5 : (5 : ℤ) • P = 0) : (psi5 a b).IsRoot (xc P) := by
  rw [IsRoot.def, ← F_five hP]
  refine (F_eq_zero_iff h2 hP 5 (by norm_num)).2 ?_
  rw [← natCast_zsmul]; exact h5

/-- A set of points of order 5 has at most 25 elements. -/
theorem card_five_le (h2 : (2 : K) ≠ 0) (hK5 : (5 : K) ≠ 0) (s : Finset (Pt a b)) (hs : ∀ P ∈ s, (5 : ℤ) • P = 0) :
    s.card ≤ 25 := by
  have hp0 : psi5 a b ≠ 0 := by
    intro h0
    have := psi5_natDegree (a := a) (b := b) hK5
    rw [h0, natDegree_zero] at this
    omega
  have h3 : (s.erase 0).card ≤ 2 * ((s.erase 0).image xc).card := by
    apply Finset.card_le_mul_card_image
    intro x hx
    obtain ⟨P, hP, rfl⟩ := Finset.mem_image.1 hx
    refine (Finset.card_le_card (t := {P, -P}) ?_).trans Finset.card_le_two
    intro Q hQ
    rw [Finset.mem_filter] at hQ
    rw [Finset.mem_insert, Finset.mem_singleton]
    exact (xc_eq_iff (Finset.mem_erase.1 hQ.1).1 (Finset.mem_erase.1 hP).1).1 hQ.2
  have h4 := Finset.pred_card_le_card_erase (s := s) (a := 0)
  have h5 : (s.erase 0).image xc ⊆ (psi5 a b).roots.toFinset := by
    intro x hx
    obtain ⟨P, hP, rfl⟩ := Finset.mem_image.1 hx
    rw [Finset.mem_erase] at hP
    rw [Multiset.mem_toFinset, mem_roots hp0]
    exact psi5_root h2 hP.1 (hs P hP.2)
  have h6 := Finset.card_le_card h5
  have h7 := (Multiset.toFinset_card_le (psi5 a b).roots).trans (card_roots' _)
  rw [psi5_natDegree hK5] at h7
  omega

theorem five_indep {P R : Pt a b} (hP : P ≠ 0) (h5P : (5 : ℤ) • P = 0) (h5R : (5 : ℤ) • R = 0)
    (hR : ∀ m : ℤ, R ≠ m • P) {u v : ℤ} (h : u • P + v • R = 0) : (5 : ℤ) ∣ u ∧ (5 : ℤ) ∣ v := by
  have hv : (5 : ℤ) ∣ v := by
    by_contra hv
    have : v % 5 = 1 ∨ v % 5 = 2 ∨ v % 5 = 3 ∨ v % 5 = 4 := by omega
    have hd : v = 5 * (v / 5) + v % 5 := by omega
    have h' : u • P + (v % 5) • R = 0 := by
      rw [hd] at h
      linear_combination (norm := module) h - (v / 5) • h5R
    rcases this with h0 | h0 | h0 | h0 <;> rw [h0] at h'
    · exact hR (-u) (by linear_combination (norm := module) h')
    · exact hR (2 * u) (by linear_combination (norm := module) h5R - (2 : ℤ) • h')
    · exact hR (-2 * u) (by linear_combination (norm := module) (2 : ℤ) • h' - h5R)
    · exact hR u (by linear_combination (norm := module) h5R - h')
  refine ⟨?_, hv⟩
  obtain ⟨k, rfl⟩ := hv
  apply five_dvd hP h5P
  linear_combination (norm := module) h - k • h5R

/-- Two independent points of order 5 generate the points of order 5. -/
theorem five_span (h2 : (2 : K) ≠ 0) (hK5 : (5 : K) ≠ 0) {P R Q : Pt a b} (hP : P ≠ 0) (h5P : (5 : ℤ) • P = 0)
    (h5R : (5 : ℤ) • R = 0) (h5Q : (5 : ℤ) • Q = 0) (hR : ∀ m : ℤ, R ≠ m • P) : ∃ u v : ℤ, Q = u • P + v • R := by
  by_contra hc
  push Not at hc
  let f : ℕ × ℕ → Pt a b := fun w => (w.1 : ℤ) • P + (w.2 : ℤ) • R
  let s := (Finset.range 5 ×ˢ Finset.range 5).image f
  have hs : s.card = 25 := by
    rw [Finset.card_image_of_injOn, Finset.card_product, Finset.card_range]
    rintro ⟨u, v⟩ hw ⟨u', v'⟩ hw' h
    rw [Finset.mem_coe, Finset.mem_product, Finset.mem_range, Finset.mem_range] at hw hw'
    dsimp only [f] at h hw hw'
    have := five_indep hP h5P h5R hR (u := (u : ℤ) - u') (v := (v : ℤ) - v') (by
      linear_combination (norm := module) h)
    rw [Prod.mk.injEq]
    constructor <;> omega
  have hQ : Q ∉ s := by
    intro h
    obtain ⟨w, -, hw⟩ := Finset.mem_image.1 h
    exact hc _ _ hw.symm
  have := card_five_le h2 hK5 (insert Q s) (by
    intro T hT
    rcases Finset.mem_insert.1 hT with rfl | hT
    · exact h5Q
    · obtain ⟨w, -, rfl⟩ := Finset.mem_image.1 hT
      dsimp only [f]
      rw [smul_add, smul_comm, h5P, smul_comm, h5R, smul_zero, smul_zero, add_zero])
  rw [Finset.card_insert_of_notMem hQ, hs] at this
  omega

end

section
variable {K : Type} [Field K] [DecidableEq K] {a b : ℤ}

/-- The automorphism. -/
def rho (h2 : (2 : K) ≠ 0) (hd : 4 * (a : K) ^ 3 + 27 * (b : K) ^ 2 ≠ 0) (ha : (a : K) = 0) (w : K) (hw : w ^ 3 = 1) :
    Pt (a : K) b → Pt (a : K) b
  | .zero => .zero
  | .some x y h => .some (w * x) y (nonsing_of h2 hd (by
      have := (Affine.equation_iff _ _).1 h.1
      have e : y ^ 2 = x ^ 3 + a * x + b := by simpa using this
      rw [ha] at e ⊢
      linear_combination e - x ^ 3 * hw))

variable (h2 : (2 : K) ≠ 0) (hd : 4 * (a : K) ^ 3 + 27 * (b : K) ^ 2 ≠ 0) (ha : (a : K) = 0) {w : K} (hw : w ^ 3 = 1)

theorem rho_ne {P : Pt (a : K) b} (hP : P ≠ 0) : rho h2 hd ha w hw P ≠ 0 ∧ xc (rho h2 hd ha w hw P) = w * xc P ∧
    yc (rho h2 hd ha w hw P) = yc P := by
  cases P with
  | zero => exact absurd rfl hP
  | some x y h => exact ⟨by simp [rho], rfl, rfl⟩

theorem rho_zero : rho h2 hd ha w hw (0 : Pt (a : K) b) = 0 := rfl

theorem rho_neg (P : Pt (a : K) b) : rho h2 hd ha w hw (-P) = -rho h2 hd ha w hw P := by
  by_cases hP : P = 0
  · subst hP; rfl
  obtain ⟨p1, p2, p3⟩ := rho_ne h2 hd ha hw hP
  obtain ⟨n1, n2, n3⟩ := rho_ne h2 hd ha hw (neg_ne_zero.2 hP)
  apply EDS.ext n1 (neg_ne_zero.2 p1)
  · rw [n2, xc_neg, xc_neg, p2]
  · rw [n3, yc_neg, yc_neg, p3]

theorem rho_add (P Q : Pt (a : K) b) :
    rho h2 hd ha w hw (P + Q) = rho h2 hd ha w hw P + rho h2 hd ha w hw Q := by
  have hw0 : w ≠ 0 := by rintro rfl; simp at hw
  by_cases hP : P = 0
  · rw [hP, zero_add, rho_zero, zero_add]
  by_cases hQ : Q = 0
  · rw [hQ, add_zero, rho_zero, add_zero]
  obtain ⟨p1, p2, p3⟩ := rho_ne h2 hd ha hw hP
  obtain ⟨q1, q2, q3⟩ := rho_ne h2 hd ha hw hQ
  by_cases h : xc P = xc Q
  · rcases (xc_eq_iff hP hQ).1 h with rfl | rfl
    · by_cases hy : yc P = 0
      · rw [(two_nsmul_eq_zero_iff h2 hP).2 hy, (two_nsmul_eq_zero_iff h2 p1).2 (by rw [p3, hy]), rho_zero]
      · have hy' : yc (rho h2 hd ha w hw P) ≠ 0 := by rwa [p3]
        have hs : P + P ≠ 0 := fun h0 => hy ((two_nsmul_eq_zero_iff h2 hP).1 h0)
        have hs' : rho h2 hd ha w hw P + rho h2 hd ha w hw P ≠ 0 :=
          fun h0 => hy' ((two_nsmul_eq_zero_iff h2 p1).1 h0)
        obtain ⟨s1, s2, s3⟩ := rho_ne h2 hd ha hw hs
        have a1 := xc_double h2 hP hy
        have a2 := yc_double h2 hP hy
        have b1 := xc_double h2 p1 hy'
        have b2 := yc_double h2 p1 hy'
        rw [p2, p3] at b1 b2
        have h2y := mul_ne_zero h2 hy
        have ex : xc (rho h2 hd ha w hw (P + P)) = xc (rho h2 hd ha w hw P + rho h2 hd ha w hw P) := by
          apply mul_right_cancel₀ (pow_ne_zero 2 h2y)
          rw [b1, s2, mul_assoc, a1]
          linear_combination -9 * w * xc P ^ 4 * hw + (6 * w * xc P ^ 2 - 6 * w ^ 2 * xc P ^ 2 + (w - 1) * a) * ha
        refine EDS.ext s1 hs' ex ?_
        apply mul_right_cancel₀ h2y
        rw [b2, s3, a2, ← ex, s2]
        linear_combination -3 * xc P ^ 2 * (xc P - xc (P + P)) * hw + (xc P - xc (P + P)) * (1 - w) * ha
    · rw [rho_neg, neg_add_cancel, neg_add_cancel, rho_zero]
  · have hs := add_ne_zero_of_xc hP hQ h
    obtain ⟨s1, s2, s3⟩ := rho_ne h2 hd ha hw hs
    have hx : xc (rho h2 hd ha w hw P) ≠ xc (rho h2 hd ha w hw Q) := by
      rw [p2, q2]; exact fun h0 => h (mul_left_cancel₀ hw0 h0)
    have a1 := xc_add hP hQ h
    have a2 := yc_add hP hQ h
    have b1 := xc_add p1 q1 hx
    have b2 := yc_add p1 q1 hx
    have hd' := sub_ne_zero.2 hx
    have ex : xc (rho h2 hd ha w hw (P + Q)) = xc (rho h2 hd ha w hw P + rho h2 hd ha w hw Q) := by
      apply mul_right_cancel₀ (pow_ne_zero 2 hd')
      rw [b1, s2, p2, q2, p3, q3]
      linear_combination w ^ 3 * a1 + (yc P - yc Q) ^ 2 * hw
    refine EDS.ext s1 (add_ne_zero_of_xc p1 q1 hx) ex ?_
    apply mul_right_cancel₀ hd'
    rw [b2, ← ex, s2, s3, p2, q2, p3, q3]
    linear_combination w * a2

/-- The automorphism as a homomorphism. -/
def rhoHom : Pt (a : K) b →+ Pt (a : K) b where
  toFun := rho h2 hd ha w hw
  map_zero' := rfl
  map_add' := rho_add h2 hd ha hw

theorem rho_three (hw1 : w ^ 2 + w + 1 = 0) (h3 : (3 : K) ≠ 0) {P : Pt (a : K) b} (hP : P ≠ 0) (hx : xc P ≠ 0) :
    rho h2 hd ha w hw (rho h2 hd ha w hw P) + rho h2 hd ha w hw P + P = 0 := by
  obtain ⟨p1, p2, p3⟩ := rho_ne h2 hd ha hw hP
  obtain ⟨q1, q2, q3⟩ := rho_ne h2 hd ha hw p1
  have hw' : w ≠ 1 := by
    rintro rfl
    apply h3
    linear_combination hw1
  have hne : xc (rho h2 hd ha w hw P) ≠ xc P := by
    rw [p2]
    intro h
    apply hw'
    apply mul_right_cancel₀ hx
    rw [h, one_mul]
  have hs := add_ne_zero_of_xc p1 hP hne
  have a1 := xc_add p1 hP hne
  have a2 := yc_add p1 hP hne
  have hd' := sub_ne_zero.2 hne
  rw [add_assoc, ← eq_neg_iff_add_eq_zero]
  have ex : xc (rho h2 hd ha w hw P + P) = xc (rho h2 hd ha w hw (rho h2 hd ha w hw P)) := by
    apply mul_right_cancel₀ (pow_ne_zero 2 hd')
    rw [a1, q2, p2, p3]
    linear_combination -(xc P) * (w * xc P - xc P) ^ 2 * hw1
  apply EDS.ext q1 (neg_ne_zero.2 hs)
  · rw [xc_neg, ex]
  · rw [yc_neg]
    apply mul_right_cancel₀ hd'
    rw [neg_mul, a2, q3, p3]
    ring

/-- For `a = 0` the test on `y` passes for the sum with `c = 1`. -/
theorem five_rho_test (h3 : (3 : K) ≠ 0) (hK5 : (5 : K) ≠ 0) (hw1 : w ^ 2 + w + 1 = 0)
    {σ : Pt (a : K) b →+ Pt (a : K) b}
    (hσ : ∀ P : Pt (a : K) b, (5 : ℤ) • P = 0 → σ (σ P) + (1 : ℤ) • P = (1 : ℤ) • σ P)
    (hz : ∀ P : Pt (a : K) b, P ≠ 0 → (5 : ℤ) • P = 0 → xc P = 0 → ∃ m : ℤ, σ P = m • P)
    (hcom : (∀ P, σ (rho h2 hd ha w hw P) = rho h2 hd ha w hw (σ P)) ∨
      (∀ P, σ (rho h2 hd ha w hw P) = rho h2 hd ha w hw (rho h2 hd ha w hw (σ P))))
    {P : Pt (a : K) b} (hP : P ≠ 0) (h5 : (5 : ℤ) • P = 0) : yDefect ((1 : ℤ) • P) (σ (σ P)) (σ P) = 0 := by
  have noeig : ∀ {P : Pt (a : K) b} (m : ℤ), P ≠ 0 → (5 : ℤ) • P = 0 → σ P ≠ m • P := by
    intro P m hP h5 h
    have h1 := sig_eig hσ hP h5 h
    have : m % 5 = 0 ∨ m % 5 = 1 ∨ m % 5 = 2 ∨ m % 5 = 3 ∨ m % 5 = 4 := by omega
    have h3 := Int.emod_eq_zero_of_dvd h1
    rcases this with h | h | h | h | h <;> simp [Int.sub_emod, Int.add_emod, Int.mul_emod, h] at h3
  have nx : ∀ {P : Pt (a : K) b}, P ≠ 0 → (5 : ℤ) • P = 0 → xc P ≠ 0 := by
    intro P hP h5 h
    obtain ⟨m, hm⟩ := hz P hP h5 h
    exact noeig m hP h5 hm
  obtain ⟨ρ, hρ⟩ : ∃ ρ : Pt (a : K) b →+ Pt (a : K) b, ∀ P, ρ P = rho h2 hd ha w hw P :=
    ⟨rhoHom h2 hd ha hw, fun _ => rfl⟩
  have r3 : ∀ {P : Pt (a : K) b}, P ≠ 0 → (5 : ℤ) • P = 0 → ρ (ρ P) + ρ P + P = 0 := by
    intro P hP h5
    rw [hρ, hρ]
    exact rho_three h2 hd ha hw hw1 h3 hP (nx hP h5)
  have ry : ∀ {P : Pt (a : K) b}, P ≠ 0 → yc (ρ P) = yc P := by
    intro P hP
    rw [hρ]; exact (rho_ne h2 hd ha hw hP).2.2
  have rn : ∀ {P : Pt (a : K) b}, P ≠ 0 → ρ P ≠ 0 := by
    intro P hP
    rw [hρ]; exact (rho_ne h2 hd ha hw hP).1
  simp only [← hρ] at hcom
  -- the map `-σ` is `ρ` or `ρ^2` at each point
  have key : ∀ {P : Pt (a : K) b}, P ≠ 0 → (5 : ℤ) • P = 0 → yc (σ P) = -yc P := by
    intro P hP h5
    have h5S := sig_tors (σ := σ) h5
    have nS := sig_ne hσ (by norm_num) hP h5
    have e0 := hσ P h5
    rcases hcom with hcom | hcom
    · have hR : ∀ m : ℤ, ρ P ≠ m • P := by
        intro m hm
        have e1 := r3 hP h5
        rw [hm, map_zsmul, hm] at e1
        have h1 := five_dvd hP h5 (k := m * m + m + 1) (by linear_combination (norm := module) e1)
        have : m % 5 = 0 ∨ m % 5 = 1 ∨ m % 5 = 2 ∨ m % 5 = 3 ∨ m % 5 = 4 := by omega
        have h3 := Int.emod_eq_zero_of_dvd h1
        rcases this with h | h | h | h | h <;> simp [Int.add_emod, Int.mul_emod, h] at h3
      have h5R : (5 : ℤ) • ρ P = 0 := sig_tors (σ := ρ) h5
      obtain ⟨u, v, huv⟩ := five_span h2 hK5 hP h5 h5R h5S hR
      have e2 : σ (σ P) = u • (u • P + v • ρ P) + v • (u • ρ P + v • ρ (ρ P)) := by
        conv_lhs => rw [huv]
        rw [map_add, map_zsmul, map_zsmul, hcom, huv, map_add, map_zsmul, map_zsmul]
      have e3 := r3 hP h5
      have e4 : (u * u - v * v - u + 1) • P + (2 * u * v - v * v - v) • ρ P = 0 := by
        linear_combination (norm := module) e0 - e2 + huv - (v * v) • e3
      obtain ⟨d1, d2⟩ := five_indep hP h5 h5R hR e4
      have hdec : ∀ u v : ZMod 5, u * u - v * v - u + 1 = 0 → 2 * u * v - v * v - v = 0 →
          (u = 0 ∧ v = -1) ∨ (u = 1 ∧ v = 1) := by decide
      have d1' := (ZMod.intCast_zmod_eq_zero_iff_dvd _ 5).2 d1
      have d2' := (ZMod.intCast_zmod_eq_zero_iff_dvd _ 5).2 d2
      push_cast at d1' d2'
      rcases hdec _ _ d1' d2' with ⟨hu, hv⟩ | ⟨hu, hv⟩
      · obtain ⟨i, hi⟩ := (ZMod.intCast_zmod_eq_zero_iff_dvd u 5).1 hu
        obtain ⟨k, hk⟩ := (ZMod.intCast_zmod_eq_zero_iff_dvd (v + 1) 5).1 (by push_cast; rw [hv]; rfl)
        have : σ P = -ρ P := by
          rw [huv, hi, show v = 5 * k - 1 by push_cast at hk; omega]
          push_cast
          linear_combination (norm := module) i • h5 + k • h5R
        rw [this, yc_neg, ry hP]
      · obtain ⟨i, hi⟩ := (ZMod.intCast_zmod_eq_zero_iff_dvd (u - 1) 5).1 (by push_cast; rw [hu]; rfl)
        obtain ⟨k, hk⟩ := (ZMod.intCast_zmod_eq_zero_iff_dvd (v - 1) 5).1 (by push_cast; rw [hv]; rfl)
        have : σ P = -ρ (ρ P) := by
          rw [huv, show u = 5 * i + 1 by push_cast at hi; omega, show v = 5 * k + 1 by push_cast at hk; omega]
          linear_combination (norm := module) i • h5 + k • h5R + e3
        rw [this, yc_neg, ry (rn hP), ry hP]
    · exfalso
      have c1 := hcom (σ P)
      have c2 := hcom P
      have h5R : (5 : ℤ) • ρ P = 0 := sig_tors (σ := ρ) h5
      have e1 := hσ _ h5R
      have h5RS : (5 : ℤ) • ρ (σ P) = 0 := sig_tors (σ := ρ) h5S
      have c3 := hcom (ρ (σ P))
      have e5 := r3 (rn nS) h5RS
      have e6 : ρ (ρ (σ (σ P))) + ρ (ρ P) = ρ (ρ (σ P)) := by
        have := congrArg (fun T => ρ (ρ T)) e0
        simpa only [map_add, map_zsmul, one_smul] using this
      have nSS := sig_ne hσ (by norm_num) nS h5S
      have h5SS := sig_tors (σ := σ) h5S
      have f1 := r3 nSS h5SS
      have f2 := r3 nS h5S
      have f3 := r3 hP h5
      have f4 := r3 (rn nSS) (sig_tors (σ := ρ) h5SS)
      -- `σ ρ P = ρ^2 σ P` and `σ^2 ρ P = ρ σ^2 P`
      rw [c2, c3, c1] at e1
      have g1 : ρ (σ (σ P)) + ρ P = ρ (σ P) := by
        have := congrArg ρ e0
        simpa only [map_add, map_zsmul, one_smul] using this
      have g2 : ρ (ρ (ρ (σ (σ P)))) = σ (σ P) := by linear_combination (norm := module) f4 - f1
      have g3 : ρ (ρ (σ P)) = ρ (σ P) := by
        rw [g2] at e1
        linear_combination (norm := module) -e1 + g1
      have g4 : (3 : ℤ) • ρ (σ P) = 0 := by
        rw [g3, g3] at e5
        linear_combination (norm := module) e5
      exact smul_ne_five (rn nS) h5RS (by norm_num) g4
  have nS := sig_ne hσ (by norm_num) hP h5
  have nSS := sig_ne hσ (by norm_num) nS (sig_tors h5)
  have e0 := hσ P h5
  by_cases hSS : σ (σ P) = (1 : ℤ) • P
  · rw [hSS]; exact yDefect_self _ _
  have hx := sig_xc hσ (by norm_num) (by norm_num) hP h5 hSS
  rw [one_smul] at hx ⊢
  have := (three_right h2 (P0 := P) (P1 := σ (σ P)) (P2 := -σ P) hP nSS (by
    linear_combination (norm := module) e0) hx).2 (.inr (by rw [key nS (sig_tors h5), key hP h5, neg_neg]))
  rwa [neg_neg] at this

end
end EC
