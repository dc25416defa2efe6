import Mathlib.FieldTheory.RatFunc.IntermediateField
import Mathlib.FieldTheory.Relrank

/-! Pure mathematics: the degree of a rational function, as a height. -/

namespace EC
open Polynomial IntermediateField

section
variable {F : Type} [Field F]

/-- The degree of a rational function: the larger of the degrees of numerator and denominator. -/
noncomputable def ht (r : RatFunc F) : ℕ := max r.num.natDegree r.denom.natDegree

theorem natDegree_eq_of_dvd {u v : F[X]} (h1 : u ∣ v) (h2 : v ∣ u) : u.natDegree = v.natDegree :=
  natDegree_eq_of_degree_eq (degree_eq_degree_of_associated (associated_of_dvd_dvd h1 h2))

theorem ht_div {u v : F[X]} (h : IsCoprime u v) (hv : v ≠ 0) :
    ht (algebraMap F[X] (RatFunc F) u / algebraMap F[X] (RatFunc F) v) = max u.natDegree v.natDegree := by
  set r := algebraMap F[X] (RatFunc F) u / algebraMap F[X] (RatFunc F) v with hr
  have e : r.num * v = u * r.denom := (RatFunc.num_mul_eq_mul_denom_iff hv).2 hr
  have hc := r.isCoprime_num_denom
  unfold ht
  rw [natDegree_eq_of_dvd (u := r.num) (v := u) (hc.dvd_of_dvd_mul_right (Dvd.intro _ e))
      (h.dvd_of_dvd_mul_right (Dvd.intro _ e.symm)),
    natDegree_eq_of_dvd (u := r.denom) (v := v) (hc.symm.dvd_of_dvd_mul_left (Dvd.intro_left _ e.symm))
      (h.symm.dvd_of_dvd_mul_left (Dvd.intro_left _ e))]

theorem ht_C (c : F) : ht (RatFunc.C c) = 0 := by simp [ht]

theorem ht_eq_zero {r : RatFunc F} (h : ht r = 0) : ∃ c, r = RatFunc.C c := by
  refine (RatFunc.eq_C_iff r).2 ?_
  unfold ht at h
  omega

theorem ht_X : ht (RatFunc.X : RatFunc F) = 1 := by simp [ht]

theorem ht_pow (r : RatFunc F) (n : ℕ) : ht (r ^ n) = n * ht r := by
  have e : r ^ n = algebraMap F[X] (RatFunc F) (r.num ^ n) / algebraMap F[X] (RatFunc F) (r.denom ^ n) := by
    conv_lhs => rw [← RatFunc.num_div_denom r]
    rw [div_pow, map_pow, map_pow]
  rw [e, ht_div r.isCoprime_num_denom.pow (pow_ne_zero _ r.denom_ne_zero), natDegree_pow, natDegree_pow, ht,
    Nat.mul_max_mul_left]

/-- Composition multiplies degrees. -/
theorem ht_comp (σ : RatFunc F →ₐ[F] RatFunc F) (r : RatFunc F) : ht (σ r) = ht (σ RatFunc.X) * ht r := by
  have key : ∀ s : RatFunc F, ht s = Module.finrank F⟮s⟯ (RatFunc F) := fun s => (RatFunc.finrank_eq_max_natDegree s).symm
  have h1 : F⟮σ r⟯ = (F⟮r⟯).map σ := by rw [adjoin_map, Set.image_singleton]
  have h2 : F⟮σ RatFunc.X⟯ = (F⟮(RatFunc.X : RatFunc F)⟯).map σ := by rw [adjoin_map, Set.image_singleton]
  have h3 : F⟮σ r⟯ ≤ F⟮σ RatFunc.X⟯ := by
    rw [h1, h2]
    refine IntermediateField.map_mono _ ?_
    rw [RatFunc.adjoin_X]
    exact le_top
  rw [key, key, key, ← relfinrank_mul_finrank_top h3, mul_comm]
  congr 1
  rw [h1, h2, relfinrank_map_map, RatFunc.adjoin_X, relfinrank_top_right]

/-- The substitution `x ↦ s` in rational functions, for a transcendental `s`. -/
noncomputable def substX {K : Type} [Field K] [Algebra F K] {s : K} (hs : Transcendental F s) : RatFunc F →ₐ[F] K :=
  RatFunc.liftAlgHom (aeval s) (by
    intro p hp
    rw [Submonoid.mem_comap, mem_nonZeroDivisors_iff_ne_zero]
    intro h0
    exact (mem_nonZeroDivisors_iff_ne_zero.1 hp) ((transcendental_iff.1 hs) p h0))

theorem substX_poly {K : Type} [Field K] [Algebra F K] {s : K} (hs : Transcendental F s) (p : F[X]) :
    substX hs (algebraMap F[X] (RatFunc F) p) = aeval s p := by
  unfold substX
  have := RatFunc.liftAlgHom_apply_div' (φ := aeval (R := F) s) (S := F) (hφ := by
    intro p hp
    rw [Submonoid.mem_comap, mem_nonZeroDivisors_iff_ne_zero]
    intro h0
    exact (mem_nonZeroDivisors_iff_ne_zero.1 hp) ((transcendental_iff.1 hs) p h0)) p 1
  simpa using this

theorem substX_X {K : Type} [Field K] [Algebra F K] {s : K} (hs : Transcendental F s) :
    substX hs RatFunc.X = s := by
  rw [← RatFunc.algebraMap_X, substX_poly, aeval_X]

theorem substX_C {K : Type} [Field K] [Algebra F K] {s : K} (hs : Transcendental F s) (c : F) :
    substX hs (RatFunc.C c) = algebraMap F K c := by
  rw [← RatFunc.algebraMap_C, substX_poly, aeval_C]

/-- If `S = W (r + s)` and `T = W r s` for polynomials `W ≠ 0`, `S`, `T` of degree at most `n`, the degrees of `r`
and `s` add up to at most `n`. -/
theorem ht_add_ht_le {r s : RatFunc F} {W S T : F[X]} {n : ℕ} (hW : W ≠ 0)
    (e1 : algebraMap F[X] (RatFunc F) S = algebraMap F[X] (RatFunc F) W * (r + s))
    (e2 : algebraMap F[X] (RatFunc F) T = algebraMap F[X] (RatFunc F) W * (r * s))
    (dW : W.natDegree ≤ n) (dS : S.natDegree ≤ n) (dT : T.natDegree ≤ n) : ht r + ht s ≤ n := by
  obtain ⟨α, β, h1⟩ := r.isCoprime_num_denom
  obtain ⟨α', β', h2⟩ := s.isCoprime_num_denom
  have hv := r.denom_ne_zero
  have hv' := s.denom_ne_zero
  have hr := RatFunc.num_div_denom r
  have hs := RatFunc.num_div_denom s
  unfold ht
  generalize r.num = u at *
  generalize r.denom = v at *
  generalize s.num = u' at *
  generalize s.denom = v' at *
  have inj := RatFunc.algebraMap_injective F
  have hvL : algebraMap F[X] (RatFunc F) v ≠ 0 := by rwa [Ne, map_eq_zero_iff _ inj]
  have hvL' : algebraMap F[X] (RatFunc F) v' ≠ 0 := by rwa [Ne, map_eq_zero_iff _ inj]
  have f1 : S * (v * v') = W * (u * v' + u' * v) := by
    apply inj
    rw [← hr, ← hs] at e1
    simp only [map_mul, map_add]
    rw [e1]
    field_simp
  have f2 : T * (v * v') = W * (u * u') := by
    apply inj
    rw [← hr, ← hs] at e2
    simp only [map_mul]
    rw [e2]
    field_simp
  obtain ⟨g, hg⟩ : v * v' ∣ W := by
    set c := α * β' - β * α' with hc
    set J := α * α' * (u * u') + β * β' * (v * v') + β * α' * (u * v' + u' * v) with hJ
    have e : 1 = c ^ 2 * (u * v' * (u * v' + u' * v) - u * u' * (v * v')) + (2 - J) * J := by
      have h3 : c * (u * v') = 1 - J := by
        rw [hc, hJ]
        linear_combination (α' * u' + β' * v') * h1 + h2
      have h4 : (c * (u * v')) ^ 2 = (1 - J) ^ 2 := by rw [h3]
      linear_combination -h4
    refine ⟨(c ^ 2 * (u * v') + (2 - J) * (β * α')) * S + (-c ^ 2 * (v * v') + (2 - J) * (α * α')) * T +
      (2 - J) * (β * β') * W, ?_⟩
    conv_lhs => rw [← mul_one W, e]
    generalize hJ2 : 2 - J = J2
    rw [hJ]
    linear_combination (-(c ^ 2 * (u * v') + J2 * (β * α'))) * f1 - (-c ^ 2 * (v * v') + J2 * (α * α')) * f2
  have hvv : v * v' ≠ 0 := mul_ne_zero hv hv'
  have hg0 : g ≠ 0 := by rintro rfl; exact hW (by rw [hg, mul_zero])
  have fS : S = g * (u * v' + u' * v) := mul_right_cancel₀ hvv (by rw [f1, hg]; ring)
  have fT : T = g * (u * u') := mul_right_cancel₀ hvv (by rw [f2, hg]; ring)
  have bd : ∀ p : F[X], (g * p).natDegree ≤ n → p.natDegree ≤ n := by
    intro p hp
    by_cases h0 : p = 0
    · rw [h0]; simp
    · rw [natDegree_mul hg0 h0] at hp; omega
  have bW : v.natDegree + v'.natDegree ≤ n := by
    rw [← natDegree_mul hv hv']
    exact bd _ (by rwa [mul_comm, ← hg])
  have bS := bd _ (fS ▸ dS)
  have bT := bd _ (fT ▸ dT)
  have z : ∀ p q : F[X], q.natDegree < p.natDegree → p ≠ 0 := by
    rintro p q h rfl
    simp at h
  rcases lt_trichotomy u.natDegree v.natDegree with h | h | h
  · rcases le_or_gt u'.natDegree v'.natDegree with h' | h'
    · omega
    · rw [natDegree_add_eq_right_of_natDegree_lt, natDegree_mul (z _ _ h') hv] at bS
      · omega
      · have := natDegree_mul_le (p := u) (q := v')
        rw [natDegree_mul (z _ _ h') hv]
        omega
  · rcases le_or_gt u'.natDegree v'.natDegree with h' | h'
    · omega
    · by_cases hu : u = 0
      · rw [hu, zero_mul, zero_add, natDegree_mul (z _ _ h') hv] at bS
        omega
      · rw [natDegree_mul hu (z _ _ h')] at bT
        omega
  · rcases lt_trichotomy u'.natDegree v'.natDegree with h' | h' | h'
    · rw [natDegree_add_eq_left_of_natDegree_lt, natDegree_mul (z _ _ h) hv'] at bS
      · omega
      · have := natDegree_mul_le (p := u') (q := v)
        rw [natDegree_mul (z _ _ h) hv']
        omega
    · by_cases hu : u' = 0
      · rw [hu, zero_mul, add_zero, natDegree_mul (z _ _ h) hv'] at bS
        omega
      · rw [natDegree_mul (z _ _ h) hu] at bT
        omega
    · rw [natDegree_mul (z _ _ h) (z _ _ h')] at bT
      omega

end
end EC
