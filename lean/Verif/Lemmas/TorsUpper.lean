import Verif.Lemmas.TorsCount
import Verif.Lemmas.TwoGen
import Mathlib.GroupTheory.PGroup

/-! Pure mathematics: at most `n^2` points of `y^2 = x^3 + a x + b` are killed by `n`. -/

namespace EC
open WeierstrassCurve EDS Polynomial

section
variable {K : Type} [Field K] [DecidableEq K] {a b : K}

/-- Two points, at most, have the same `x`-coordinate. -/
theorem card_le_two_mul_xc (s : Finset (Pt a b)) (hs : ∀ P ∈ s, P ≠ 0) : s.card ≤ 2 * (s.image xc).card := by
  apply Finset.card_le_mul_card_image
  intro x hx
  obtain ⟨P, hP, rfl⟩ := Finset.mem_image.1 hx
  refine (Finset.card_le_card (t := {P, -P}) ?_).trans Finset.card_le_two
  intro Q hQ
  rw [Finset.mem_filter] at hQ
  rw [Finset.mem_insert, Finset.mem_singleton]
  exact (xc_eq_iff (hs Q hQ.1) (hs P hP)).1 hQ.2

/-- A set of elements at which a nonzero polynomial vanishes has at most as many elements as its degree. -/
theorem card_le_of_roots {f : K[X]} (hf : f ≠ 0) {d : ℕ} (hd : f.natDegree ≤ d) (t : Finset K) (ht : ∀ x ∈ t, f.eval x = 0) :
    t.card ≤ d := by
  refine le_trans ?_ hd
  refine le_trans (Finset.card_le_card (t := f.roots.toFinset) fun x hx => ?_) (f.roots.toFinset_card_le.trans f.card_roots')
  rw [Multiset.mem_toFinset, mem_roots hf]
  exact ht x hx

theorem card_two_tors (h2 : (2 : K) ≠ 0) (s : Finset (Pt a b)) (hs : ∀ P ∈ s, P ≠ 0 ∧ yc P = 0) : s.card ≤ 3 := by
  have h1 : s.card = (s.image xc).card := by
    rw [Finset.card_image_of_injOn]
    intro P hP Q hQ h
    rcases (xc_eq_iff (hs P hP).1 (hs Q hQ).1).1 h with h | h
    · exact h
    · rw [h, neg_eq_iff_add_eq_zero]
      exact (two_nsmul_eq_zero_iff h2 (hs Q hQ).1).2 (hs Q hQ).2
  rw [h1]
  have hdeg : (X ^ 3 + C a * X + C b : K[X]).natDegree = 3 := by compute_degree!
  refine card_le_of_roots (f := X ^ 3 + C a * X + C b) (fun h0 => ?_) hdeg.le _ fun x hx => ?_
  · rw [h0] at hdeg; simp at hdeg
  · obtain ⟨P, hP, rfl⟩ := Finset.mem_image.1 hx
    have := eqn (hs P hP).1
    rw [(hs P hP).2] at this
    simp only [eval_add, eval_pow, eval_X, eval_mul, eval_C]
    rw [← this]; ring

/-- At most `n^2` points are killed by `n`, if `n ≠ 0` in the field. -/
theorem card_tors_le (h2 : (2 : K) ≠ 0) {n : ℕ} (hn : (n : K) ≠ 0) (s : Finset (Pt a b)) (hs : ∀ P ∈ s, n • P = 0) :
    s.card ≤ n ^ 2 := by
  have n0 : n ≠ 0 := by rintro rfl; simp at hn
  have hn' : ((n : ℤ) : K) ≠ 0 := by exact_mod_cast hn
  have hF : ∀ P ∈ s, P ≠ 0 → ((cv a b).preΨ n).eval (xc P) * (if Even (n : ℤ) then 2 * yc P else 1) = 0 := fun P hP h => by
    have := (F_eq_zero_iff h2 h n n0).2 (hs P hP)
    rw [F, eval_preΨ (eqn h)] at this
    exact this
  have hdeg := (cv a b).natDegree_preΨ_le n
  rw [Int.natAbs_natCast] at hdeg
  have hs1 : s.card ≤ (s.filter fun P => P ≠ 0).card + 1 := by
    rw [Finset.filter_ne']
    have := Finset.pred_card_le_card_erase (s := s) (a := 0)
    omega
  by_cases he : Even (n : ℤ)
  · have hs2 := Finset.card_filter_add_card_filter_not (s := s.filter fun P => P ≠ 0) (fun P => yc P = 0)
    have h3 := card_two_tors h2 ((s.filter fun P => P ≠ 0).filter fun P => yc P = 0) fun P hP => by
      rw [Finset.mem_filter, Finset.mem_filter] at hP
      exact ⟨hP.1.2, hP.2⟩
    have h4 := card_le_two_mul_xc ((s.filter fun P => P ≠ 0).filter fun P => ¬ yc P = 0) fun P hP => by
      rw [Finset.mem_filter, Finset.mem_filter] at hP
      exact hP.1.2
    have h5 := card_le_of_roots ((cv a b).preΨ_ne_zero hn') hdeg
      (((s.filter fun P => P ≠ 0).filter fun P => ¬ yc P = 0).image xc) fun x hx => by
        obtain ⟨P, hP, rfl⟩ := Finset.mem_image.1 hx
        rw [Finset.mem_filter, Finset.mem_filter] at hP
        have := hF P hP.1.1 hP.1.2
        rw [if_pos he] at this
        exact (mul_eq_zero.1 this).resolve_right (mul_ne_zero h2 hP.2)
    rw [if_pos he] at h5
    have h6 : 4 ≤ n ^ 2 := by
      have : 2 ≤ n := by
        rcases (by omega : n = 1 ∨ 2 ≤ n) with rfl | h
        · simp at he
        · exact h
      nlinarith
    omega
  · have h4 := card_le_two_mul_xc (s.filter fun P => P ≠ 0) fun P hP => (Finset.mem_filter.1 hP).2
    have h5 := card_le_of_roots ((cv a b).preΨ_ne_zero hn') hdeg ((s.filter fun P => P ≠ 0).image xc) fun x hx => by
        obtain ⟨P, hP, rfl⟩ := Finset.mem_image.1 hx
        rw [Finset.mem_filter] at hP
        have := hF P hP.1 hP.2
        rw [if_neg he, mul_one] at this
        exact this
    rw [if_neg he] at h5
    have h6 : 1 ≤ n ^ 2 := Nat.one_le_pow _ _ (by omega)
    omega

end

/-- For coprime `k`, `l` the number of elements killed by `k l` is at most the product of the numbers. -/
theorem card_tors_mul_le {A : Type*} [AddCommGroup A] [Finite A] {k l : ℕ} (h : k.Coprime l) :
    Nat.card (tors A (k * l)) ≤ Nat.card (tors A k) * Nat.card (tors A l) := by
  rw [← Nat.card_prod]
  refine Nat.card_le_card_of_injective (fun x => ((⟨l • x.1, mem_tors.2 ?_⟩ : tors A k), (⟨k • x.1, mem_tors.2 ?_⟩ : tors A l))) ?_
  · have := mem_tors.1 x.2
    rw [← mul_nsmul', this]
  · have := mem_tors.1 x.2
    rw [← mul_nsmul', mul_comm, this]
  · intro x y hxy
    simp only [Prod.mk.injEq, Subtype.mk.injEq] at hxy
    obtain ⟨e1, e2⟩ := hxy
    have hz : x.1 - y.1 = 0 := by
      rw [← AddMonoid.addOrderOf_eq_one_iff, ← Nat.dvd_one, ← h]
      refine Nat.dvd_gcd (addOrderOf_dvd_of_nsmul_eq_zero ?_) (addOrderOf_dvd_of_nsmul_eq_zero ?_)
      · rw [nsmul_sub, e2, sub_self]
      · rw [nsmul_sub, e1, sub_self]
    exact Subtype.ext (sub_eq_zero.1 hz)

/-- The elements killed by a power of `p` number at most `p` if the group has fewer than `p^2` elements. -/
theorem card_tors_prime_pow {A : Type*} [AddCommGroup A] [Finite A] {p : ℕ} (hp : p.Prime) (hA : Nat.card A < p ^ 2) (e : ℕ) :
    Nat.card (tors A (p ^ e)) ≤ p := by
  have : Fact p.Prime := ⟨hp⟩
  have hpg : IsPGroup p (Multiplicative (tors A (p ^ e))) := fun x => ⟨e, by
    have := mem_tors.1 (Multiplicative.toAdd x).2
    apply Multiplicative.toAdd.injective
    rw [toAdd_pow]
    exact Subtype.ext this⟩
  obtain ⟨i, hi⟩ := (IsPGroup.iff_card).1 hpg
  have hi' : Nat.card (tors A (p ^ e)) = p ^ i := hi
  rw [hi']
  have h1 : p ^ i < p ^ 2 := by
    rw [← hi']
    exact lt_of_le_of_lt (Nat.card_le_card_of_injective _ Subtype.val_injective) hA
  have h3 := (Nat.pow_lt_pow_iff_right hp.one_lt).1 h1
  calc p ^ i ≤ p ^ 1 := Nat.pow_le_pow_right hp.pos (by omega)
    _ = p := pow_one p

end EC
