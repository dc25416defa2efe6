import Verif.Lemmas.ModThree
import Verif.Lemmas.SchoofDE
import Verif.Props.SchoofUpToSign
import Verif.Props.SchoofSign

/-! Property C73: the exact entry modulo 3 that `schoof` returns for `q = 1` modulo 3. -/

namespace EC
open Poly Polynomial WeierstrassCurve EDS

section
variable {K : Type} [Field K] [DecidableEq K] [IsAlgClosed K] {a b q : ℤ} [Fact (Nat.Prime q.toNat)]
  [CharP K q.toNat] {fuel : ℕ}

local notation "φ" => frobPoint q.toNat a b

theorem smul_mod_three_one {G : Type*} [AddCommGroup G] {q : ℤ} (h3 : q % 3 = 1) {P : G} (hP : 3 • P = 0) :
    q • P = P := by
  have : q = 3 * (q / 3) + 1 := by omega
  have hP' : (3 : ℤ) • P = 0 := by rw [show (3 : ℤ) = ((3 : ℕ) : ℤ) from rfl, natCast_zsmul]; exact hP
  rw [this, add_smul, mul_comm, mul_smul, hP', smul_zero, zero_add, one_smul]

theorem smul_of_modEq_three {G : Type*} [AddCommGroup G] {t s : ℤ} (h3 : t ≡ s [ZMOD 3]) {P : G} (hP : 3 • P = 0) :
    t • P = s • P := by
  obtain ⟨k, hk⟩ := h3.dvd
  have : t = s - 3 * k := by omega
  have hP' : (3 : ℤ) • P = 0 := by rw [show (3 : ℤ) = ((3 : ℕ) : ℤ) from rfl, natCast_zsmul]; exact hP
  rw [this, sub_smul, mul_comm, mul_smul, hP', smul_zero, sub_zero]

theorem frob_tors (h2 : (2 : K) ≠ 0) {R : Pt (a : K) b} (hR : 3 • R = 0) : 3 • φ R = 0 := by
  have := frob_zsmul (q := q) h2 3 R
  rw [show (3 : ℤ) = ((3 : ℕ) : ℤ) from rfl, natCast_zsmul, hR, frob_zero, natCast_zsmul] at this
  exact this.symm

theorem char_nonzero_data (h2 : q ≠ 2) (hns : ¬ q ∣ 4 * a ^ 3 + 27 * b ^ 2) (h3 : q ≠ 3) :
    (2 : K) ≠ 0 ∧ (3 : K) ≠ 0 ∧ 4 * (a : K) ^ 3 + 27 * (b : K) ^ 2 ≠ 0 := by
  have hpr : Nat.Prime q.toNat := Fact.out
  have hq2 := two_le_of_prime (p := q) hpr
  have hcast : ∀ n : ℤ, (n : K) = 0 → q ∣ n := by
    intro n hn
    have := (CharP.intCast_eq_zero_iff K q.toNat n).1 hn
    rwa [Int.toNat_of_nonneg (by omega)] at this
  refine ⟨two_ne_char (K := K) h2, ?_, ?_⟩
  · intro h0
    have h1 := hcast 3 (by exact_mod_cast h0)
    have := Int.le_of_dvd (by norm_num) h1
    have : q = 2 ∨ q = 3 := by omega
    omega
  · intro h0
    apply hns
    apply hcast
    push_cast
    exact h0

theorem frob_fixed_mem [Algebra (ZMod q.toNat) K] {x : K} (hx : x ^ q.toNat = x) :
    ∃ z : ZMod q.toNat, algebraMap (ZMod q.toNat) K z = x := by
  have h := congrArg (Polynomial.aeval x) (frob_prod q.toNat)
  simp only [map_sub, map_pow, aeval_X, map_prod, aeval_C, hx, sub_self] at h
  obtain ⟨z, -, hz⟩ := Finset.prod_eq_zero_iff.1 h.symm
  exact ⟨z, (sub_eq_zero.1 hz).symm⟩

/-- All points of order 3 have `F^2 P = P` exactly if the third division polynomial has four roots in GF(q). -/
theorem frob_sq_three_iff (h2 : (2 : K) ≠ 0) (h3K : (3 : K) ≠ 0) (hd : 4 * (a : K) ^ 3 + 27 * (b : K) ^ 2 ≠ 0)
    {s : ℤ} (hs : s = 1 ∨ s = -1) (hF : ∀ P : Pt (a : K) b, 3 • P = 0 → φ (φ P) + P = s • φ P) :
    (∀ P : Pt (a : K) b, 3 • P = 0 → φ (φ P) = P) ↔
      (Finset.univ.filter fun x : ZMod q.toNat =>
        3 * x ^ 4 + 6 * (a : ZMod q.toNat) * x ^ 2 + 12 * (b : ZMod q.toNat) * x - (a : ZMod q.toNat) ^ 2 = 0).card = 4 := by
  let _ : Algebra (ZMod q.toNat) K := _root_.ZMod.algebra K q.toNat
  let f : ZMod q.toNat →+* K := algebraMap (ZMod q.toNat) K
  have hf : Function.Injective f := f.injective
  have hpr : Nat.Prime q.toNat := Fact.out
  -- the polynomial over `K`
  let p : K[X] := C 3 * X ^ 4 + C (6 * (a : K)) * X ^ 2 + C (12 * (b : K)) * X - C ((a : K) ^ 2)
  have hp4 : p.coeff 4 = 3 := by
    dsimp only [p]; compute_degree!
  have hp0 : p ≠ 0 := fun h0 => h3K (by rw [← hp4, h0, coeff_zero])
  have hdeg : p.natDegree ≤ 4 := by
    dsimp only [p]; compute_degree
  have hev : ∀ x, p.eval x = 3 * x ^ 4 + 6 * (a : K) * x ^ 2 + 12 * (b : K) * x - (a : K) ^ 2 := by
    intro x; simp [p]
  have hroots : p.roots.toFinset.card ≤ 4 :=
    (Multiset.toFinset_card_le _).trans ((card_roots' p).trans hdeg)
  set S := Finset.univ.filter fun x : ZMod q.toNat =>
        3 * x ^ 4 + 6 * (a : ZMod q.toNat) * x ^ 2 + 12 * (b : ZMod q.toNat) * x - (a : ZMod q.toNat) ^ 2 = 0 with hS
  have hfS : ∀ x : ZMod q.toNat, x ∈ S ↔ f x ∈ p.roots.toFinset := by
    intro x
    rw [hS, Finset.mem_filter, Multiset.mem_toFinset, mem_roots hp0, IsRoot.def, hev]
    simp only [Finset.mem_univ, true_and]
    rw [← map_eq_zero_iff f hf]
    simp only [map_sub, map_add, map_mul, map_pow, map_ofNat, map_intCast]
  have hSK : S.image f ⊆ p.roots.toFinset := by
    intro x hx
    obtain ⟨y, hy, rfl⟩ := Finset.mem_image.1 hx
    exact (hfS y).1 hy
  have hcard : (S.image f).card = S.card := Finset.card_image_of_injective _ hf
  constructor
  · intro hall
    obtain ⟨t, ht, htP⟩ := card_torsion_x (a := (a : K)) (b := b) h2 hd (n := 3) (by exact_mod_cast h3K)
    have htS : t ⊆ S.image f := by
      intro x hx
      obtain ⟨P, hP0, h3P, rfl⟩ := htP x hx
      have h3P' : 3 • P = 0 := h3P
      have hFP := hF P h3P'
      rw [hall P h3P'] at hFP
      have h2P : P + P = -P := by
        rw [eq_neg_iff_add_eq_zero, ← h3P']; abel
      rw [h2P] at hFP
      obtain ⟨q1, q2, -⟩ := frobPoint_ne (q := q) hP0
      have hx : xc P ^ q.toNat = xc P := by
        rw [← q2]
        rcases hs with rfl | rfl
        · rw [one_smul] at hFP
          rw [← hFP, xc_neg]
        · rw [neg_smul, one_smul, neg_inj] at hFP
          rw [← hFP]
      have hr : ∃ z : ZMod q.toNat, f z = xc P := by
        exact frob_fixed_mem hx
      obtain ⟨z, hz⟩ := hr
      refine Finset.mem_image.2 ⟨z, (hfS z).2 ?_, hz⟩
      rw [hz, Multiset.mem_toFinset, mem_roots hp0, IsRoot.def, hev]
      exact psi3_root h2 hP0 h3P'
    have h5 := Finset.card_le_card htS
    have h6 := Finset.card_le_card hSK
    omega
  · intro h4 P h3P
    by_cases hP0 : P = 0
    · rw [hP0, frob_zero, frob_zero]
    have heq : S.image f = p.roots.toFinset := Finset.eq_of_subset_of_card_le hSK (by omega)
    have hx : xc P ∈ S.image f := by
      rw [heq, Multiset.mem_toFinset, mem_roots hp0, IsRoot.def, hev]
      exact psi3_root h2 hP0 h3P
    obtain ⟨z, -, hz⟩ := Finset.mem_image.1 hx
    apply frob_sq_of_xc
    rw [← hz, ← map_pow, ZMod.pow_card]

/-- The entry modulo 3, for `q = 1` modulo 3. -/
theorem schoofL_three_exact (h2 : q ≠ 2) (h1 : q % 3 = 1) (hi : q ≤ 2147483647)
    (hns : ¬ q ∣ 4 * a ^ 3 + 27 * b ^ 2) {r : ModResult} (h : schoofL fuel a b q (3 : ℕ) = .ok r) {t : ℤ}
    (hF : ∀ P : Pt (a : K) b, φ (φ P) + q • P = t • φ P) :
    r.r = if (3 : ℤ) ∣ t then (if ∃ c : ZMod q.toNat, c ≠ 0 ∧ c ^ 3 = -4 * (b : ZMod q.toNat) then 1 else 0)
      else if (Finset.univ.filter fun x : ZMod q.toNat =>
          3 * x ^ 4 + 6 * (a : ZMod q.toNat) * x ^ 2 + 12 * (b : ZMod q.toNat) * x -
            (a : ZMod q.toNat) ^ 2 = 0).card = 4 ∨ (t ≡ 1 [ZMOD 3] ∧ q ∣ a) then 1 else 2 := by
  have hpr : Nat.Prime q.toNat := Fact.out
  have hq2 := two_le_of_prime (p := q) hpr
  have hq3 : (3 : ℤ) < q := by omega
  obtain ⟨h2K, h3K, hd⟩ := char_nonzero_data (K := K) (a := a) (b := b) h2 hns (by omega)
  have ha : (a : K) = 0 ↔ q ∣ a := by
    rw [CharP.intCast_eq_zero_iff K q.toNat, Int.toNat_of_nonneg (by omega)]
  -- a point of order 3
  obtain ⟨P0, hP0, h3P0⟩ : ∃ P : Pt (a : K) b, P ≠ 0 ∧ 3 • P = 0 := by
    obtain ⟨u, hu, huP⟩ := card_torsion_x (a := (a : K)) (b := b) h2K hd (n := 3) (by exact_mod_cast h3K)
    have : u.Nonempty := by rw [← Finset.card_pos]; omega
    obtain ⟨x, hx⟩ := this
    obtain ⟨P, h4, h5, -⟩ := huP x hx
    exact ⟨P, h4, h5⟩
  have hF3 : ∀ P : Pt (a : K) b, 3 • P = 0 → ∀ s : ℤ, t ≡ s [ZMOD 3] → φ (φ P) + P = s • φ P := by
    intro P hP s hs
    have := hF P
    rw [smul_mod_three_one h1 hP, smul_of_modEq_three hs (frob_tors h2K hP)] at this
    exact this
  -- the search finds 1 exactly if 3 does not divide the trace
  have hcongr : SchoofCongr K a b q (3 : ℕ) 1 ↔ ¬ (3 : ℤ) ∣ t := by
    constructor
    · intro hc htd
      have e1 := hF3 P0 h3P0 0 (Int.modEq_zero_iff_dvd.2 htd)
      rw [zero_smul] at e1
      have hQ := (frobPoint_ne (q := q) hP0).1
      rcases hc P0 (by rw [natCast_zsmul]; exact h3P0) with h4 | h4 | h4
      · rw [smul_mod_three_one h1 h3P0] at h4
        rw [h4] at e1
        apply hP0
        have : (3 : ℕ) • P0 = P0 + P0 + P0 := by abel
        rw [this, e1, zero_add] at h3P0
        exact h3P0
      · rw [smul_mod_three_one h1 h3P0, e1, one_smul] at h4
        exact hQ h4.symm
      · rw [smul_mod_three_one h1 h3P0, e1, one_smul] at h4
        exact hQ (neg_eq_zero.1 h4.symm)
    · intro htd P hP
      rw [natCast_zsmul] at hP
      right
      rw [smul_mod_three_one h1 hP]
      have : t ≡ 1 [ZMOD 3] ∨ t ≡ -1 [ZMOD 3] := by simp only [Int.ModEq]; omega
      rcases this with hs | hs
      · left; exact hF3 P hP 1 hs
      · right; rw [hF3 P hP (-1) hs, neg_smul]
  unfold schoofL at h
  obtain ⟨nd, hnd, h⟩ := Res.bind_eq_ok.1 h
  obtain ⟨ps, hps, h⟩ := Res.bind_eq_ok.1 h
  obtain ⟨psL, hpsL, h⟩ := Res.bind_eq_ok.1 h
  obtain ⟨o, ho, h⟩ := Res.bind_eq_ok.1 h
  rw [fmod_pos_eq (by norm_num)] at h hnd
  have hql : q % ((3 : ℕ) : ℤ) = ((1 : ℕ) : ℤ) := by push_cast; exact h1
  rw [hql] at h hnd
  have hir : irange 1 ((((3 : ℕ) : ℤ) - 1).tdiv 2 + 1) = [1] := by decide
  rw [hir] at ho
  have hT := findJ_iff (T := fun j => SchoofCongr K a b q (3 : ℕ) j) [1] (by
    intro j hj r hr
    simp only [List.mem_singleton] at hj
    subst hj
    rw [xTest_iff (K := K) (j := 1) h2 hns Nat.prime_three (by norm_num) (by exact_mod_cast hq3) hql (by omega) (by omega)
      hnd hps hpsL hr]
    simp only [SchoofCongr, natCast_zsmul, one_smul]) o ho
  cases o with
  | none =>
    have htd : (3 : ℤ) ∣ t := by
      by_contra hc
      exact hT 1 (by simp) (hcongr.2 hc)
    rw [if_pos htd]
    rcases schoofDE_three hi h1 h with ⟨h4, h5⟩ | ⟨h4, h5⟩
    · rw [h4, if_pos h5]
    · rw [h4, if_neg h5]
  | some jj =>
    obtain ⟨pre, post, h4, h5, -⟩ := hT
    have hj1 : jj = 1 := by
      have : jj ∈ ([1] : List ℤ) := by rw [h4]; simp
      simpa using this
    subst hj1
    have htd := hcongr.1 h5
    rw [if_neg htd]
    obtain ⟨-, hr⟩ := schoofY_shape le_rfl h
    have hy := yTest_iff (K := K) (j := 1) h2 hns Nat.prime_three (by norm_num) (by exact_mod_cast hq3) hql le_rfl (by norm_num)
      hps hpsL h
    simp only [one_smul] at hy
    have hs : ∃ s : ℤ, (s = 1 ∨ s = -1) ∧ t ≡ s [ZMOD 3] := by
      by_cases hc : t ≡ 1 [ZMOD 3]
      · exact ⟨1, .inl rfl, hc⟩
      · exact ⟨-1, .inr rfl, by simp only [Int.ModEq] at hc ⊢; omega⟩
    obtain ⟨s, hs, hts⟩ := hs
    have hFs : ∀ P : Pt (a : K) b, 3 • P = 0 → φ (φ P) + P = s • φ P := fun P hP => hF3 P hP s hts
    rw [three_test_iff h2K h3K hs hFs, frob_sq_three_iff h2K h3K hd hs hFs, ha] at hy
    have hs1 : s = 1 ↔ t ≡ 1 [ZMOD 3] := by
      simp only [Int.ModEq] at hts ⊢
      omega
    rw [hs1] at hy
    split_ifs with hc
    · exact hy.2 hc
    · have : r.r ≠ 1 := fun h0 => hc (hy.1 h0)
      push_cast at hr
      omega

end

/-- C73: for a prime `q = 1` modulo 3 and a nonsingular curve of trace `t`, the entry `r mod 3` that `schoof` returns is:
if 3 divides `t`, then 1 if `-4 b` is the cube of a nonzero element of GF(q), and 0 otherwise; if 3 does not divide `t`,
then 1 if `3 x^4 + 6 a x^2 + 12 b x - a^2` has four roots in GF(q), or if `t` is 1 modulo 3 and `q` divides `a`, and 2
otherwise. -/
theorem C73_mod_three (a b q : ℤ) [hq : Fact (Nat.Prime q.toNat)] (h1 : q % 3 = 1)
    (hns : ¬ q ∣ 4 * a ^ 3 + 27 * b ^ 2) (fuel : ℕ)
    (r : List ModResult) (h : schoof fuel a b q = .ok r) (e : ModResult) (he : e ∈ r) (hl : e.l = 3) (t : ℤ)
    (ht : t = q + 1 - Nat.card (shortW (a : ZMod q.toNat) (b : ZMod q.toNat)).toAffine.Point) :
    e.r = if (3 : ℤ) ∣ t then (if ∃ c : ZMod q.toNat, c ≠ 0 ∧ c ^ 3 = -4 * (b : ZMod q.toNat) then 1 else 0)
      else if (Finset.univ.filter fun x : ZMod q.toNat =>
          3 * x ^ 4 + 6 * (a : ZMod q.toNat) * x ^ 2 + 12 * (b : ZMod q.toNat) * x -
            (a : ZMod q.toNat) ^ 2 = 0).card = 4 ∨ (t ≡ 1 [ZMOD 3] ∧ q ∣ a) then 1 else 2 := by
  have h2 : q ≠ 2 := by omega
  have hi : q ≤ 2147483647 := by
    by_contra hc
    exact C62_large a b q (by omega) fuel r h
  have hS : schoofL fuel a b q (3 : ℕ) = .ok e := by
    obtain ⟨r2, e2, hr⟩ := schoof_eq_ok h
    have hr2 : r2.l = 2 := by
      unfold schoof2 at e2
      obtain ⟨c, -, e2⟩ := Res.bind_eq_ok.1 e2
      simp only [Res.ok.injEq] at e2; subst e2; rfl
    rcases hr with ⟨-, rfl⟩ | ⟨-, -, r3, h3', rfl⟩ | ⟨-, r3, r5, h3', h5', rfl⟩
    · simp only [List.mem_singleton] at he; subst he; omega
    · simp only [List.mem_cons, List.not_mem_nil, or_false] at he
      rcases he with rfl | rfl
      · omega
      · exact h3'
    · simp only [List.mem_cons, List.not_mem_nil, or_false] at he
      rcases he with rfl | rfl | rfl
      · omega
      · exact h3'
      · have := (schoofL_shape (by norm_num) h5').1
        omega
  let K := AlgebraicClosure (ZMod q.toNat)
  have : CharP K q.toNat := charP_of_injective_algebraMap (algebraMap (ZMod q.toNat) K).injective q.toNat
  have : DecidableEq K := Classical.decEq K
  exact schoofL_three_exact (K := K) h2 h1 hi hns hS (fun P => frob_char_point h2 hns P ht)

/-- C73: when the entry modulo 3 is the trace modulo 3, for `q = 1` modulo 3. -/
theorem C73_right (a b q : ℤ) [hq : Fact (Nat.Prime q.toNat)] (h1 : q % 3 = 1)
    (hns : ¬ q ∣ 4 * a ^ 3 + 27 * b ^ 2) (fuel : ℕ)
    (r : List ModResult) (h : schoof fuel a b q = .ok r) (e : ModResult) (he : e ∈ r) (hl : e.l = 3) (t : ℤ)
    (ht : t = q + 1 - Nat.card (shortW (a : ZMod q.toNat) (b : ZMod q.toNat)).toAffine.Point) :
    (t ≡ 0 [ZMOD 3] → (e.r ≡ t [ZMOD 3] ↔ ¬ ∃ c : ZMod q.toNat, c ≠ 0 ∧ c ^ 3 = -4 * (b : ZMod q.toNat))) ∧
    (t ≡ 1 [ZMOD 3] → (e.r ≡ t [ZMOD 3] ↔ (Finset.univ.filter fun x : ZMod q.toNat =>
          3 * x ^ 4 + 6 * (a : ZMod q.toNat) * x ^ 2 + 12 * (b : ZMod q.toNat) * x -
            (a : ZMod q.toNat) ^ 2 = 0).card = 4 ∨ q ∣ a)) ∧
    (t ≡ 2 [ZMOD 3] → (e.r ≡ t [ZMOD 3] ↔ (Finset.univ.filter fun x : ZMod q.toNat =>
          3 * x ^ 4 + 6 * (a : ZMod q.toNat) * x ^ 2 + 12 * (b : ZMod q.toNat) * x -
            (a : ZMod q.toNat) ^ 2 = 0).card ≠ 4)) := by
  have hm := C73_mod_three a b q h1 hns fuel r h e he hl t ht
  refine ⟨fun h0 => ?_, fun h0 => ?_, fun h0 => ?_⟩
  · rw [if_pos (Int.modEq_zero_iff_dvd.1 h0)] at hm
    split_ifs at hm with hc
    · simp only [Int.ModEq] at *
      constructor
      · intro; omega
      · intro h3; exact absurd hc h3
    · simp only [Int.ModEq] at *
      constructor
      · intro _; exact hc
      · intro; omega
  · have hn : ¬ (3 : ℤ) ∣ t := by simp only [Int.ModEq] at h0; omega
    simp only [if_neg hn, h0, true_and] at hm
    split_ifs at hm with hc
    · refine iff_of_true ?_ hc
      simp only [Int.ModEq] at *; omega
    · refine iff_of_false ?_ hc
      simp only [Int.ModEq] at *; omega
  · have hn : ¬ (3 : ℤ) ∣ t := by simp only [Int.ModEq] at h0; omega
    have hn1 : ¬ t ≡ 1 [ZMOD 3] := by simp only [Int.ModEq] at *; omega
    simp only [if_neg hn, hn1, false_and, or_false] at hm
    split_ifs at hm with hc
    · refine iff_of_false ?_ (not_not.2 hc)
      simp only [Int.ModEq] at *; omega
    · refine iff_of_true ?_ hc
      simp only [Int.ModEq] at *; omega


end EC
